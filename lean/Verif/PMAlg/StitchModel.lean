import Mathlib.Algebra.Order.Field.Rat
import Mathlib.Algebra.Order.Ring.Abs
import Mathlib.Algebra.BigOperators.Group.List.Basic

/-!
Model of `pma::PMAlgStitching` (larreco/RecoAlg/PMAlgStitching.cxx): stitching of tracks across the cathode or the
anode.

Simplifications: coordinates are rationals; a track is the positions of its nodes and the TPCs of its two ends; a TPC
(with its cryostat) is a number; the length and the unit vector of a `TVector3` are fields of the environment; a score
that is not a number (direction without X component, or coinciding nodes) is `none`. The grid of shifts is exact: the
code adds 0.1 in floating point, so the last of the 101 points may be missed. The changes to the trees are modelled in
Tree*, Ops* and TreeShift.
-/

namespace Verif.PmaStitch

/-- `TVector3` -/
abbrev V := ℚ × ℚ × ℚ

/-- a - b -/
def sub (a b : V) : V := (a.1 - b.1, a.2.1 - b.2.1, a.2.2 - b.2.2)
/-- a + k b -/
def adv (a : V) (k : ℚ) (b : V) : V := (a.1 + k * b.1, a.2.1 + k * b.2.1, a.2.2 + k * b.2.2)

/-- numerics -/
structure Env where
  /-- `TVector3::Mag` -/
  mag : V → ℚ
  /-- `TVector3::Unit` -/
  unit : V → V

/-- `GetTrackPairDelta`, PMAlgStitching.cxx:332-355. -/
def pairDelta (E : Env) (p1 p2 d1 d2 : V) : Option ℚ :=
  if d1.1 = 0 ∨ d2.1 = 0 then none
  else
    let steps1 := (p2.1 - p1.1) / d1.1
    let steps2 := (p1.1 - p2.1) / d2.1
    let m1 := adv p1 steps1 d1
    let m2 := adv p2 steps2 d2
    some (E.mag (sub m1 p2) + E.mag (sub m2 p1))

/-- The score for a shift: the first position moves back, the second one forward, PMAlgStitching.cxx:315-319. -/
def scoreAt (E : Env) (p1 p2 d1 d2 : V) (s : ℚ) : Option ℚ :=
  pairDelta E (p1.1 - s, p1.2) (p2.1 + s, p2.2) d1 d2

/-- One round of the loop, PMAlgStitching.cxx:319-323. -/
def better (E : Env) (p1 p2 d1 d2 : V) (best : ℚ × ℚ) (s : ℚ) : ℚ × ℚ :=
  match scoreAt E p1 p2 d1 d2 s with
  | some d => if d < best.1 then (d, s) else best
  | none => best

/-- The shifts tried, PMAlgStitching.cxx:307-314. -/
def grid (s0 : ℚ) : List ℚ := (List.range 101).map fun (k : Nat) => s0 - 50 * (1 / 10) + (k : ℚ) * (1 / 10)

/-- `GetOptimalStitchShift`, PMAlgStitching.cxx:300-329: score and shift. -/
def optimal (E : Env) (p1 p2 d1 d2 : V) (s0 : ℚ) : ℚ × ℚ :=
  (grid s0).foldl (better E p1 p2 d1 d2) (99999, 99999)

/-- a track -/
structure Trk where
  nodes : List V
  frontTpc : Nat
  backTpc : Nat
deriving DecidableEq

/-- configuration and detector: `fNodesFromEnd`, `fStitchingThreshold`, `GetTPCOffset` (of the TPC, for the surface
asked for) -/
structure Cfg where
  skip : Nat
  thr : ℚ
  off : Nat → ℚ

/-- `Nodes()[i]->Point3D()`; only read within the range -/
def Trk.at (t : Trk) (i : Nat) : V := t.nodes.getD i (0, 0, 0)

/-- `minTrkLength`, PMAlgStitching.cxx:59-61. -/
def minLen (c : Cfg) : Nat := if 2 * c.skip + 3 < 6 then 6 else 2 * c.skip + 3

/-- the position used of an end, PMAlgStitching.cxx:77-78 and 105-106 -/
def pos (c : Cfg) (t : Trk) (front : Bool) : V :=
  if front then t.at c.skip else t.at (t.nodes.length - 1 - c.skip)

/-- the direction at an end, outwards, PMAlgStitching.cxx:79-81 and 107-109 -/
def dir (E : Env) (c : Cfg) (t : Trk) (front : Bool) : V :=
  if front then E.unit (sub (t.at c.skip) (t.at (c.skip + 1)))
  else E.unit (sub (t.at (t.nodes.length - 1 - c.skip)) (t.at (t.nodes.length - 1 - (c.skip + 1))))

/-- the surface of an end, PMAlgStitching.cxx:84-85 and 112-113 -/
def surface (c : Cfg) (t : Trk) (front : Bool) : ℚ := c.off (if front then t.frontTpc else t.backTpc)

/-- `frontShift1`, `backShift1`, PMAlgStitching.cxx:90-91: from the very end of the track -/
def endShift (c : Cfg) (t : Trk) (front : Bool) : ℚ :=
  (if front then t.at 0 else t.at (t.nodes.length - 1)).1 - surface c t front

/-- `giveUp`, PMAlgStitching.cxx:115-135. -/
def giveUp (a b : Trk) : Bool :=
  decide (a.frontTpc = b.frontTpc) || decide (a.frontTpc = b.backTpc) || decide (a.backTpc = b.frontTpc) ||
    decide (a.backTpc = b.backTpc)

/-- one of the four options for a pair: the track and the ends that meet -/
structure Opt where
  u : Nat
  front1 : Bool
  front2 : Bool
deriving DecidableEq, Repr

/-- the options tried for a second track, PMAlgStitching.cxx:99-178: those that pass the tests before the score -/
def options (E : Env) (c : Cfg) (t1 t2 : Trk) (u : Nat) : List Opt :=
  if t2.nodes.length < minLen c then []
  else if giveUp t1 t2 then []
  else [(true, true), (true, false), (false, true), (false, false)].filterMap fun o =>
    if |surface c t1 o.1 - surface c t2 o.2| > 10 then none
    else if (dir E c t1 o.1).1 * (dir E c t2 o.2).1 > 0 then none
    else some ⟨u, o.1, o.2⟩

/-- score and shift of an option, PMAlgStitching.cxx:180 -/
def scored (E : Env) (c : Cfg) (t1 t2 : Trk) (o : Opt) : ℚ × ℚ :=
  optimal E (pos c t1 o.front1) (pos c t2 o.front2) (dir E c t1 o.front1) (dir E c t2 o.front2) (endShift c t1 o.front1)

/-- `bestMatchScore`, `xBestShift` and the match -/
structure Best where
  score : ℚ
  shift : ℚ
  opt : Option Opt
deriving DecidableEq

/-- PMAlgStitching.cxx:182-192 -/
def take (c : Cfg) (sc : Opt → ℚ × ℚ) (b : Best) (o : Opt) : Best :=
  if (sc o).1 < c.thr ∧ (sc o).1 < b.score then ⟨(sc o).1, (sc o).2, some o⟩ else b

/-- The options tried for the track `t`, PMAlgStitching.cxx:95-178: the loops over the second track and over the options are
one list. -/
def tried (E : Env) (c : Cfg) (ts : List Trk) (t : Nat) (t1 : Trk) : List Opt :=
  (List.range ts.length).flatMap fun u => if t < u then
    (match ts[u]? with | some t2 => options E c t1 t2 u | none => []) else []

/-- `scored` for the track at `o.u` -/
def scoreFor (E : Env) (c : Cfg) (ts : List Trk) (t1 : Trk) (o : Opt) : ℚ × ℚ :=
  match ts[o.u]? with
  | some t2 => scored E c t1 t2 o
  | none => (99999, 99999)

/-- The search for a partner of the track `t`, PMAlgStitching.cxx:63-208. -/
def select (E : Env) (c : Cfg) (ts : List Trk) (t : Nat) : Best :=
  match ts[t]? with
  | none => ⟨99999, 0, none⟩
  | some t1 =>
    if t1.nodes.length < minLen c then ⟨99999, 0, none⟩
    else (tried E c ts t t1).foldl (take c (scoreFor E c ts t1)) ⟨99999, 0, none⟩

/-! ### What is done with a match -/

/-- flip the first, flip the second, append the first to the second: PMAlgStitching.cxx:213-227 -/
def plan (front1 front2 : Bool) : Bool × Bool × Bool :=
  if front1 && front2 then (true, false, false)
  else if front1 && !front2 then (false, false, true)
  else if !front1 && !front2 then (false, true, false)
  else (false, false, false)

/-- the nodes of the merged track if the flips succeed, PMAlgStitching.cxx:236-287; a flip reverses the nodes and a merge
appends them (C114, C115) -/
def joined {α : Type} (front1 front2 : Bool) (n1 n2 : List α) : List α :=
  let p := plan front1 front2
  let a := if p.1 then n1.reverse else n1
  let b := if p.2.1 then n2.reverse else n2
  if p.2.2 then b ++ a else a ++ b

/-- what a round of the outer loop does to the position and the number of tracks, PMAlgStitching.cxx:63-296: a track too
short, no match, no flip or no merge (`next`), or a merge; a flip may add `k` tracks -/
inductive Round where
  | next (k : Nat)
  | merged (k : Nat)

/-- the state (t, number of tracks) after a round -/
def advance (s : Nat × Nat) : Round → Nat × Nat
  | .next k => (s.1 + 1, s.2 + k)
  | .merged k => (s.1, s.2 + k - 1)

/-- the outer loop: the number of rounds until `t` reaches the number of tracks, for the outcomes given -/
def rounds (out : Nat → Round) : Nat → Nat × Nat → Nat → Option Nat
  | 0, _, _ => none
  | f + 1, s, i => if s.1 < s.2 then rounds out f (advance s (out i)) (i + 1) else some i

/-! ### Surfaces -/

/-- the cathode of a TPC, PMAlgStitching.cxx:386-394 -/
def cathode (center half anode : ℚ) : ℚ :=
  let xmin := center - half
  let xmax := center + half
  if |xmin - anode| > |xmax - anode| then xmin else xmax

/-- `GetTPCXOffsets`, PMAlgStitching.cxx:358-397: the surfaces (anode, cathode) of the TPCs with planes; `tpcs` lists center
and half width in X, and the X of the first plane if there is one -/
def offsets (tpcs : List (ℚ × ℚ × Option ℚ)) : List (Option (ℚ × ℚ)) :=
  tpcs.map fun t => t.2.2.map fun a => (a, cathode t.1 t.2.1 a)

/-- `GetTPCOffset`, PMAlgStitching.cxx:400-410: `operator[]` of the map creates 0 for a TPC that is not there -/
def tpcOffset (tpcs : List (ℚ × ℚ × Option ℚ)) (isCPA : Bool) (i : Nat) : ℚ :=
  match (offsets tpcs)[i]? with
  | some (some (a, k)) => if isCPA then k else a
  | _ => 0

end Verif.PmaStitch

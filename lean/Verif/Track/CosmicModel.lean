import Verif.Basic
import Mathlib.Algebra.Order.Field.Basic
import Mathlib.Data.List.Sort
/-!
# Model of the cosmic ray tracker
Sources: `/repo/larreco/RecoAlg/CosmicTrackerAlg.cxx` and `/repo/larreco/TrackFinder/CosmicTracker_module.cc`.

Numbers are an ordered field (rounding is not modelled). Hits are numbers; the geometry service and the detector
properties enter through arbitrary functions (wire crossings, drift coordinate, projections of trajectory points).
The trajectory fit itself (`TrackTrajectoryAlg`) is not modelled here.
-/
namespace Verif.Cosmic
open Verif

section
variable {R : Type} [Field R] [LinearOrder R]

/-! ## Clean-up of the fitted trajectory -/

/-- removal of repeated points, CosmicTrackerAlg.cxx:151-161: of two equal neighbours the first one is erased, position
and direction together -/
def dropRepeats {α β : Type} [DecidableEq α] : List (α × β) → List (α × β)
  | [] => []
  | [a] => [a]
  | a :: b :: l => if b.1 = a.1 then dropRepeats (b :: l) else a :: dropRepeats (b :: l)

/-! ## `Track3D` -/

/-- what the hits and the services supply: plane, wire and offset-corrected time of a hit, drift coordinate of a hit
(:388-395), crossing point of the wires of two hits (:406), the hypotenuse, wire pitch and length of a tick -/
structure Env (R : Type) where
  plane : Nat → Nat
  wire : Nat → Int
  time : Nat → R
  x : Nat → R
  cross : Nat → Nat → Option (R × R)
  hyp : R → R → R
  wirePitch : R
  tickLen : R

/-- configuration and the literals of the code: `ftmatch`, `fsmatch`, 1e9 (:228-229), 1e10 (:365), 1e9 (:411) -/
structure Cfg (R : Type) where
  tmatch : R
  smatch : R
  bigT : R
  bigD : R
  bigC : R

variable (E : Env R) (c : Cfg R)

/-- `vhitmap[pl][w] = hit` (and the time with it), CosmicTrackerAlg.cxx:212-213: the map of one plane as the list of its
hits in the order of the wire numbers; a later hit on the same wire replaces the earlier one -/
def setWire (h : Nat) : List Nat → List Nat
  | [] => [h]
  | x :: l => if E.wire h < E.wire x then h :: x :: l else if E.wire h = E.wire x then h :: l else x :: setWire h l

/-- the map of plane `p`, CosmicTrackerAlg.cxx:205-214 -/
def planeMap (hits : List Nat) (p : Nat) : List Nat :=
  hits.foldl (fun m h => if E.plane h = p then setWire E h m else m) []

/-- the two planes with most hits, CosmicTrackerAlg.cxx:237-248: state `iclu1, iclu2, maxnumhits0, maxnumhits1` -/
def pickStep (n : Nat → Nat) (s : Option Nat × Option Nat × Nat × Nat) (i : Nat) : Option Nat × Option Nat × Nat × Nat :=
  if s.2.2.1 < n i then
    match s.1 with
    | some a => (some i, some a, n i, s.2.2.1)
    | none => (some i, s.2.1, n i, s.2.2.2)
  else if s.2.2.2 < n i then (s.1, some i, s.2.2.1, n i)
  else s

/-- `iclu1, iclu2` after the swap of :251 -/
def pick (n : Nat → Nat) : Option Nat × Option Nat :=
  let s := [0, 1, 2].foldl (pickStep n) (none, none, 0, 0)
  (s.2.1, s.1)

/-- `tmin`, `tmax` of a plane, CosmicTrackerAlg.cxx:232-236 -/
def tMin (m : List Nat) : R := m.foldl (fun a h => if E.time h < a then E.time h else a) c.bigT
def tMax (m : List Nat) : R := m.foldl (fun a h => if a < E.time h then E.time h else a) (-c.bigT)

/-- the common time range, CosmicTrackerAlg.cxx:263-286 -/
def inRange (ma mb : List Nat) (h : Nat) : Bool :=
  !(decide (E.time h < max (tMin E c ma) (tMin E c mb) - c.tmatch) ||
    decide (min (tMax E c ma) (tMax E c mb) + c.tmatch < E.time h))

/-- `iclu3`, CosmicTrackerAlg.cxx:254-256: the last plane that is neither -/
def third (a b : Nat) : Nat := [0, 1, 2].foldl (fun r i => if i ≠ a ∧ i ≠ b then i else r) 0

/-- replacing an empty plane, CosmicTrackerAlg.cxx:289-297 (`iclu3` always exists here) -/
def replaceEmpty (m : Nat → List Nat) (a b c3 : Nat) : Nat × Nat :=
  let s : Nat × Nat := if m a = [] then (c3, a) else (a, c3)
  if m b = [] then (s.2, s.1) else (s.1, b)

/-- path length from the first entry to entry `k`, CosmicTrackerAlg.cxx:354-363 and :374-381 -/
def lenTo (m : List Nat) (k : Nat) : R :=
  if m.length = 1 then E.wirePitch
  else ((m.zip m.tail).take k).foldl (fun s p => s + E.hyp (((E.wire p.1 - E.wire p.2 : Int) : R) * E.wirePitch)
    ((E.time p.1 - E.time p.2) * E.tickLen)) 0

/-- the rest of the total length from the second entry on, CosmicTrackerAlg.cxx:337-341, with the reference `(w0, t0)` -/
def totLoop (w0 t0 : R) : List Nat → R → R
  | [], s => s
  | h :: l, s => totLoop ((E.wire h : Int) : R) (E.time h) l
      (s + E.hyp (((E.wire h : Int) - w0) * E.wirePitch) ((E.time h - t0) * E.tickLen))

/-- `vtracklength`, CosmicTrackerAlg.cxx:328-344. The first reference is initialised with wire and time exchanged
(:336: `t0 = iw->first, w0 = iw->second`). -/
def totLen (m : List Nat) : R :=
  match m with
  | [] => 0
  | [_] => E.wirePitch
  | h :: l => totLoop E (E.time h) ((E.wire h : Int) : R) l 0

/-- `rev`, CosmicTrackerAlg.cxx:299-317 -/
def isRev (m1 m2 : List Nat) : Bool :=
  let ts1 := E.time (m1.headD 0)
  let te1 := E.time (m1.getLastD 0)
  let ts2 := E.time (m2.headD 0)
  let te2 := E.time (m2.getLastD 0)
  decide (|ts1 - te2| + |te1 - ts2| < |ts1 - ts2| + |te1 - te2|)

/-- `std::abs(length2 - length1)` for entry `k1` of the first and `k2` of the second plane,
CosmicTrackerAlg.cxx:354-385. Division by a zero length gives 0 here. -/
def mismatch (m1 m2 : List Nat) (k1 k2 : Nat) : R :=
  let l2 := lenTo E m2 k2
  let l2 := if isRev E m1 m2 then totLen E m2 - l2 else l2
  |totLen E m1 / totLen E m2 * l2 - lenTo E m1 k1|

/-- search for the best partner of entry `k1`, CosmicTrackerAlg.cxx:365-387: state `difference`, `matched` -/
def partner (m1 m2 used : List Nat) (k1 h1 : Nat) : R × Option Nat :=
  m2.zipIdx.foldl (fun s e =>
    if e.1 ∈ used then s
    else if |E.time h1 - E.time e.1| < c.tmatch ∧ mismatch E m1 m2 k1 e.2 < s.1 then (mismatch E m1 m2 k1 e.2, some e.1)
    else s) (c.bigD, none)

/-- a space point and its two hits -/
structure Pt (R : Type) where
  x : R
  y : R
  z : R
  h1 : Nat
  h2 : Nat
deriving DecidableEq

/-- loop over the hits of the first plane, CosmicTrackerAlg.cxx:348-422; without a partner the iterator is `end()`,
which is dereferenced if `fsmatch` exceeds the initial difference -/
def matchLoop (m1 m2 : List Nat) : List (Nat × Nat) → List Nat → List (Pt R) → Res (List (Pt R))
  | [], _, out => .ok out
  | (h1, k1) :: l, used, out =>
    let r := partner E c m1 m2 used k1 h1
    if r.1 < c.smatch then
      match r.2 with
      | none => .ub
      | some h2 =>
        match E.cross h1 h2 with
        | some (y, z) =>
          if -c.bigC < y ∧ -c.bigC < z then matchLoop m1 m2 l (h2 :: used) (out ++ [⟨E.x h2, y, z, h1, h2⟩])
          else matchLoop m1 m2 l used out
        | none => matchLoop m1 m2 l used out
    else matchLoop m1 m2 l used out

/-- the maps of all planes after the selection of the common time range -/
def selected (hits : List Nat) (a b : Nat) (p : Nat) : List Nat :=
  let m := planeMap E hits
  if p = a ∨ p = b then (m p).filter (inRange E c (m a) (m b)) else m p

/-- `Track3D`, CosmicTrackerAlg.cxx:194-424. The wire pitch is taken from the first hit of plane 0 (:324), whose map may
be empty: undefined. A plane number above 2 is out of range (:212). -/
def track3D (hits : List Nat) : Res (List (Pt R)) :=
  if hits.all (fun h => decide (E.plane h < 3)) then
    match pick (fun p => (planeMap E hits p).length) with
    | (some a, some b) =>
      let m := selected E c hits a b
      let s := replaceEmpty m a b (third a b)
      if m s.1 = [] ∨ m s.2 = [] then .ok []
      else if m 0 = [] then .ub
      else matchLoop E c (m s.1) (m s.2) (m s.1).zipIdx [] []
    | _ => .ok []
  else .ub

/-! ## `MakeSPT` -/

/-- a trajectory seen in the plane of a hit: scaled coordinates of the points (wire coordinate × wire pitch, tick × tick
length); :166-190 fills all planes with all points -/
abbrev Proj (R : Type) := List (R × R)

/-- squared distance; the code compares the distances (:453, :464), which is the same -/
def dist2 (a b : R × R) : R := (a.1 - b.1) * (a.1 - b.1) + (a.2 - b.2) * (a.2 - b.2)

/-- nearest point, CosmicTrackerAlg.cxx:451-460; `big` is the square of 1e9 -/
def nearest (big : R) (pr : Proj R) (h : R × R) : R × Option Nat :=
  pr.zipIdx.foldl (fun s e => if dist2 h e.1 < s.1 then (dist2 h e.1, some e.2) else s) (big, none)

/-- second point, CosmicTrackerAlg.cxx:462-490: state (`mindis2, ih2`), (`mindis2p, ih2p`). `p1` is the nearest point. The
time component of `v1` uses point `j` (:478). -/
def second (big : R) (pr : Proj R) (h : R × R) (i : Nat) (p1 : R × R) : (R × Option Nat) × (R × Option Nat) :=
  pr.zipIdx.foldl (fun s e =>
    if e.2 = i then s
    else
      let d := dist2 h e.1
      let s1 := if d < s.1.1 then (d, some e.2) else s.1
      let dot := (h.1 - p1.1) * (h.1 - e.1.1) + (h.2 - e.1.2) * (h.2 - e.1.2)
      let s2 := if dot < 0 ∧ d < s.2.1 then (d, some e.2) else s.2
      (s1, s2)) ((big, none), (big, none))

/-- direction given to a hit, CosmicTrackerAlg.cxx:510-517: that of a trajectory point, or along the chord -/
inductive DirOf where
  | at (i : Nat)
  | chord (i j : Nat)
deriving DecidableEq

/-- what a hit gets: `trajPos[i] + ratio * (trajPos[j] - trajPos[i])` and a direction -/
structure HitPos (R : Type) where
  i : Nat
  j : Nat
  ratio : R
  dir : DirOf
deriving DecidableEq

/-- one hit of `MakeSPT`, CosmicTrackerAlg.cxx:438-517; `none`: early return (:491-494). `zeroDir i`: is the direction of
trajectory point `i` null? If no point is closer than 1e9 but there are points, `ih1 = -1` indexes the vectors. -/
def sptHit (big : R) (pr : Proj R) (zeroDir : Nat → Bool) (h : R × R) : Res (Option (HitPos R)) :=
  match (nearest big pr h).2 with
  | none => if pr = [] then .ok none else .ub
  | some i =>
    match pr[i]? with
    | none => .ub
    | some p1 =>
      let s := second big pr h i p1
      match s.2.2.or s.1.2 with
      | none => .ok none
      | some j =>
        match pr[j]? with
        | none => .ub
        | some p2 =>
          let v1 := (h.1 - p1.1, h.2 - p1.2)
          let v2 := (p2.1 - p1.1, p2.2 - p1.2)
          let mag2 := v2.1 * v2.1 + v2.2 * v2.2
          if mag2 = 0 then .throw
          else .ok (some ⟨i, j, (v1.1 * v2.1 + v1.2 * v2.2) / mag2,
            if !zeroDir i then .at i else if !zeroDir j then .at j else .chord i j⟩)

/-- loop over the hits, CosmicTrackerAlg.cxx:438-518: hits with the trajectory seen in their plane -/
def makeSPT (big : R) (zeroDir : Nat → Bool) : List (Proj R × (R × R)) → Res (List (HitPos R))
  | [] => .ok []
  | (pr, h) :: l =>
    match sptHit big pr zeroDir h with
    | .ok none => .ok []
    | .ok (some x) => do
      let r ← makeSPT big zeroDir l
      return x :: r
    | .throw => .throw
    | .ub => .ub

/-- `SPTReco`, CosmicTrackerAlg.cxx:53-84, with `SPTAlg = 1`: result `trkPos`. The vectors `vw`, `vt`, `vtraj` are only filled by
`TrackTrajectory` (`SPTAlg = 0`, :162-191), so `MakeSPT` indexes an empty vector of cryostats as soon as there is a hit
(points only exist if there are hits). -/
def sptReco1 (trajOnly : Bool) (hits : List Nat) : Res (List (Pt R)) :=
  match track3D E c hits with
  | .ok pts => if !trajOnly && !pts.isEmpty then .ub else .ok pts
  | .throw => .throw
  | .ub => .ub

end

/-! ## Stitching and output of the module -/

/-- the group that contains a track: `found1`, `found2`, CosmicTracker_module.cc:421-426 (the last one) -/
def findGroup (g : List (List Nat)) (t : Nat) : Option Nat :=
  g.zipIdx.foldl (fun r e => if t ∈ e.1 then some e.2 else r) none

/-- treatment of a matching pair, CosmicTracker_module.cc:427-446 -/
def joinPair (g : List (List Nat)) (a b : Nat) : List (List Nat) :=
  match findGroup g a, findGroup g b with
  | none, none => g ++ [[a, b]]
  | none, some j => g.set j ((g[j]?).getD [] ++ [a])
  | some i, none => g.set i ((g[i]?).getD [] ++ [b])
  | some i, some j => if i ≠ j then (g.set i ((g[i]?).getD [] ++ (g[j]?).getD [])).eraseIdx j else g

/-- the pairs `itrk1 < itrk2` in the order of the loops, CosmicTracker_module.cc:416-417 -/
def pairsBelow (n : Nat) : List (Nat × Nat) :=
  (List.range n).flatMap (fun a => ((List.range n).filter (fun b => decide (a < b))).map (fun b => (a, b)))

/-- `trkidx` with stitching, CosmicTracker_module.cc:413-463; `mt` is `MatchTrack` -/
def stitch (n : Nat) (mt : Nat → Nat → Bool) : List (List Nat) :=
  let g := (pairsBelow n).foldl (fun g p => if mt p.1 p.2 then joinPair g p.1 p.2 else g) []
  (List.range n).foldl (fun g t => if g.any (fun l => decide (t ∈ l)) then g else g ++ [[t]]) g

/-- `trkidx` without stitching, CosmicTracker_module.cc:464-469 -/
def noStitch (n : Nat) : List (List Nat) := (List.range n).map (fun i => [i])

/-- data products: space points (ID, position), space point - hit, track - space point, track - hit, track - cluster
associations; a track is its number of space points -/
structure Out (P : Type) where
  sps : List (Nat × P) := []
  spHit : List (Nat × Nat) := []
  tracks : List (List P) := []
  trkSp : List (Nat × Nat) := []
  trkHit : List (Nat × Nat) := []
  trkClu : List (Nat × Nat) := []

/-- loop over the points of a track, CosmicTracker_module.cc:503-520 -/
def putPoints {P : Type} : List (P × Nat) → Out P → Out P
  | [], o => o
  | (p, h) :: l, o => putPoints l { o with sps := o.sps ++ [(o.sps.length, p)], spHit := o.spHit ++ [(o.sps.length, h)] }

/-- one stitched track, CosmicTracker_module.cc:472-566; `pts t` are the (position, hit) pairs of track `t`, `clu t` its
clusters; `le` is the order of the sort direction. The flips of directions are not modelled. -/
def putTrack {P : Type} (sortPts : List (P × Nat) → List (P × Nat)) (pts : Nat → List (P × Nat)) (clu : Nat → List Nat)
    (g : List Nat) (o : Out P) : Out P :=
  let raw := g.flatMap pts
  let fin := sortPts raw
  let o1 := putPoints fin o
  if fin.length = 0 then o1
  else
    let t := o1.tracks.length
    { o1 with
      tracks := o1.tracks ++ [fin.map (·.1)]
      trkSp := o1.trkSp ++ (List.range (o1.sps.length - o.sps.length)).map (fun k => (t, o.sps.length + k))
      trkHit := o1.trkHit ++ raw.map (fun p => (t, p.2))
      trkClu := o1.trkClu ++ (g.flatMap clu).map (fun x => (t, x)) }

/-- the output loop, CosmicTracker_module.cc:471-568 -/
def putAll {P : Type} (sortPts : List (P × Nat) → List (P × Nat)) (pts : Nat → List (P × Nat)) (clu : Nat → List Nat)
    (gs : List (List Nat)) : Out P :=
  gs.foldl (fun o g => putTrack sortPts pts clu g o) {}

/-- `TrajOnly` output of one track, CosmicTracker_module.cc:319-366: the space points of the track are sorted after the
associations were made by position in the collection. Each trajectory point carries its hits. -/
def trajOnly {P : Type} (sortSp : List (Nat × P) → List (Nat × P)) (pts : List (P × List Nat)) (o : Out P) : Out P :=
  let n := o.sps.length
  let new := pts.zipIdx.map (fun e => (n + e.2, e.1.1))
  { o with
    sps := o.sps ++ sortSp new
    spHit := o.spHit ++ pts.zipIdx.flatMap (fun e => e.1.2.map (fun h => (n + e.2, h))) }

end Verif.Cosmic

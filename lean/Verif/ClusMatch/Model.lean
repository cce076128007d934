import Mathlib.Data.Rat.Defs
import Mathlib.Data.List.Basic
import Mathlib.Tactic.Linarith

/-!
# Model of the matching of clusters between planes

larreco/RecoAlg/ClusterMatchAlg.cxx, larreco/RecoAlg/ClusterMatchAlg.h.

Simplifications: rationals for floating point numbers; the crossing of two wires and the making of space points from hits are functions that are given; a space point is a number; trees,
messages and the information from simulation are left out.
-/

namespace Verif.ClusMatch

/-- A hit: wire, peak time, width, charge. -/
structure Hit where
  wire : Nat
  peak : ℚ
  rms : ℚ
  q : ℚ
  deriving DecidableEq, Repr

/-- `cluster_match_info` with the hits stored beside it, larreco/RecoAlg/ClusterMatchAlg.h:69-98. -/
structure Info where
  id : Nat
  view : Nat
  nhits : Nat
  wireMax : Nat
  wireMin : Nat
  startMax : ℚ
  peakMax : ℚ
  endMax : ℚ
  startMin : ℚ
  peakMin : ℚ
  endMin : ℚ
  charge : ℚ
  hits : List Hit
  deriving DecidableEq, Repr

/-- The constructor, larreco/RecoAlg/ClusterMatchAlg.h:85-94: the number of the cluster is kept in 16 bits. -/
def Info.init (id view : Nat) : Info := ⟨id % 65536, view, 0, 0, 65535, -1, -1, -1, 10 ^ 9, 10 ^ 9, 10 ^ 9, -1, []⟩

/-- One hit in `FillHitInfo`, larreco/RecoAlg/ClusterMatchAlg.cxx:303-324.  Wire numbers are taken to fit 16 bits. -/
def addHit (off : ℚ) (ci : Info) (h : Hit) : Info :=
  let ts := h.peak - h.rms - off
  let tp := h.peak - off
  let te := h.peak + h.rms - off
  ⟨ci.id, ci.view, ci.nhits, if ci.wireMax < h.wire then h.wire else ci.wireMax, if ci.wireMin > h.wire then h.wire else ci.wireMin,
    if ci.startMax < ts then ts else ci.startMax, if ci.peakMax < tp then tp else ci.peakMax, if ci.endMax < te then te else ci.endMax,
    if ci.startMin > ts then ts else ci.startMin, if ci.peakMin > tp then tp else ci.peakMin, if ci.endMin > te then te else ci.endMin,
    ci.charge + h.q, ci.hits ++ [h]⟩

/-- `AppendClusterInfo` up to the choice of the plane, with `FillHitInfo`, larreco/RecoAlg/ClusterMatchAlg.cxx:254-263, 287-328; `off` gives the time offset of a view. -/
def fill (off : Nat → ℚ) (id view : Nat) (hits : List Hit) : Info :=
  let ci := hits.foldl (addHit (off view)) (Info.init id view)
  { ci with nhits := hits.length }

/-- The settings, larreco/RecoAlg/ClusterMatchAlg.cxx:32-60, the number of planes, and what is given: the crossing of a wire of the first with one of the second plane (its z), the largest
time difference of space points, and the space points of hits. -/
structure Cfg where
  debug : Bool
  useZ : Bool
  useT : Bool
  useS : Bool
  useQ : Bool
  nsps : Nat
  tcut : ℚ
  qcut : ℚ
  planes : Nat
  cross : Nat → Nat → Option ℚ
  maxDT : ℚ
  sps : List Hit → List Nat

/-- `Match_RoughZ`, larreco/RecoAlg/ClusterMatchAlg.cxx:345-364. -/
def roughZ (c : Cfg) (a b : Info) : Bool :=
  let zmin := (c.cross a.wireMin b.wireMin).getD (-1)
  let zmax := (c.cross a.wireMax b.wireMax).getD (-1)
  decide (zmax > zmin)

/-- `Match_RoughTime`, larreco/RecoAlg/ClusterMatchAlg.cxx:366-387.  A zero denominator gives an infinite or undefined ratio; the sign of the numerator decides. -/
def roughT (c : Cfg) (a b : Info) : Bool :=
  let over := min a.endMax b.endMax - max a.startMin b.startMin
  let den := a.endMax - a.startMin + b.endMax - b.startMin
  if den = 0 then decide (over > 0) else decide (over / den * 2 > c.tcut)

/-- `Match_SumCharge`, larreco/RecoAlg/ClusterMatchAlg.cxx:389-397.  A zero denominator gives an infinite or undefined ratio: no match. -/
def sumQ (c : Cfg) (u v : Info) : Bool :=
  if v.charge = 0 then false else decide (1 - c.qcut < u.charge / v.charge) && decide (u.charge / v.charge < 1 + c.qcut)

/-- The hits of a cluster within the times, larreco/RecoAlg/ClusterMatchAlg.cxx:444-448, 453-457, 463-468: here the times of the hits are used without the offset of the plane. -/
def inRange (lo hi : ℚ) (l : List Hit) : List Hit := l.filter fun h => !decide (h.peak < lo) && !decide (h.peak > hi)

/-- The times, larreco/RecoAlg/ClusterMatchAlg.cxx:425-436, for the clusters of the planes in use. -/
def range (c : Cfg) (u v : Info) (w : Option Info) : ℚ × ℚ :=
  let lo := min u.peakMin v.peakMin
  let hi := max u.peakMax v.peakMax
  match w with
  | none => (lo - c.maxDT, hi + c.maxDT)
  | some w => (min lo w.peakMin - c.maxDT, max hi w.peakMax + c.maxDT)

/-- `Match_SpacePoint` for clusters that exist, larreco/RecoAlg/ClusterMatchAlg.cxx:424-488: the result and the space points. -/
def spMatch (c : Cfg) (u v : Info) (w : Option Info) : Bool × List Nat :=
  let r := range c u v w
  let hu := inRange r.1 r.2 u.hits
  let hv := inRange r.1 r.2 v.hits
  let hw := match w with | none => [] | some w => inRange r.1 r.2 w.hits
  if hu = [] ∧ c.debug = false then (false, [])
  else if hv = [] ∧ c.debug = false then (false, [])
  else if hw = [] ∧ w.isSome = true ∧ c.debug = false then (false, [])
  else
    let s := if hu ≠ [] ∧ hv ≠ [] ∧ (w = none ∨ hw ≠ []) then c.sps (hu ++ hv ++ hw) else []
    (decide (¬ s.length < c.nsps), s)

/-- `Match_SpacePoint` with the test of the numbers, larreco/RecoAlg/ClusterMatchAlg.cxx:399-423: the third plane is used if the detector has more than two. -/
def spacePoint (c : Cfg) (u v : Info) (w : Option Info) : Bool × List Nat :=
  if c.planes > 2 then
    match w with
    | none => (false, [])
    | some w => spMatch c u v (some w)
  else spMatch c u v none

/-- The state within the loops: `none` after a `continue`, else whether the combination still matches.  One cut, larreco/RecoAlg/ClusterMatchAlg.cxx:533-541. -/
def cut (debug use pass : Bool) (st : Option Bool) : Option Bool :=
  match st with
  | none => none
  | some ok => if use then (if pass then some ok else if debug then some false else none) else some ok

/-- One pair of clusters, larreco/RecoAlg/ClusterMatchAlg.cxx:529-583: the space points if the pair matches. -/
def pair2 (c : Cfg) (u v : Info) (w : Option Info) : Option (List Nat) :=
  let st := cut c.debug c.useZ (roughZ c u v) (some true)
  let st := cut c.debug c.useQ (sumQ c u v) st
  let st := cut c.debug c.useT (roughT c u v) st
  let sp := spacePoint c u v w
  let st := cut c.debug c.useS sp.1 st
  if st = some true then some (if c.useS then sp.2 else []) else none

/-- The rough time test of three clusters, larreco/RecoAlg/ClusterMatchAlg.cxx:670-690. -/
def time3 (c : Cfg) (u v w : Info) (st : Option Bool) : Option Bool :=
  match st with
  | none => none
  | some ok =>
    if c.useT then
      let m := roughT c u v
      if c.debug = false ∧ m = false then none
      else
        let m := roughT c v w && m
        if c.debug = false ∧ m = false then none
        else
          let m := roughT c w u && m
          if m then some (ok && m) else if c.debug = false then none else some (ok && m)
    else some ok

/-- One combination of three, larreco/RecoAlg/ClusterMatchAlg.cxx:639-711. -/
def pair3 (c : Cfg) (u v w : Info) : Option (List Nat) :=
  let st := cut c.debug c.useZ (roughZ c u v) (some true)
  let st := cut c.debug c.useQ (sumQ c u v) st
  let st := time3 c u v w st
  let sp := spacePoint c u v (some w)
  let st := cut c.debug c.useS sp.1 st
  if st = some true then some (if c.useS then sp.2 else []) else none

/-- The matched combinations of two planes, larreco/RecoAlg/ClusterMatchAlg.cxx:524-585. -/
def all2 (c : Cfg) (us vs ws : List Info) : List (Nat × Nat × List Nat) :=
  us.flatMap fun u => vs.filterMap fun v => (pair2 c u v ws.head?).map fun s => (u.id, v.id, s)

/-- The matched combinations of three planes, larreco/RecoAlg/ClusterMatchAlg.cxx:632-714. -/
def all3 (c : Cfg) (us vs ws : List Info) : List (Nat × Nat × Nat × List Nat) :=
  us.flatMap fun u => vs.flatMap fun v => ws.filterMap fun w => (pair3 c u v w).map fun s => (u.id, v.id, w.id, s)

/-- The clusters received and the matches found. -/
structure Alg where
  us : List Info
  vs : List Info
  ws : List Info
  mu : List Nat
  mv : List Nat
  mw : List Nat
  ms : List (List Nat)
  deriving DecidableEq, Repr

/-- `ClearEventInfo`, larreco/RecoAlg/ClusterMatchAlg.cxx:88-105, 145-150. -/
def Alg.clear : Alg := ⟨[], [], [], [], [], [], []⟩

/-- `AppendClusterInfo`, larreco/RecoAlg/ClusterMatchAlg.cxx:265-285. -/
def append (off : Nat → ℚ) (a : Alg) (id view : Nat) (hits : List Hit) : Alg :=
  let ci := fill off id view hits
  if view = 0 then { a with us := a.us ++ [ci] }
  else if view = 1 then { a with vs := a.vs ++ [ci] }
  else if view = 2 then { a with ws := a.ws ++ [ci] }
  else a

/-- `MatchTwoPlanes`, larreco/RecoAlg/ClusterMatchAlg.cxx:499-605; `store` is the setting to keep space points. -/
def match2 (c : Cfg) (store : Bool) (a : Alg) : Alg :=
  if a.us.length + a.vs.length + a.ws.length = 0 then a
  else
    let m := all2 c a.us a.vs a.ws
    ⟨[], [], [], m.map fun p => p.1, m.map fun p => p.2.1, [], if store then m.map fun p => p.2.2 else []⟩

/-- `MatchThreePlanes`, larreco/RecoAlg/ClusterMatchAlg.cxx:607-736. -/
def match3 (c : Cfg) (store : Bool) (a : Alg) : Alg :=
  if a.us.length + a.vs.length + a.ws.length = 0 then a
  else
    let m := all3 c a.us a.vs a.ws
    ⟨[], [], [], m.map fun p => p.1, m.map fun p => p.2.1, m.map fun p => p.2.2.1, if store then m.map fun p => p.2.2.2 else []⟩

end Verif.ClusMatch

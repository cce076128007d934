import Verif.Basic
/-!
# Model of track trees of the projection matching algorithm
Sources: `/repo/larreco/RecoAlg/PMAlg/PmaTrack3D.cxx`, `PmaTrkCandidate.{h,cxx}`. Tracks, nodes and segments are
numbers; the pointers between them are the functions of `Graph`. All functions of this file only read the graph.
Recursions and `while` loops carry a budget of steps; the theorems show that some finite budget is enough. Log
messages are dropped.
-/
namespace Verif.PMAlg.Tree

/-- the pointers: `fNodes` of a track (PmaTrack3D.h:396), `Next(i)` and `Prev()` of a node, `Parent()` and
`Next()` of a segment (PmaSegment3D.h:66, SortedObjects.h:43-51) -/
structure Graph where
  nodes : Nat → List Nat
  next : Nat → List Nat
  prev : Nat → Option Nat
  trk : Nat → Nat
  snext : Nat → Option Nat

/-- `NextSegment`, PmaTrack3D.cxx:1005-1016 -/
def nextSeg (g : Graph) (t v : Nat) : Option Nat := (g.next v).find? (fun s => g.trk s = t)

/-- the nodes met by `while (vtx) { segThis = NextSegment(vtx); ...; if (segThis) vtx = segThis->Next(); else break; }`
of PmaTrkCandidate.cxx:134-153, PmaTrack3D.cxx:2039-2058, 2080-2099, 2121-2133; `none` = the budget is used up -/
def along (g : Graph) (t : Nat) : Nat → Nat → Option (List Nat)
  | 0, _ => none
  | f + 1, v =>
    match nextSeg g t v with
    | none => some [v]
    | some s =>
      match g.snext s with
      | none => some [v]
      | some w => (along g t f w).map (v :: ·)

/-- the first node of the loop: `fNodes.front()`, or the node after it when the first is skipped
(PmaTrkCandidate.cxx:124-132, PmaTrack3D.cxx:2029-2033, 2070-2074, 2115-2119); `none` = undefined behaviour of
`front()` for a track without nodes, `some none` = null pointer -/
def startNode (g : Graph) (t : Nat) (skip : Bool) : Option (Option Nat) :=
  match (g.nodes t).head? with
  | none => none
  | some v =>
    if skip then
      match nextSeg g t v with
      | some s => some (g.snext s)
      | none => some (some v)
    else some (some v)

/-- the tracks `seg->Parent()` of the segments `seg != segThis` met by the loop, in the order met -/
def kidsOf (g : Graph) (f t : Nat) (skip : Bool) : Option (List Nat) :=
  match startNode g t skip with
  | none => none
  | some none => some []
  | some (some v) =>
    (along g t f v).map fun ns =>
      ns.flatMap fun v => ((g.next v).filter fun s => some s ≠ nextSeg g t v).map g.trk

/-- `TrkCandidate`, PmaTrkCandidate.h:35-87; only the members used here -/
structure Cand where
  track : Option Nat
  treeId : Int := -1
  parent : Int := -1
  daughters : List Nat := []
  clusters : List Nat := []
deriving DecidableEq

/-- `getCandidateIndex`, PmaTrkCandidate.cxx:49-54; `none` is −1 -/
def index (c : List Cand) (t : Nat) : Option Nat :=
  if c.findIdx (fun x => x.track = some t) < c.length then some (c.findIdx (fun x => x.track = some t)) else none

/-- `getCandidateTreeId`, PmaTrkCandidate.cxx:56-63 -/
def treeIdOf (c : List Cand) (t : Nat) : Int :=
  match index c t with
  | some i => (c[i]?.map Cand.treeId).getD (-1)
  | none => -1

/-- `fCandidates[i].SetTreeId(id)` -/
def putId (c : List Cand) (i : Nat) (id : Int) : List Cand := c.modify i fun x => { x with treeId := id }

/-- `setTreeId`, PmaTrkCandidate.cxx:122-156; `none` = the budget is used up, or a candidate without a track or a
track without nodes is used -/
def setTreeId (g : Graph) (id : Int) : Nat → List Cand → Nat → Bool → Option (List Cand)
  | 0, _, _, _ => none
  | f + 1, c, i, root =>
    match c[i]?.bind Cand.track with
    | none => none
    | some t =>
      match kidsOf g (f + 1) t (!root) with
      | none => none
      | some ks =>
        match ks.foldlM (fun c u =>
            match index c u with
            | some j => setTreeId g id f c j false
            | none => some c) c with
        | none => none
        | some c => some (putId c i id)

/-- `GetRoot`, PmaTrack3D.cxx:1742-1755; `none` = the budget is used up or the exception for a track without
nodes -/
def getRoot (g : Graph) : Nat → Nat → Option Nat
  | 0, _ => none
  | f + 1, t =>
    match (g.nodes t).head? with
    | none => none
    | some v =>
      match g.prev v with
      | none => some t
      | some s => getRoot g f (g.trk s)

/-- the loop of `setTreeIds`, PmaTrkCandidate.cxx:164-176 -/
def idsStep (g : Graph) (f : Nat) (st : List Cand × Int) (i : Nat) : Option (List Cand × Int) :=
  match st.1[i]? with
  | none => some st
  | some x =>
    match x.track with
    | none => some st
    | some t =>
      if 0 ≤ x.treeId then some st
      else
        match getRoot g f t with
        | none => none
        | some r =>
          match index st.1 r with
          | some j => (setTreeId g st.2 f st.1 j true).map fun c => (c, st.2 + 1)
          | none => some (st.1, st.2 + 1)

/-- `setTreeIds`, PmaTrkCandidate.cxx:158-179: the candidates and the returned number -/
def setTreeIds (g : Graph) (f : Nat) (c : List Cand) : Option (List Cand × Int) :=
  (List.range c.length).foldlM (idsStep g f) (c.map (fun x => { x with treeId := -1 }), 0)

/-- `fCandidates[i].SetParent(p)` -/
def putParent (c : List Cand) (i : Nat) (p : Int) : List Cand := c.modify i fun x => { x with parent := p }

/-- the inner loop over the segments that leave the first node, PmaTrkCandidate.cxx:97-105 -/
def primary (g : Graph) (pri : Nat) (st : List Cand × Cand) (s : Nat) : List Cand × Cand :=
  match index st.1 (g.trk s) with
  | some j => (putParent st.1 j pri, { st.2 with daughters := st.2.daughters ++ [j] })
  | none => st

/-- the daughters found by the loop PmaTrkCandidate.cxx:108-117 for the track `t` -/
def daughtersOf (g : Graph) (c : List Cand) (t : Nat) : List Nat :=
  (((g.nodes t).drop 1).flatMap g.next).filterMap fun s =>
    if g.trk s ≠ t then index c (g.trk s) else none

/-- one round of the second loop, PmaTrkCandidate.cxx:80-118; `none` = `front()` of a track without nodes -/
def connStep (g : Graph) (st : List Cand × List Cand) (i : Nat) : Option (List Cand × List Cand) :=
  match st.1[i]? with
  | none => some st
  | some x =>
    match x.track with
    | none => some st
    | some t =>
      match (g.nodes t).head? with
      | none => none
      | some v =>
        let st1 :=
          match g.prev v with
          | some s => (putParent st.1 i (match index st.1 (g.trk s) with | some j => (j : Int) | none => -1), st.2)
          | none =>
            if x.parent < 0 then
              let r := (g.next v).foldl (primary g (st.1.length + st.2.length)) (st.1, ⟨none, x.treeId, -1, [], []⟩)
              (r.1, st.2 ++ [r.2])
            else st
        some (st1.1.modify i fun y => { y with daughters := y.daughters ++ daughtersOf g st1.1 t }, st1.2)

/-- `setParentDaughterConnections`, PmaTrkCandidate.cxx:65-119: the candidates and the list `fParents` -/
def setConnections (g : Graph) (c : List Cand) : Option (List Cand × List Cand) :=
  let c1 := (c.filter fun x => x.track.isSome).map fun x => { x with parent := -1, daughters := [] }
  (List.range c1.length).foldlM (connStep g) (c1, [])

inductive Err where
  | budget | loop
deriving DecidableEq

/-- `GetBranches`, PmaTrack3D.cxx:1757-1774 -/
def getBranches (g : Graph) : Nat → List Nat → Nat → Bool → Except Err (List Nat)
  | 0, _, _, _ => .error .budget
  | f + 1, br, t, skip =>
    if t ∈ br then .error .loop
    else
      ((if skip then (g.nodes t).drop 1 else g.nodes t).flatMap g.next).foldlM
        (fun br s => if g.trk s ≠ t then getBranches g f br (g.trk s) true else .ok br) (br ++ [t])

/-- `a->IsAttachedTo(b)`, PmaTrack3D.cxx:1776-1789 -/
def isAttachedTo (g : Graph) (f a b : Nat) : Except Err Bool :=
  if b = a then .ok true
  else
    match getBranches g f [] b false with
    | .error e => .error e
    | .ok bb =>
      match getBranches g f [] a false with
      | .error e => .error e
      | .ok ba => .ok (ba.any fun x => bb.any fun y => x = y)

/-- `GetNearestTrkInTree` for a point in space, PmaTrack3D.cxx:2025-2061; `d t` stands for `sqrt(Dist2(p3d_cm))` of
the track `t` -/
def nearest {K : Type} [LinearOrder K] (g : Graph) (d : Nat → K) : Nat → Nat → Bool → Option (Nat × K)
  | 0, _, _ => none
  | f + 1, t, skip =>
    match kidsOf g (f + 1) t skip with
    | none => none
    | some ks => ks.foldlM (fun b u =>
        match nearest g d f u true with
        | none => none
        | some r => some (if r.2 < b.2 then r else b)) (t, d t)

/-- `GetNearestTrkInTree` for a point of a view, PmaTrack3D.cxx:2063-2103; `d2 t` stands for
`Dist2(p2d_cm, view, tpc, cryo)` of the track `t`, `root` for `sqrt` -/
def nearest2 {K : Type} [LinearOrder K] (g : Graph) (root : K → K) (d2 : Nat → K) :
    Nat → Nat → Bool → Option (Nat × K)
  | 0, _, _ => none
  | f + 1, t, skip =>
    match kidsOf g (f + 1) t skip with
    | none => none
    | some ks => (ks.foldlM (fun (b : Nat × K) u =>
        match nearest2 g root d2 f u true with
        | none => none
        | some r => some (if r.2 < b.2 then r else b)) (t, d2 t)).map fun (r : Nat × K) => (r.1, root r.2)

end Verif.PMAlg.Tree

import Verif.PMAlg.TreeModel
/-!
# Model of the operations that change a track tree
Source: `/repo/larreco/RecoAlg/PMAlg/PmaTrack3D.cxx`, `PmaTrkCandidate.cxx`. The effects of connecting and
disconnecting are those of `SortedObjects.cxx`, of which `SortedModel.lean` is the model and whose consistency is
property C17; a segment is in the `Next` list of a node exactly when the node is its `Prev()`. Positions and
projections (`MakeProjection`, `SortHits`) are not modelled.
-/
namespace Verif.PMAlg.Tree

/-- all tracks, nodes and segments, with `fSegments` and `fHits` of the tracks (PmaTrack3D.h:385, 397); numbers from
`fresh` are not used yet -/
structure World where
  g : Graph
  segs : Nat → List Nat
  hits : Nat → List Nat
  fresh : Nat

/-- assign to `fNodes` of a track -/
def withNodes (W : World) (t : Nat) (l : List Nat) : World :=
  { W with g := { W.g with nodes := fun u => if u = t then l else W.g.nodes u } }

/-- `new pma::Segment3D(t, a, b)`, PmaSegment3D.cxx:20-25, SortedObjects.cxx:17-23: `a` gets the segment as its last
`Next`, and `b` gets it as `Prev`, after being taken from the segment that had it as `Next` before; the segment is
appended to `fSegments` of `t` -/
def newSeg (W : World) (t a b : Nat) : World where
  g :=
    { nodes := W.g.nodes
      next := fun v => if v = a then W.g.next v ++ [W.fresh] else W.g.next v
      prev := fun w => if w = b then some W.fresh else W.g.prev w
      trk := fun s => if s = W.fresh then t else W.g.trk s
      snext := fun s =>
        if s = W.fresh then some b
        else if W.g.prev b = some s ∧ W.g.snext s = some b then none else W.g.snext s }
  segs := fun u => if u = t then W.segs u ++ [W.fresh] else W.segs u
  hits := W.hits
  fresh := W.fresh + 1

/-- `delete` of a segment: `Disconnect`, SortedObjects.cxx:25-29 -/
def delSeg (W : World) (s : Nat) : World :=
  { W with g :=
    { W.g with
      next := fun v => (W.g.next v).filter (· ≠ s)
      prev := fun w => if W.g.prev w = some s then none else W.g.prev w
      snext := fun x => if x = s then none else W.g.snext x } }

/-- `DeleteSegments`, PmaTrack3D.cxx:2367-2372 -/
def deleteSegments (W : World) (t : Nat) : World :=
  let W1 := (W.segs t).foldl delSeg W
  { W1 with segs := fun u => if u = t then [] else W1.segs u }

/-- the new segments between consecutive nodes of a list -/
def segsFor (W : World) (t : Nat) : List Nat → World
  | a :: b :: l => segsFor (newSeg W t a b) t (b :: l)
  | _ => W

/-- `RebuildSegments`, PmaTrack3D.cxx:2374-2382 -/
def rebuild (W : World) (t : Nat) : World :=
  let W1 := deleteSegments W t
  segsFor W1 t (W1.g.nodes t)

/-- one round of the loop PmaTrack3D.cxx:1719-1724; `none` = the element before the first is read -/
def pushNode (t : Nat) (W : World) (n : Nat) : Option World :=
  match (W.g.nodes t).getLast? with
  | none => none
  | some a => some (newSeg (withNodes W t (W.g.nodes t ++ [n])) t a n)

/-- what `ExtendWith` does: an exception, undefined behaviour, or the new state -/
inductive Out (α : Type) where
  | throw | undef
  | ok (a : α)

/-- `t->ExtendWith(src)`, PmaTrack3D.cxx:1711-1740: the hits are moved in order; `src` is deleted, and with it the
`fNodes` member, which is empty by then. A track extended with itself, for which the loop has no end, is excluded by
the theorems. -/
def extendWith (W : World) (t src : Nat) : Out World :=
  match (W.g.nodes src).head? with
  | none => .undef
  | some v =>
    match W.g.prev v with
    | some _ => .throw
    | none =>
      let W1 := deleteSegments W src
      match (W1.g.nodes src).foldlM (pushNode t) W1 with
      | none => .undef
      | some W2 =>
        let W3 := withNodes W2 src []
        .ok { W3 with hits := fun u => if u = t then W3.hits t ++ W3.hits src else if u = src then [] else W3.hits u }

/-- `CanFlip`, PmaTrack3D.cxx:644-660; `none` = the budget is used up -/
def canFlip (g : Graph) : Nat → Nat → Option Bool
  | 0, _ => none
  | f + 1, t =>
    match (g.nodes t).head? with
    | none => some false
    | some n =>
      match g.prev n with
      | none => some true
      | some s =>
        match nextSeg g (g.trk s) n with
        | some _ => some false
        | none => canFlip g f (g.trk s)

/-- `InternalFlip`, PmaTrack3D.cxx:597-622, without the list of the tracks to be sorted; `none` = the budget is used
up, or a track without nodes -/
def internalFlip : Nat → World → Nat → Option World
  | 0, _, _ => none
  | f + 1, W, t =>
    match (W.g.nodes t).head? with
    | none => none
    | some n =>
      match W.g.prev n with
      | none => some (rebuild (withNodes W t (W.g.nodes t).reverse) t)
      | some s =>
        match internalFlip f W (W.g.trk s) with
        | none => none
        | some W1 => some (rebuild (withNodes W1 t (W1.g.nodes t).reverse) t)

/-- `RemoveNode`, PmaTrack3D.cxx:1413-1426 -/
def removeNode (W : World) (t idx : Nat) : Bool × World :=
  if 1 < (W.g.nodes t).length ∧ idx < (W.g.nodes t).length then
    (true, rebuild (withNodes W t ((W.g.nodes t).eraseIdx idx)) t)
  else (false, W)

/-- `InsertNode`, PmaTrack3D.cxx:1400-1411, with the new node `n`; `none` = `fNodes[at_idx]` is read past the end -/
def insertNode (W : World) (t n idx : Nat) : Option World :=
  if idx < (W.g.nodes t).length then
    let W1 := withNodes W t ((W.g.nodes t).insertIdx idx n)
    some (if 1 < (W1.g.nodes t).length then rebuild W1 t else W1)
  else none

/-- `merge(i1, i2)`, PmaTrkCandidate.cxx:329-340; the clusters and the erased entry are those before the erase, the
tree identifier and the track of entry `i1` those after it; `undef` also stands for an entry that does not exist -/
def merge (f : Nat) (W : World) (c : List Cand) (i1 i2 : Nat) : Out (World × List Cand) :=
  match c[i1]?, c[i2]? with
  | some x1, some x2 =>
    match x1.track, x2.track with
    | some t1, some t2 =>
      match extendWith W t1 t2 with
      | .throw => .throw
      | .undef => .undef
      | .ok W1 =>
        let c1 := (c.modify i1 fun x => { x with clusters := x.clusters ++ x2.clusters }).eraseIdx i2
        match c1[i1]? with
        | none => .undef
        | some y =>
          match setTreeId W1.g y.treeId f c1 i1 true with
          | none => .undef
          | some c2 => .ok (W1, c2)
    | _, _ => .undef
  | _, _ => .undef

end Verif.PMAlg.Tree

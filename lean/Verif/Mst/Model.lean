import Mathlib.Data.List.Sort
import Mathlib.Data.Rat.Defs
import Mathlib.Algebra.Order.Field.Rat

/-!
Model of the minimum spanning tree clustering, `larreco/RecoAlg/Cluster3DAlgs/MinSpanTreeAlg_tool.cc`, and of its copy in
`larreco/RecoAlg/Cluster3DAlgs/PathFinding/MSTPathFinder_tool.cc`.

A hit is a number (its address).  `float` and `double` are idealised as rational numbers.  The neighbour search of the kd tree is an arbitrary function
(its own properties are C28, C29, C59 and C60).  Not modelled: timing, printing, `BuildClusterInfo` and the principal components.
-/
namespace Verif.Mst

/-- `reco::EdgeTuple`: the two hits and the weight -/
abbrev Edge := Nat × Nat × ℚ

/-- what the loop gets from outside: `FindNearestNeighbors` (pairs of distance and hit) and the weight of an edge -/
structure Finder where
  cand : Nat → List (ℚ × Nat)
  weight : ℚ → Nat → Nat → ℚ

/-- the weight in `MinSpanTreeAlg`, MinSpanTreeAlg_tool.cc:290 -/
def mstWeight (chi : Nat → ℚ) (_ : ℚ) (a b : Nat) : ℚ := chi a * chi b

/-- the weight in `MSTPathFinder`, MSTPathFinder_tool.cc:369-370 -/
def pathWeight (chi : Nat → ℚ) (d : ℚ) (a b : Nat) : ℚ := d * chi a * chi b

/-- the edges from a hit to its neighbours, MinSpanTreeAlg_tool.cc:288-294 without the test -/
def Finder.offer (F : Finder) (a : Nat) : List Edge := (F.cand a).map (fun p => (a, p.2, F.weight p.1 a p.2))

/-- `reco::ClusterParameters`: the hits and `getHit3DToEdgeMap()`; a missing entry is an empty list -/
structure Clus where
  hits : List Nat := []
  emap : Nat → List Edge := fun _ => []

/-- the local variables of `RunPrimsAlgorithm`, MinSpanTreeAlg_tool.cc:241-261; `free` is what is left from `freeHitItr` on, `done` the clusters before the current one -/
structure PState where
  attached : Nat → Bool
  edges : List Edge
  done : List Clus
  cur : Clus
  free : List Nat
  last : Nat

/-- `curEdgeList.sort(...)`, MinSpanTreeAlg_tool.cc:328-330: a stable sort by weight -/
def sortEdges (l : List Edge) : List Edge := l.insertionSort (fun a b => a.2.2 ≤ b.2.2)

/-- entering the edge in the map, in both directions, MinSpanTreeAlg_tool.cc:333-337 -/
def Clus.addEdge (c : Clus) (e : Edge) : Clus :=
  let m : Nat → List Edge := fun h => if h = e.1 then c.emap h ++ [e] else c.emap h
  { c with emap := fun h => if h = e.2.1 then m h ++ [(e.2.1, e.1, e.2.2)] else m h }

/-- the part of a round before the decision, MinSpanTreeAlg_tool.cc:265-294: the hit is marked, the list of edges purged, the hit added, the edges to unmarked neighbours added -/
def absorb (F : Finder) (s : PState) : PState :=
  let att : Nat → Bool := fun x => s.attached x || x == s.last
  { s with
    attached := att
    edges := s.edges.filter (fun e => !att e.2.1) ++ (F.offer s.last).filter (fun e => !att e.2.1)
    cur := { s.cur with hits := s.cur.hits ++ [s.last] } }

/-- the decision, MinSpanTreeAlg_tool.cc:297-341: `inr` at the `break` -/
def advance (s : PState) : PState ⊕ List Clus :=
  match sortEdges s.edges with
  | [] =>
    match s.free.dropWhile (fun x => s.attached x) with
    | [] => .inr (s.done ++ [s.cur])
    | h :: t => .inl { s with edges := [], done := s.done ++ [s.cur], cur := {}, free := t, last := h }
  | e :: l => .inl { s with edges := e :: l, cur := s.cur.addEdge e, last := e.2.1 }

/-- the loop `while (1)`, MinSpanTreeAlg_tool.cc:264-342 -/
def loop (F : Finder) : Nat → PState → Option (List Clus)
  | 0, _ => none
  | fuel + 1, s =>
    match advance (absorb F s) with
    | .inr cs => some cs
    | .inl s => loop F fuel s

/-- `RunPrimsAlgorithm`, MinSpanTreeAlg_tool.cc:228-349, MSTPathFinder_tool.cc:305-431; `before` is what the list of clusters contains already, `att` the hits that are marked already;
the result is `none` if the loop has not ended after one round for each hit -/
def runPrim (F : Finder) (att : Nat → Bool) (hits : List Nat) (before : List Clus) : Option (List Clus) :=
  match hits with
  | [] => some before
  | h :: t => loop F hits.length { attached := fun x => att x || x == h, edges := [], done := before, cur := {}, free := t, last := h }

/-! ## The search in the tree -/

/-- `getBestHitPairListPtr()` and `getBestEdgeList()` of the cluster -/
abbrev Best := List Nat × List Edge

/-- the loop over the edges in `LeastCostPath`, MinSpanTreeAlg_tool.cc:620-640: `src` is where the current edge comes from, `self` the recursive call; the cost is `none` for the largest float -/
def lcpScan (self : Edge → Best → Option (Option ℚ × Best)) (goal src : Nat) : List Edge → Best → Option (Option ℚ × Best)
  | [], b => some (none, b)
  | d :: ds, b =>
    if d.2.1 = src then lcpScan self goal src ds b
    else if d.2.1 = goal then some (some d.2.2, b.1 ++ [goal], b.2 ++ [d])
    else
      match self d b with
      | none => none
      | some (some c, b') => some (some (d.2.2 + c), b')
      | some (none, b') => lcpScan self goal src ds b'

/-- `LeastCostPath`, MinSpanTreeAlg_tool.cc:604-648, MSTPathFinder_tool.cc:705-751; the result is the cost and the two lists; the outer `none` stands for a recursion that has not ended at the given depth.
Simplification: a sum of weights that is not below the largest float is not distinguished from a smaller one -/
def lcp (m : Nat → List Edge) (goal : Nat) : Nat → Edge → Best → Option (Option ℚ × Best)
  | 0, _, _ => none
  | fuel + 1, e, b =>
    match lcpScan (lcp m goal fuel) goal e.1 (m e.2.1) b with
    | none => none
    | some (none, b') => some (none, b')
    | some (some c, b') => some (some c, e.2.1 :: b'.1, e :: b'.2)

/-- the isolated hits, MinSpanTreeAlg_tool.cc:443-458 -/
def Clus.isolated (c : Clus) : List Nat := c.hits.filter (fun h => (c.emap h).length == 1)

/-- `FindBestPathInCluster`, MinSpanTreeAlg_tool.cc:414-503, MSTPathFinder_tool.cc:498-600: `order` is what the sort by the projected position makes of the isolated hits.
Not modelled: the principal components (the case of their failure does nothing) and, in MSTPathFinder, the convex hull -/
def findBest (c : Clus) (order : List Nat → List Nat) (fuel : Nat) (b : Best) : Option Best :=
  if c.hits.length > 2 then
    match order c.isolated with
    | [] => some b
    | [_] => some b
    | start :: x :: l =>
      match c.emap start with
      | [] => none
      | e :: _ =>
        match lcp c.emap ((x :: l).getLast (by simp)) fuel e b with
        | none => none
        | some (_, b') => some (start :: b'.1, b'.2)
  else some b

/-! ### The older search -/

/-- the loop over the edges in `DepthFirstSearch`, MinSpanTreeAlg_tool.cc:686-700: the best list, its quality and whether `curEdgeProj` was replaced -/
def dfsScan (self : Edge → Option (List Nat × ℚ)) (src : Nat) : List Edge → List Nat × ℚ × Bool → Option (List Nat × ℚ × Bool)
  | [], b => some b
  | d :: ds, b =>
    if d.2.1 = src then dfsScan self src ds b
    else
      match self d with
      | none => none
      | some (l, q) => dfsScan self src ds (if q > b.2.1 then (l, q, true) else b)

/-- `DepthFirstSearch`, MinSpanTreeAlg_tool.cc:663-707, MSTPathFinder_tool.cc:784-828; `len` is the distance of two hits; the quality that is passed in is zero in all calls -/
def dfs (m : Nat → List Edge) (len : Nat → Nat → ℚ) : Nat → Edge → Option (List Nat × ℚ)
  | 0, _ => none
  | fuel + 1, e =>
    match dfsScan (dfs m len fuel) e.1 (m e.2.1) ([], 0, false) with
    | none => none
    | some (l, q, r) => some (e.2.1 :: l, q + (if r then 1 / max (1 / 10) (len e.1 e.2.1) else 1 / max (3 / 10) e.2.2))

/-- the loop over the hits in the first `FindBestPathInCluster`, MinSpanTreeAlg_tool.cc:370-390 -/
def longestScan (m : Nat → List Edge) (len : Nat → Nat → ℚ) (fuel : Nat) : List Nat → List Nat × ℚ → Option (List Nat × ℚ)
  | [], b => some b
  | h :: hs, b =>
    match m h with
    | [e] =>
      match dfs m len fuel e with
      | none => none
      | some (l, q) => longestScan m len fuel hs (if q > b.2 then (e.1 :: l, q) else b)
    | _ => longestScan m len fuel hs b

/-- the first `FindBestPathInCluster`, MinSpanTreeAlg_tool.cc:351-412, MSTPathFinder_tool.cc:433-496: the new list of hits and the new list of edges -/
def findLongest (c : Clus) (len : Nat → Nat → ℚ) (fuel : Nat) (edges : List Edge) : Option (Clus × List Edge) :=
  match longestScan c.emap len fuel c.hits ([], 0) with
  | none => none
  | some ([], _) => some (c, edges)
  | some (x :: l, _) => some ({ c with hits := x :: l }, edges ++ (x :: l).flatMap c.emap)

end Verif.Mst

import Mathlib.Algebra.Order.Ring.Rat
import Mathlib.Algebra.BigOperators.Group.List.Basic

/-!
# `LineCluster_module`, `ClusterCrawler_module`: the results of the cluster crawler as data products

`larreco/ClusterFinder/LineCluster_module.cc` (cited `L`), `larreco/ClusterFinder/ClusterCrawler_module.cc`
(cited `C`).  Charges are rational.
-/

namespace Verif.LineClus

/-- `ClusterStore`: `ID`, the plane of `CTP`, `tclhits`, `BeginVtx`, `EndVtx`.  The shape parameters
that are copied (start, end, angles) are not modelled. -/
structure Clus where
  id : ℤ
  plane : ℕ
  hits : List ℕ
  beg : ℤ
  en : ℤ
deriving DecidableEq

/-- `Vtx3Store`: `Ptr2D` and a number for the place. -/
structure Vtx3 where
  p0 : ℤ
  p1 : ℤ
  p2 : ℤ
  place : ℕ
deriving DecidableEq

/-- A final hit: `Integral`, `ROISummedADC`, `WireID().Plane`. -/
structure Hit where
  chg : ℚ
  adc : ℚ
  plane : ℕ

/-- A cluster that is written: the original, its `ID`, the charge sums. -/
structure Row where
  src : Clus
  id : ℕ
  chg : ℚ
  adc : ℚ
deriving DecidableEq

/-- The loop that makes the end points (L 139-155): state `(indxToIndx, vtxID, sv2col)`, the end points
are the index of the 2D vertex and the `ID`; `ns` has the `NClusters` of the 2D vertices.  Counters are
natural numbers (the code: `unsigned short`). -/
def endStep (s : List ℕ × ℕ × List (ℕ × ℕ)) (x : ℕ × ℕ) : List ℕ × ℕ × List (ℕ × ℕ) :=
  if x.1 = 0 then s
  else (s.1.set x.2 s.2.1, s.2.1 + 1, s.2.2 ++ [(x.2, s.2.1 + 1)])

def endPoints (ns : List ℕ) : List ℕ × ℕ × List (ℕ × ℕ) :=
  ns.zipIdx.foldl endStep (List.replicate ns.length 0, 0, [])

/-- The test for vertices that have no 2D vertex in a plane (L 166-168, C 143-145). -/
def complete (v : Vtx3) : Bool := !(v.p0 < 0) && !(v.p1 < 0) && !(v.p2 < 0)

/-- `Ptr2D[plane]`; planes above 2 are outside of the array in the code. -/
def ptr (v : Vtx3) (plane : ℕ) : ℤ := if plane = 0 then v.p0 else if plane = 1 then v.p1 else v.p2

/-- The loop that makes the vertices (L 161-174, C 141-152): vertex and `ID`. -/
def vertices (vs : List Vtx3) : List (Vtx3 × ℕ) :=
  (vs.foldl (fun (s : ℕ × List (Vtx3 × ℕ)) v =>
    if !complete v then s else (s.1 + 1, s.2 ++ [(v, s.1 + 1)])) (0, [])).2

/-- The search of the vertex of an end (L 244-258, 267-281; C 208-222, 228-242). -/
def vtxGo (plane : ℕ) (e : ℤ) : ℕ → List Vtx3 → Option ℕ
  | _, [] => none
  | k, v :: r =>
    if !complete v then vtxGo plane e k r
    else if ptr v plane = e then some k
    else vtxGo plane e (k + 1) r

/-- The collections and associations: clusters, cluster–hit, cluster–end point with end, cluster–vertex
with end. -/
structure Out where
  n : ℕ := 0
  cls : List Row := []
  hc : List (ℕ × ℕ) := []
  cep : List (ℕ × ℕ × ℕ) := []
  cv : List (ℕ × ℕ × ℕ) := []
deriving DecidableEq

/-- The sums over the hits (L 194-199, C 170-175); `at` fails for an index that is not a hit. -/
def sums (hs : List Hit) (l : List ℕ) : Option (ℚ × ℚ) :=
  l.foldlM (fun (s : ℚ × ℚ) i => (hs[i]?).map (fun h => (s.1 + h.chg, s.2 + h.adc))) (0, 0)

/-- The associations of one end (L 234-259 with `end` 0, 261-282 with `end` 1): with the end point and
with the vertex.  An index outside of `indxToIndx` is a failure (undefined in the code). -/
def doEnd (indx : List ℕ) (vs : List Vtx3) (plane : ℕ) (e : ℤ) (k en : ℕ) (o : Out) : Option Out :=
  if e ≥ 0 then
    match indx[e.toNat]? with
    | none => none
    | some i =>
      let o1 := { o with cep := o.cep ++ [(k, i, en)] }
      match vtxGo plane e 0 vs with
      | none => some o1
      | some j => some { o1 with cv := o1.cv ++ [(k, j, en)] }
  else some o

/-- One cluster (L 180-283).  A cluster without hits is a failure (`tclhits[0]`, undefined). -/
def doClus (hs : List Hit) (indx : List ℕ) (vs : List Vtx3) (o : Out) (c : Clus) : Option Out :=
  if c.id < 0 then some o
  else
    let n := o.n + 1
    match sums hs c.hits with
    | none => none
    | some (q, a) =>
      if c.hits = [] then none
      else
        let o1 := { o with
          n := n
          cls := o.cls ++ [⟨c, n, q, a⟩]
          hc := o.hc ++ c.hits.map (fun h => (o.cls.length, h)) }
        match doEnd indx vs c.plane c.beg (n - 1) 0 o1 with
        | none => none
        | some o2 => doEnd indx vs c.plane c.en (n - 1) 1 o2

/-- The clusters and associations of `LineCluster::produce` (L 176-283). -/
def write (hs : List Hit) (ns : List ℕ) (vs : List Vtx3) (cs : List Clus) : Option Out :=
  cs.foldlM (doClus hs (endPoints ns).1 vs) {}

/-- The consistency check of `ClusterCrawler::produce` (C 114-136): `false` is the return without
products; `inClus` is `GetinClus()`.  Indices outside of the hits fail too (`at` throws). -/
def consistent (hs : List Hit) (inClus : List ℤ) (cs : List Clus) : Bool :=
  cs.all (fun c => decide (c.id < 0) || c.hits.all (fun i =>
    match hs[i]?, inClus[i]? with
    | some h, some k => decide (h.plane = c.plane) && decide (k = c.id)
    | _, _ => false))

end Verif.LineClus

import Mathlib.Algebra.Order.Ring.Rat
import Mathlib.Algebra.BigOperators.Group.List.Basic

/-!
# `DBCluster3D_module`: slices from clusters of space points

`larreco/ClusterFinder/DBCluster3D_module.cc`.  Numbers are rational.  The cluster of each space point is
the result of `DBScan3DAlg`, given here as any number; hits are their index in the collection.
-/

namespace Verif.DBC3D

structure V3 where
  x : ℚ
  y : ℚ
  z : ℚ
deriving DecidableEq

/-- A space point with the `cluster_id` of `fDBScan.points` (negative: none). -/
structure Pt where
  pos : V3
  cid : ℤ
deriving DecidableEq

/-- A hit: plane, `Wire`, `PeakTime` times the units per tick of its plane (169-172, 177), and the keys of
its space points (`spFromHit`). -/
structure Hit where
  plane : ℕ
  wire : ℚ
  y : ℚ
  sps : List ℕ

/-- The largest cluster number (137-140); `none` is `INT_MIN`. -/
def maxStep (m : Option ℤ) (p : Pt) : Option ℤ :=
  match m with
  | none => some p.cid
  | some c => if p.cid > c then some p.cid else m

/-- The number of slices (136-142). -/
def nslc (pts : List Pt) : ℕ :=
  match pts.foldl maxStep none with
  | none => 0
  | some c => if c ≥ 0 then (c + 1).toNat else 0

/-- The slice of the first space point of a hit (149-152); a key that is not a space point is undefined in
the code and none here. -/
def own (pts : List Pt) (h : Hit) : Option ℕ :=
  match h.sps with
  | [] => none
  | s :: _ =>
    match pts[s]? with
    | none => none
    | some p => if p.cid ≥ 0 then some p.cid.toNat else none

/-- The first loop over the hits (148-157): the hits of the slices and `hitmap`. -/
def step1 (pts : List Pt) (s : List (List ℕ) × List (Hit × ℕ)) (x : Hit × ℕ) :
    List (List ℕ) × List (Hit × ℕ) :=
  match own pts x.1 with
  | none => s
  | some c => (s.1.modify c (fun l => l ++ [x.2]), s.2 ++ [(x.1, c)])

def dis2 (h g : Hit) : ℚ := (g.wire - h.wire) * (g.wire - h.wire) + (g.y - h.y) * (g.y - h.y)

/-- The closest hit of the same plane in `hitmap` and its slice (173-183); distances are below the largest
double. -/
def closest (h : Hit) (map : List (Hit × ℕ)) : Option (ℚ × ℕ) :=
  (map.filter (fun g => g.1.plane = h.plane)).foldl (fun b g => match b with
    | none => some (dis2 h g.1, g.2)
    | some c => if dis2 h g.1 < c.1 then some (dis2 h g.1, g.2) else b) none

/-- The second loop over the hits (160-186); `m` is the square of `MinHitDis`. -/
def step2 (m : ℚ) (map : List (Hit × ℕ)) (slc : List (List ℕ)) (x : Hit × ℕ) : List (List ℕ) :=
  if slc.any (fun l => l.contains x.2) then slc
  else
    match closest x.1 map with
    | none => slc
    | some (d, c) => if d < m then slc.modify c (fun l => l ++ [x.2]) else slc

/-- The hits of the slices (144-186). -/
def slcHits (hits : List Hit) (pts : List Pt) (m : ℚ) : List (List ℕ) :=
  let s := hits.zipIdx.foldl (step1 pts) (List.replicate (nslc pts) [], [])
  hits.zipIdx.foldl (step2 m s.2) s.1

/-- The space points of the slices (188-194). -/
def slcSps (pts : List Pt) : List (List (V3 × ℕ)) :=
  pts.zipIdx.foldl (fun l p =>
    if p.1.cid ≥ 0 then l.modify p.1.cid.toNat (fun k => k ++ [(p.1.pos, p.2)]) else l)
    (List.replicate (nslc pts) [])

/-- The centre (198-208). -/
def centre (l : List V3) : V3 :=
  let s := l.foldl (fun (c : V3) p => ⟨c.x + p.x, c.y + p.y, c.z + p.z⟩) ⟨0, 0, 0⟩
  ⟨s.x / l.length, s.y / l.length, s.z / l.length⟩

/-- The sums of the fit that are used for the slopes (210-224):
`(sumx, sumy, sumz, sumx2, sumxy, sumxz)`. -/
def fitSums (c : V3) (l : List V3) : ℚ × ℚ × ℚ × ℚ × ℚ × ℚ :=
  l.foldl (fun s p =>
    let xx := p.x - c.x
    let yy := p.y - c.y
    let zz := p.z - c.z
    (s.1 + xx, s.2.1 + yy, s.2.2.1 + zz, s.2.2.2.1 + xx * xx, s.2.2.2.2.1 + xx * yy,
      s.2.2.2.2.2 + xx * zz)) (0, 0, 0, 0, 0, 0)

/-- `delta` (225). -/
def delta (c : V3) (l : List V3) : ℚ :=
  let s := fitSums c l
  l.length * s.2.2.2.1 - s.1 * s.1

/-- The slopes (228-229). -/
def slopes (c : V3) (l : List V3) : ℚ × ℚ :=
  let s := fitSums c l
  ((s.2.2.2.2.1 * l.length - s.1 * s.2.1) / delta c l,
   (s.2.2.2.2.2 * l.length - s.1 * s.2.2.1) / delta c l)

/-- The place along the axis (242-246), times the length of `(1, dydx, dzdx)` (232: a square root). -/
def along (c : V3) (d : ℚ × ℚ) (p : V3) : ℚ := (p.x - c.x) + (p.y - c.y) * d.1 + (p.z - c.z) * d.2

/-- The loop for the ends (236-255): the points with the smallest and the largest place.  The limits 1E6 of
the code at the start are not modelled. -/
def ends (c : V3) (d : ℚ × ℚ) (l : List V3) : Option (V3 × V3) :=
  l.foldl (fun (b : Option (V3 × V3)) p => match b with
    | none => some (p, p)
    | some (a, e) => some (if along c d p < along c d a then p else a,
        if along c d p > along c d e then p else e)) none

/-- A slice that is written (270-279), without the aspect ratio (a square root). -/
structure Row where
  id : ℕ
  centre : V3
  slopes : ℚ × ℚ
  e0 : V3
  e1 : V3
  charge : ℕ
  hits : List ℕ
  sps : List ℕ
deriving DecidableEq

/-- One slice (196-280). -/
def row (isl : ℕ) (hs : List ℕ) (sps : List (V3 × ℕ)) : Option Row :=
  let l := sps.map (·.1)
  let c := centre l
  if delta c l ≤ 0 then none
  else
    match ends c (slopes c l) l with
    | none => none
    | some (a, e) => some ⟨isl + 1, c, slopes c l, a, e, hs.length, hs, sps.map (·.2)⟩

/-- `produce` (88-285). -/
def produce (hits : List Hit) (pts : List Pt) (m : ℚ) : List Row :=
  ((slcHits hits pts m).zip (slcSps pts)).zipIdx.filterMap (fun x => row x.2 x.1.1 x.1.2)

end Verif.DBC3D

import Verif.Basic
import Mathlib.Algebra.Order.Field.Rat
import Mathlib.Data.List.Basic
/-!
# Model of `Polygon2D` (C52, C78–C82)

Source: `/repo/larreco/RecoAlg/ClusterRecoUtil/Polygon2D.{h,cxx}`. Coordinates are rationals instead of `float`/`double` (no rounding). The pair
`(cos θ, sin θ)` with `θ = tan(slope)` is an arbitrary function `ang` of the slope; a vertical (or zero-length) edge has the slope `none` (infinite or
NaN in the C++), for which `tan`, `cos` and `sin` are NaN and every comparison is false. Messages to `cout` are not modelled.
-/
namespace Verif.Poly
open Verif

/-- a vertex, Polygon2D.h:36 -/
abbrev P2 := ℚ × ℚ

/-- `FindSlope`, Polygon2D.cxx:7-11 -/
def findSlope (p1 p2 : P2) : Option ℚ := if p2.1 - p1.1 = 0 then none else some ((p2.2 - p1.2) / (p2.1 - p1.1))

/-- `Clockwise`, Polygon2D.cxx:14-17 -/
def clockwise (a b c : P2) : Bool := decide ((c.2 - a.2) * (b.1 - a.1) > (b.2 - a.2) * (c.1 - a.1))

/-- `SegmentOverlap`, Polygon2D.cxx:20-33 -/
def segmentOverlap (a b c d : P2) : Bool := (clockwise a c d != clockwise b c d) && (clockwise a b c != clockwise a b d)

/-- `GetIntersection`, Polygon2D.cxx:36-60; `none`: a division by zero happened (the result is not finite) -/
def getIntersection (a b c d : P2) : Option P2 :=
  if b.1 - a.1 = 0 ∨ d.1 - c.1 = 0 then none
  else
    let s1 := (b.2 - a.2) / (b.1 - a.1)
    let s2 := (d.2 - c.2) / (d.1 - c.1)
    let c1 := b.2 - s1 * b.1
    let c2 := d.2 - s2 * d.1
    if s2 - s1 = 0 then none
    else some ((c2 - c1) / (s2 - s1), s1 * ((c2 - c1) / (s2 - s1)) + c1)

/-- `Point`, Polygon2D.cxx:158-172; `vertices.at(0)` of an empty polygon throws -/
def point (v : List P2) (p : Nat) : Res P2 :=
  if p < v.length then .ok (v.getD p (0, 0))
  else match v with
    | [] => .throw
    | a :: _ => .ok a

/-- vertex `i` of a nonempty polygon (the loops only ask for `i ≤ size`), first vertex again after the last -/
def vtx (v : List P2) (i : Nat) : P2 := if i < v.length then v.getD i (0, 0) else v.getD 0 (0, 0)

/-- one term of the area sum, Polygon2D.cxx:125-126 and 128-129 -/
def areaTerm (p q : P2) : ℚ := (p.2 + q.2) * (p.1 - q.1) * (1 / 2)

/-- the loop of `Area`, Polygon2D.cxx:123-130 -/
def areaSum (v : List P2) : ℚ := (List.range v.length).foldl (fun area i =>
  if i < v.length - 1 then area + areaTerm (v.getD i (0, 0)) (v.getD (i + 1) (0, 0))
  else if i = v.length - 1 then area + areaTerm (v.getD i (0, 0)) (v.getD 0 (0, 0)) else area) 0

/-- `Area`, Polygon2D.cxx:118-133 -/
def area (v : List P2) : ℚ := if areaSum v < 0 then - areaSum v else areaSum v

/-- squared length of an edge -/
def len2 (p q : P2) : ℚ := (p.2 - q.2) * (p.2 - q.2) + (p.1 - q.1) * (p.1 - q.1)

/-- the loop of `Perimeter`, Polygon2D.cxx:139-152; the C++ returns the square root of this -/
def perimeterSum (v : List P2) : ℚ := (List.range v.length).foldl (fun s i =>
  if i < v.length - 1 then s + len2 (v.getD i (0, 0)) (v.getD (i + 1) (0, 0))
  else if i = v.length - 1 then s + len2 (v.getD i (0, 0)) (v.getD 0 (0, 0)) else s) 0

/-- loop body of `Project`, Polygon2D.cxx:181-194 -/
def projStep (p cs : P2) (range : P2) (w : P2) : P2 :=
  let xnew := (w.1 - p.1) * cs.1 + (w.2 - p.2) * cs.2
  let range := if xnew < range.1 then (xnew, range.2) else range
  if xnew > range.2 then (range.1, xnew) else range

/-- `Project`, Polygon2D.cxx:175-196; `none` for an angle that is NaN -/
def project (v : List P2) (p : P2) (cs : Option P2) : P2 :=
  match cs with
  | none => (10000, 0)
  | some cs => v.foldl (projStep p cs) (10000, 0)

/-- the comparison of ranges, Polygon2D.cxx:211-217 -/
def rangesMeet (r1 r2 : P2) : Bool :=
  ((decide (r1.1 ≤ r2.2) && decide (r1.1 ≥ r2.1)) || (decide (r1.2 ≤ r2.2) && decide (r1.2 ≥ r2.1))) ||
  ((decide (r2.1 ≤ r1.2) && decide (r2.1 ≥ r1.1)) || (decide (r2.2 ≤ r1.2) && decide (r2.2 ≥ r1.1)))

/-- `Overlap`, Polygon2D.cxx:199-218 -/
def overlap (ang : ℚ → P2) (v1 : List P2) (slope : Option ℚ) (v2 : List P2) (origin : P2) : Bool :=
  rangesMeet (project v1 origin (slope.map ang)) (project v2 origin (slope.map ang))

/-- `PolyOverlap`, Polygon2D.cxx:221-244 -/
def polyOverlap (ang : ℚ → P2) (v1 v2 : List P2) : Bool :=
  (List.range v1.length).all (fun i => overlap ang v1 (findSlope (vtx v1 i) (vtx v1 (i + 1))) v2 (vtx v1 i)) &&
  (List.range v2.length).all (fun i => overlap ang v2 (findSlope (vtx v2 i) (vtx v2 (i + 1))) v1 (vtx v2 i))

/-- the far end of the ray, Polygon2D.cxx:283-284 -/
def farPoint : P2 := (10000, 10000)

/-- number of crossings in `PointInside`, Polygon2D.cxx:277-288 -/
def crossings (v : List P2) (p : P2) : Nat := ((List.range v.length).filter (fun i => segmentOverlap (vtx v i) (vtx v (i + 1)) farPoint p)).length

/-- `PointInside`, Polygon2D.cxx:271-293 -/
def pointInside (v : List P2) (p : P2) : Bool := if crossings v p % 2 = 0 then false else true

/-- `Contained`, Polygon2D.cxx:296-306: are the vertices of the second polygon in the first? -/
def contained (v1 v2 : List P2) : Bool := (List.range v2.length).all (fun i => pointInside v1 (vtx v2 i))

/-- `PolyOverlapSegments`, Polygon2D.cxx:247-268 -/
def polyOverlapSegments (v1 v2 : List P2) : Bool :=
  if contained v1 v2 || contained v2 v1 then true
  else (List.range v1.length).any (fun i => (List.range v2.length).any (fun j =>
    segmentOverlap (vtx v1 i) (vtx v1 (i + 1)) (vtx v2 j) (vtx v2 (j + 1))))

/-- intersection points of two edges, Polygon2D.cxx:91-111; a non-finite intersection is left out of the model's list and flagged -/
def crossPoints (v1 v2 : List P2) : List (Option P2) :=
  (List.range v1.length).flatMap (fun i => (List.range v2.length).filterMap (fun j =>
    if segmentOverlap (vtx v1 i) (vtx v1 (i + 1)) (vtx v2 j) (vtx v2 (j + 1)) then
      some (getIntersection (vtx v1 i) (vtx v1 (i + 1)) (vtx v2 j) (vtx v2 (j + 1)))
    else none))

/-- constructor of the intersection polygon, Polygon2D.cxx:63-115; `none` entries are points with non-finite coordinates -/
def intersection (ang : ℚ → P2) (v1 v2 : List P2) : List (Option P2) :=
  if !polyOverlap ang v1 v2 then []
  else (v1.filter (pointInside v2)).map some ++ (v2.filter (pointInside v1)).map some ++ crossPoints v1 v2

/-- exchange two vertices, Polygon2D.cxx:330-332 -/
def swap (v : List P2) (i j : Nat) : List P2 := (v.set i (v.getD j (0, 0))).set j (v.getD i (0, 0))

/-- inner loop of `UntanglePolygon`, Polygon2D.cxx:319-337; `A`, `B` are the values read before the loop, `rec` the recursive call -/
def untInner (rec : List P2 → Option (List P2)) (A B : P2) (i : Nat) : List Nat → List P2 → Option (List P2)
  | [], v => some v
  | j :: js, v =>
    if v.getD i (0, 0) = v.getD (j + 1) (0, 0) then untInner rec A B i js v
    else if segmentOverlap A B (v.getD j (0, 0)) (v.getD (j + 1) (0, 0)) then
      match rec (swap v (i + 1) j) with
      | none => none
      | some v' => untInner rec A B i js v'
    else untInner rec A B i js v

/-- outer loop, Polygon2D.cxx:313-338 -/
def untOuter (rec : List P2 → Option (List P2)) (n : Nat) : List Nat → List P2 → Option (List P2)
  | [], v => some v
  | i :: is, v =>
    match untInner rec (v.getD i (0, 0)) (v.getD (i + 1) (0, 0)) i (List.range' (i + 2) (n - 1 - (i + 2))) v with
    | none => none
    | some v' => untOuter rec n is v'

/-- `UntanglePolygon`, Polygon2D.cxx:309-339, of a nonempty polygon, with at most `fuel` nested calls; `none`: more are needed -/
def untangle : Nat → List P2 → Option (List P2)
  | 0, _ => none
  | fuel + 1, v => untOuter (untangle fuel) v.length (List.range (v.length - 1)) v

/-- the call on any polygon: for an empty one `size() - 1` wraps around and `vertices.at(0)` throws -/
def untanglePolygon (fuel : Nat) (v : List P2) : Res (Option (List P2)) := if v.length = 0 then .throw else .ok (untangle fuel v)

end Verif.Poly

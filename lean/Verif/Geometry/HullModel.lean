import Verif.Basic
import Mathlib.Algebra.Order.Field.Rat
import Mathlib.Algebra.Order.Group.Abs
import Mathlib.Data.List.Basic
/-!
# Model of `lar_cluster3d::ConvexHull` (C54, C73–C76)

Source: `/repo/larreco/RecoAlg/Cluster3DAlgs/ConvexHull/ConvexHull.{h,cxx}`. Coordinates are rationals instead of `float` (no rounding, no
NaN); the hit pointer of a point is a number. Square roots are avoided by working with squared lengths, see the comments. Not modelled:
`getKinkPoints`.
-/
namespace Verif.Hull
open Verif

/-- `ConvexHull::Point`, ConvexHull.h:31-32: projected position and 3D hit -/
structure Pt where
  x : ℚ
  y : ℚ
  hit : Nat
deriving DecidableEq

/-- `crossProduct`, ConvexHull.cxx:59-68 -/
def cross (p0 p1 p2 : Pt) : ℚ := (p1.x - p0.x) * (p2.y - p0.y) - (p1.y - p0.y) * (p2.x - p0.x)

/-- `isLeft`, ConvexHull.cxx:50-55 -/
def isLeft (p0 p1 c : Pt) : Bool := decide (cross p0 p1 c > 0)

/-- the `while (size() > 1)` loop, ConvexHull.cxx:150-161 and 178-189; the stack is listed top first -/
def popLoop (c : Pt) : List Pt → List Pt
  | [] => []
  | [a] => [a]
  | last :: ntl :: rest => if isLeft ntl last c then last :: ntl :: rest else popLoop c (ntl :: rest)

/-- one round of the loop over the points, ConvexHull.cxx:141-164 and 171-192 -/
def halfStep (p0 far : Pt) (st : List Pt) (c : Pt) : List Pt := if isLeft p0 far c then st else c :: popLoop c st

/-- half of the hull, ConvexHull.cxx:135-164 (`p0 = pMinMin`, `far = pMaxMin`) and 167-192 (`p0 = pMaxMax`, `far = pMinMax`, points
backwards); in the order of the C++ list (bottom of the stack first) -/
def half (p0 far : Pt) (pts : List Pt) : List Pt := (pts.foldl (halfStep p0 far) [p0]).reverse

/-- `pMinMax`, ConvexHull.cxx:112-117 (and `pMaxMin`, 125-130, on the reversed list): last of the leading points with the x of the first -/
def lastSameX (p : Pt) (pts : List Pt) : Pt := (pts.takeWhile (fun e => decide (e.x = p.x))).getLastD p

/-- `getConvexHull`, ConvexHull.cxx:106-204; `front` of an empty list is undefined behaviour -/
def getConvexHull (pts : List Pt) : Res (List Pt) :=
  match pts with
  | [] => .ub
  | p :: rest =>
    let pMinMin := p
    let pMinMax := lastSameX pMinMin (p :: rest)
    let pMaxMax := (p :: rest).getLastD p
    let pMaxMin := lastSameX pMaxMax (p :: rest).reverse
    let lower := half pMinMin pMaxMin (p :: rest)
    let upper := half pMaxMax pMinMax (p :: rest).reverse
    .ok (lower ++ (if pMaxMin = pMaxMax then upper.tail else upper) ++ (if pMinMin ≠ pMinMax then [pMinMin] else []))

/-- the loop of `Area`, ConvexHull.cxx:95-99 -/
def areaLoop (center : Pt) : Pt → List Pt → ℚ → ℚ
  | _, [], area => area
  | last, p :: rest, area => areaLoop center p rest (if p ≠ last then area + (1 / 2) * cross center last p else area)

/-- `Area`, ConvexHull.cxx:72-102 -/
def area (hull : List Pt) : Res ℚ :=
  match hull with
  | [] => .ub
  | p :: rest =>
    let n : ℚ := ((p :: rest).length : ℚ)
    let center : Pt := ⟨((p :: rest).map (·.x)).sum / n, ((p :: rest).map (·.y)).sum / n, 0⟩
    .ok (areaLoop center p (p :: rest) 0)

/-- squared distance from `pt` to the edge `prev → cur` as computed in ConvexHull.cxx:348-368. The C++ projects onto the unit vector;
`t = projection / edgeLength`, so `projection > edgeLength` is `t > 1` and `projection < 0` is `t < 0`. -/
def docaDist2 (pt prev cur : Pt) : ℚ :=
  let dx := cur.x - prev.x
  let dy := cur.y - prev.y
  let t := ((pt.x - prev.x) * dx + (pt.y - prev.y) * dy) / (dx * dx + dy * dy)
  let doca : ℚ × ℚ := (prev.x + t * dx, prev.y + t * dy)
  let doca := if t > 1 then (cur.x, cur.y) else doca
  let doca := if t < 0 then (prev.x, prev.y) else doca
  (pt.x - doca.1) * (pt.x - doca.1) + (pt.y - doca.2) * (pt.y - doca.2)

/-- winner of the search so far: edge and squared distance; `none` is `numeric_limits<float>::max()`, larger than any distance -/
structure Near where
  edge : Pt × Pt
  dist2 : Option ℚ
deriving DecidableEq

/-- is the edge better than the winner so far? ConvexHull.cxx:370 -/
def closer (d : ℚ) : Option ℚ → Bool
  | none => true
  | some c => decide (d < c)

/-- loop body, ConvexHull.cxx:347-374 (simplification: edges between different points at the same position, where the C++ divides by zero,
compare false with everything and never win) -/
def nearStep (pt prev cur : Pt) (s : Near) : Near :=
  if cur ≠ prev then
    if prev.x = cur.x ∧ prev.y = cur.y then s
    else if closer (docaDist2 pt prev cur) s.dist2 then ⟨(prev, cur), some (docaDist2 pt prev cur)⟩ else s
  else s

/-- loop of `findNearestEdge`, ConvexHull.cxx:346-378; the list is what `curPointItr` still runs over -/
def nearLoop (pt : Pt) : Pt → Pt → List Pt → Near → Near
  | _, _, [], s => s
  | prev, cur, x :: rest, s => nearLoop pt cur x rest (nearStep pt prev cur s)

/-- `findNearestEdge`, ConvexHull.cxx:329-387: edge, squared distance, and whether the distance gets the minus sign of an interior point.
Fewer than two vertices: an end iterator is dereferenced. -/
def findNearestEdge (hull : List Pt) (pt : Pt) : Res ((Pt × Pt) × Option ℚ × Bool) :=
  match hull with
  | a :: b :: rest =>
    let s := nearLoop pt a b (b :: rest) ⟨(a, b), none⟩
    .ok (s.edge, s.dist2, isLeft s.edge.1 s.edge.2 pt)
  | _ => .ub

/-- scalar product of `b - a` and `d - c` (the C++ normalises both vectors, which keeps the sign) -/
def dot (a b c d : Pt) : ℚ := (b.x - a.x) * (d.x - c.x) + (b.y - a.y) * (d.y - c.y)

/-- squared distance of two points -/
def sep2 (a b : Pt) : ℚ := (b.x - a.x) * (b.x - a.x) + (b.y - a.y) * (b.y - a.y)

/-- inner loop of `getExtremePoints`, ConvexHull.cxx:229-258: turnaround point and what follows it, or `none` if the end was reached -/
def turnaround (first second : Pt) : Pt → List Pt → Option (Pt × List Pt)
  | _, [] => none
  | np, e :: rest => if dot first second np e < 0 then some (np, e :: rest) else turnaround first second e rest

/-- pair found so far and its squared separation -/
structure Ext where
  pair : Pt × Pt
  max2 : ℚ
deriving DecidableEq

/-- ConvexHull.cxx:245-249 -/
def extUpdate (first np : Pt) (s : Ext) : Ext := if sep2 first np > s.max2 then ⟨(first, np), sep2 first np⟩ else s

/-- outer loop of `getExtremePoints`, ConvexHull.cxx:219-266; iterators are the lists they still run over, equal iterators are lists of
equal length -/
def extLoop : List Pt → List Pt → Ext → Res Ext
  | _, [], s => .ok s
  | fp :: f2 :: fs, np :: ns, s =>
    match turnaround fp f2 np ns with
    | none => .ok s
    | some (np', ns') =>
      extLoop (f2 :: fs) (if (f2 :: fs).length = (np' :: ns').length then ns' else np' :: ns') (extUpdate fp np' s)
  | _, _ :: _, _ => .ub

/-- `getExtremePoints`, ConvexHull.cxx:206-272; the initial pair is twice the origin with a null hit (0) -/
def getExtremePoints (hull : List Pt) : Res (Pt × Pt) :=
  match hull with
  | [] => .ub
  | p :: rest => do
    let s ← extLoop (p :: rest) rest ⟨(⟨0, 0, 0⟩, ⟨0, 0, 0⟩), 0⟩
    pure s.pair

/-- the order the callers sort the points by before building the hull, e.g. ClusterPathFinder_tool.cc:454-459,
ConvexHullPathFinder_tool.cc:1112-1117, MSTPathFinder_tool.cc:937-942, VoronoiPathFinder_tool.cc:916-921, 1051-1056 (`eps` is
`numeric_limits<float>::epsilon()`) -/
def less (eps : ℚ) (a b : Pt) : Bool := if |a.x - b.x| > eps then decide (a.x < b.x) else decide (a.y < b.y)

/-! ## Specification -/

/-- lexicographic order of the coordinates -/
def lexle (p q : Pt) : Prop := p.x < q.x ∨ p.x = q.x ∧ p.y ≤ q.y

end Verif.Hull

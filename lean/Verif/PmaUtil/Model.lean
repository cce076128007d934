import Mathlib.Data.Rat.Floor
import Mathlib.Data.List.Basic
import Mathlib.Tactic.Linarith

/-!
# Model of the geometric helpers of projection matching

larreco/RecoAlg/PMAlg/Utilities.cxx, Utilities.h, PmaSegment3D.cxx, PmaElement3D.cxx.

Simplifications: rationals for floating point numbers; square roots are left out: where the code takes the root of a squared length the model keeps the square.
Two-dimensional points have third coordinate 0 where both versions of a function are the same.
-/

namespace Verif.PmaUtil

/-- A point or vector. -/
@[ext] structure V3 where
  x : ℚ
  y : ℚ
  z : ℚ
  deriving DecidableEq, Repr

namespace V3
def add (a b : V3) : V3 := ⟨a.x + b.x, a.y + b.y, a.z + b.z⟩
def sub (a b : V3) : V3 := ⟨a.x - b.x, a.y - b.y, a.z - b.z⟩
def smul (k : ℚ) (a : V3) : V3 := ⟨k * a.x, k * a.y, k * a.z⟩
def dot (a b : V3) : ℚ := a.x * b.x + a.y * b.y + a.z * b.z
end V3

open V3

/-- `Dist2`, larreco/RecoAlg/PMAlg/Utilities.h:50-55 (two dimensions: Utilities.cxx:39-48). -/
def dist2 (a b : V3) : ℚ := dot (sub a b) (sub a b)

/-- `GetSegmentProjVector`, larreco/RecoAlg/PMAlg/Utilities.cxx:112-142. -/
def segProj (p p0 p1 : V3) : ℚ := dot (sub p p0) (sub p1 p0) / dot (sub p1 p0) (sub p1 p0)

/-- `GetProjectionToSegment`, larreco/RecoAlg/PMAlg/Utilities.cxx:144-156. -/
def toSegment (p p0 p1 : V3) : V3 := add p0 (smul (segProj p p0 p1) (sub p1 p0))

/-! ### Point nearest to lines -/

/-- A symmetric 3x3 matrix and a vector. -/
structure Sys where
  xx : ℚ
  yy : ℚ
  zz : ℚ
  xy : ℚ
  xz : ℚ
  yz : ℚ
  b : V3

/-- The part of one line in the matrix and in the vector, larreco/RecoAlg/PMAlg/Utilities.cxx:208-240.  The direction is divided by its length there, so the products of two of its
components are those of the vector from point to point, divided by its squared length. -/
def linePart (l : V3 × V3) : Sys :=
  let d := sub l.2 l.1
  let n := dot d d
  let p := l.1
  let xx := 1 - d.x * d.x / n
  let yy := 1 - d.y * d.y / n
  let zz := 1 - d.z * d.z / n
  let xy := d.x * d.y / n
  let xz := d.x * d.z / n
  let yz := d.y * d.z / n
  ⟨xx, yy, zz, -xy, -xz, -yz, ⟨p.x * xx - p.y * xy - p.z * xz, -(p.x * xy) + p.y * yy - p.z * yz, -(p.x * xz) - p.y * yz + p.z * zz⟩⟩

/-- Sum of two parts. -/
def Sys.add (s t : Sys) : Sys := ⟨s.xx + t.xx, s.yy + t.yy, s.zz + t.zz, s.xy + t.xy, s.xz + t.xz, s.yz + t.yz, V3.add s.b t.b⟩

/-- Determinant of the matrix. -/
def Sys.det (s : Sys) : ℚ := s.xx * (s.yy * s.zz - s.yz * s.yz) - s.xy * (s.xy * s.zz - s.yz * s.xz) + s.xz * (s.xy * s.yz - s.yy * s.xz)

/-- `A.InvertFast() * y` with the cofactors of the matrix, larreco/RecoAlg/PMAlg/Utilities.cxx:241-247. -/
def Sys.solve (s : Sys) : V3 :=
  let c11 := s.yy * s.zz - s.yz * s.yz
  let c12 := s.xz * s.yz - s.xy * s.zz
  let c13 := s.xy * s.yz - s.xz * s.yy
  let c22 := s.xx * s.zz - s.xz * s.xz
  let c23 := s.xy * s.xz - s.xx * s.yz
  let c33 := s.xx * s.yy - s.xy * s.xy
  ⟨(c11 * s.b.x + c12 * s.b.y + c13 * s.b.z) / s.det, (c12 * s.b.x + c22 * s.b.y + c23 * s.b.z) / s.det, (c13 * s.b.x + c23 * s.b.y + c33 * s.b.z) / s.det⟩

/-- The lines that are used: those whose two points differ, larreco/RecoAlg/PMAlg/Utilities.cxx:174-197. -/
def usable (lines : List (V3 × V3)) : List (V3 × V3) := lines.filter fun l => decide (dot (sub l.2 l.1) (sub l.2 l.1) > 0)

/-- The system of the lines, larreco/RecoAlg/PMAlg/Utilities.cxx:204-240. -/
def system (lines : List (V3 × V3)) : Sys := ((usable lines).map linePart).foldr Sys.add ⟨0, 0, 0, 0, 0, 0, ⟨0, 0, 0⟩⟩

/-- `SolveLeastSquares3D`, larreco/RecoAlg/PMAlg/Utilities.cxx:158-261: the returned number (`none` is
not-a-number: a line with two equal points takes part in the mean squared distance although it was left out of the system, and its projection divides zero by zero) and the point.
A singular matrix is taken to raise the exception the code catches. -/
def solve (lines : List (V3 × V3)) : Option ℚ × V3 :=
  if lines.length < 2 then (some (-1), ⟨0, 0, 0⟩)
  else if (usable lines).length < 2 then (some (-1), ⟨0, 0, 0⟩)
  else
    let s := system lines
    if s.det = 0 then (some (10 ^ 12), ⟨0, 0, 0⟩)
    else
      let x := s.solve
      (if (usable lines).length = lines.length then some ((lines.map fun l => dist2 x (toSegment x l.1 l.2)).sum / lines.length) else none, x)

/-! ### Hits -/

/-- A hit: its point, view, amplitude and summed ADC, and whether it takes part. -/
structure Hit where
  pt : V3
  view : Nat
  ampl : ℚ
  adc : ℚ
  enabled : Bool
  deriving DecidableEq, Repr

/-- `GetHitsCount`, larreco/RecoAlg/PMAlg/Utilities.cxx:50-54; `none` is the unknown view. -/
def hitsCount (l : List Hit) (view : Option Nat) : Nat :=
  match view with
  | none => l.length
  | some v => l.countP fun h => decide (v = h.view)

/-- `GetSummedADC`, larreco/RecoAlg/PMAlg/Utilities.cxx:56-64 (the same for amplitudes, 66-74). -/
def summed (f : Hit → ℚ) (l : List Hit) (view : Option Nat) : ℚ :=
  match view with
  | none => (l.map f).sum
  | some v => ((l.filter fun h => decide (v = h.view)).map f).sum

/-- The mean of points, larreco/RecoAlg/PMAlg/Utilities.cxx:82-85. -/
def mean (l : List V3) : V3 := smul (1 / l.length) (l.foldl add ⟨0, 0, 0⟩)

/-- The largest of numbers (`ranges::max` of a list that is not empty). -/
def largest : List ℚ → ℚ
  | [] => 0
  | a :: rest => rest.foldl max a

/-- `GetHitsRadius3D`, larreco/RecoAlg/PMAlg/Utilities.cxx:76-92 (two dimensions: 94-110): the square. -/
def radius2 (l : List V3) (exact : Bool) : ℚ :=
  if l = [] then 0
  else if !exact && decide (l.length < 5) then 0
  else largest (l.map fun p => dist2 p (mean l))

/-! ### Orders -/

/-- The comparison of two pointers, with the values they point to, larreco/RecoAlg/PMAlg/Utilities.cxx:310-331. -/
def ptrLess (a b : Option ℚ) : Bool :=
  match a, b with
  | some x, some y => decide (x < y)
  | _, _ => false

/-- `bSegmentProjLess`, larreco/RecoAlg/PMAlg/Utilities.h:110-127: both values are of the first point. -/
def segLess (s0 s1 : V3) (p1 p2 : Option V3) : Bool :=
  match p1, p2 with
  | some p, some _ => decide (segProj p s0 s1 < segProj p s0 s1)
  | _, _ => false

/-- `bDistCenterLess2D`, `bDistCenterLess3D`, larreco/RecoAlg/PMAlg/Utilities.h:129-159. -/
def centerLess (c p1 p2 : V3) : Bool := decide (dist2 p1 c < dist2 p2 c)

/-! ### Segments -/

/-- `Segment3D::GetDist2`, larreco/RecoAlg/PMAlg/PmaSegment3D.cxx:204-246 (two dimensions: 248-288). -/
def segDist2 (p p0 p1 : V3) : ℚ :=
  let v0 := sub p p0
  let v1 := sub p1 p0
  let v2 := sub p p1
  let n1 := dot v1 v1
  if n1 ≥ 1 / 10 ^ 6 then
    let r := if dot v0 v1 > 0 ∧ dot v2 v1 < 0 then
        let mag := dot v0 v0 * n1
        let cos2 := if mag ≠ 0 then dot v0 v1 * dot v0 v1 / mag else 0
        (1 - cos2) * dot v0 v0
      else if dot v0 v1 ≤ 0 then 10001 / 10000 * dot v0 v0 else 10001 / 10000 * dot v2 v2
    if r ≥ 0 then r else 0
  else dist2 (smul (1 / 2) (add p0 p1)) p

/-- The fraction along the projected segment, larreco/RecoAlg/PMAlg/PmaSegment3D.cxx:89-94, 130-135, 169-174: length times cosine over length. -/
def fraction (p p0 p1 : V3) : ℚ := dot (sub p p0) (sub p1 p0) / dot (sub p1 p0) (sub p1 p0)

/-- Is the projection of the segment long enough?  larreco/RecoAlg/PMAlg/PmaSegment3D.cxx:89, 130, 169 (squared). -/
def long (q0 q1 : V3) : Bool := decide (dot (sub q1 q0) (sub q1 q0) > 1 / 10 ^ 12)

/-- `GetProjection`, larreco/RecoAlg/PMAlg/PmaSegment3D.cxx:68-112: `P0`, `P1` the ends of the segment, `q0`, `q1` their projections, `p` a point of the view. -/
def segPoint (P0 P1 q0 q1 p : V3) : V3 :=
  if long q0 q1 then
    let b := fraction p q0 q1
    if b < 1 then (if b > 0 then add P0 (smul b (sub P1 P0)) else P0) else P1
  else smul (1 / 2) (add P0 P1)

/-- `SetProjection`, larreco/RecoAlg/PMAlg/PmaSegment3D.cxx:149-192 (and `GetUnconstrainedProj3D`, 114-147): the projection, the fraction and the point given to the hit. -/
def setProj (P0 P1 q0 q1 p : V3) : V3 × ℚ × V3 :=
  if long q0 q1 then
    let b := fraction p q0 q1
    (add q0 (smul b (sub q1 q0)), b, add P0 (smul b (sub P1 P0)))
  else (smul (1 / 2) (add q0 q1), 0, smul (1 / 2) (add P0 P1))

/-! ### Elements -/

/-- The amplitude used for the weight: summed ADC in the collection view, larreco/RecoAlg/PMAlg/PmaElement3D.cxx:107, 127, 147. -/
def amp (h : Hit) : ℚ := if h.view = 2 then h.adc else h.ampl

/-- The largest amplitude, from 0, larreco/RecoAlg/PMAlg/PmaElement3D.cxx:103-110. -/
def sigmaMax (l : List Hit) : ℚ := l.foldl (fun m h => if amp h > m then amp h else m) 0

/-- The square of the weight of a hit of one view, larreco/RecoAlg/PMAlg/PmaElement3D.cxx:103-121, 123-141, 143-161. -/
def sigma2 (l : List Hit) (h : Hit) : ℚ :=
  if sigmaMax l > 0 then (if amp h > 0 then amp h / sigmaMax l else 1 / 10000) else 1

/-- The hits of a view of this element, the next and the previous one, larreco/RecoAlg/PMAlg/PmaElement3D.cxx:56-95: the loop over the next elements always takes the first. -/
def around (this : List Hit) (nexts : List (List Hit)) (prev : Option (List Hit)) (view : Nat) : List Hit :=
  (this ++ (nexts.map fun _ => nexts.headD []).flatten ++ prev.getD []).filter fun h => decide (h.view = view)

/-- The state of the selection, larreco/RecoAlg/PMAlg/PmaElement3D.cxx:245-260: the step and whether the hits at the step are the ones to use. -/
def plan (n nmax : Nat) : Nat × Bool :=
  if n ≥ 2 * nmax then (n / nmax, true)
  else if n > nmax then (n / (n - nmax), false)
  else (0, false)

/-- The loop over the hits with the counts of the views, larreco/RecoAlg/PMAlg/PmaElement3D.cxx:263-281. -/
def select (nhits : Nat → Nat) (nmax : Nat) : (Nat → Nat) → List Hit → List Hit
  | _, [] => []
  | count, h :: rest =>
    let pl := plan (nhits h.view) nmax
    if pl.1 ≠ 0 then
      { h with enabled := if count h.view % pl.1 = 0 then pl.2 else !pl.2 } :: select nhits nmax (fun v => if v = h.view then count v + 1 else count v) rest
    else { h with enabled := true } :: select nhits nmax count rest

/-- `SelectRndHits`, `SelectAllHits`, larreco/RecoAlg/PMAlg/PmaElement3D.cxx:236-292: the hits and whether any has changed. -/
def selectRnd (nhits : Nat → Nat) (nmax : Nat) (l : List Hit) : List Hit × Bool :=
  let out := if nmax = 0 then l.map fun h => { h with enabled := true } else select nhits nmax (fun _ => 0) l
  (out, (l.zip out).any fun p => p.1.enabled != p.2.enabled)

end Verif.PmaUtil

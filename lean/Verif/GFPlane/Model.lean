import Mathlib.Analysis.SpecialFunctions.Pow.Real

/-! # Planes of the Genfit fitter (larreco/Genfit/GFDetPlane.cxx)

Model over the real numbers of the plane with origin and two axes.  Simplified: no rounding; the rotation by a quarter turn in the check of the axes is exact; the finite part of the plane, printing
and graphics are left out; the constructor that makes random axes is left out.  A zero normal, for which the code divides by zero, is not treated. -/

namespace Verif.GFPlane

/-- A vector (`TVector3`). -/
@[ext] structure V3 where
  x : ℝ
  y : ℝ
  z : ℝ

/-- Operations of `TVector3`. -/
def dot (a b : V3) : ℝ := a.x * b.x + a.y * b.y + a.z * b.z
def cross (a b : V3) : V3 := ⟨a.y * b.z - b.y * a.z, a.z * b.x - b.z * a.x, a.x * b.y - b.x * a.y⟩
def add (a b : V3) : V3 := ⟨a.x + b.x, a.y + b.y, a.z + b.z⟩
def sub (a b : V3) : V3 := ⟨a.x - b.x, a.y - b.y, a.z - b.z⟩
def smul (k : ℝ) (a : V3) : V3 := ⟨k * a.x, k * a.y, k * a.z⟩
def zero : V3 := ⟨0, 0, 0⟩
noncomputable def mag (a : V3) : ℝ := Real.sqrt (dot a a)

open Classical in
/-- `TVector3::SetMag(1)`: a zero vector is left as it is. -/
noncomputable def unit (a : V3) : V3 := if mag a = 0 then a else smul (1 / mag a) a

open Classical in
/-- `TVector3::Rotate` by a quarter turn about an axis of length 1; a zero axis does nothing. -/
noncomputable def quarter (a n : V3) : V3 := if n = zero then a else add (cross n a) (smul (dot n a) n)

/-- The plane, larreco/Genfit/GFDetPlane.h. -/
@[ext] structure Plane where
  o : V3
  u : V3
  v : V3

/-- `getNormal`, larreco/Genfit/GFDetPlane.cxx:133-138. -/
noncomputable def Plane.normal (p : Plane) : V3 := unit (cross p.u p.v)

open Classical in
/-- `sane`, larreco/Genfit/GFDetPlane.cxx:206-226: the plane afterwards, and whether an exception is thrown. -/
noncomputable def sane (p : Plane) : Plane × Bool :=
  if p.u = p.v then (p, true)
  else
    let p1 : Plane := ⟨p.o, unit p.u, unit p.v⟩
    let n := p1.normal
    let p2 : Plane := ⟨p.o, p1.u, cross n p1.u⟩
    (p2, decide (mag (sub (quarter p2.u n) p2.v) ≥ 1 / 1000000))

/-- The constructor from axes and `set`, larreco/Genfit/GFDetPlane.cxx:34-41, 86-92. -/
noncomputable def ofAxes (o u v : V3) : Plane × Bool := sane ⟨o, u, v⟩

open Classical in
/-- `setNormal`, larreco/Genfit/GFDetPlane.cxx:151-169. -/
noncomputable def setNormal (p : Plane) (n : V3) : Plane :=
  let n := unit n
  let u := if |n.x| > 1 / 10 then unit ⟨1 / n.x * (-1 * n.y - 1 * n.z), 1, 1⟩
    else if |n.y| > 1 / 10 then unit ⟨1, 1 / n.y * (-1 * n.x - 1 * n.z), 1⟩
    else unit ⟨1, 1, 1 / n.z * (-1 * n.x - 1 * n.y)⟩
  ⟨p.o, u, cross n u⟩

/-- The setters, larreco/Genfit/GFDetPlane.cxx:86-131, 140-149. -/
inductive Op
  | set (o u v : V3)
  | setO (o : V3)
  | setU (u : V3)
  | setV (v : V3)
  | setUV (u v : V3)
  | setON (o n : V3)
  | setN (n : V3)

noncomputable def apply (p : Plane) : Op → Plane × Bool
  | .set o u v => sane ⟨o, u, v⟩
  | .setO o => sane ⟨o, p.u, p.v⟩
  | .setU u => sane ⟨p.o, u, p.v⟩
  | .setV v => sane ⟨p.o, p.u, v⟩
  | .setUV u v => sane ⟨p.o, u, v⟩
  | .setON o n => (setNormal ⟨o, p.u, p.v⟩ n, false)
  | .setN n => (setNormal p n, false)

/-- `project`, larreco/Genfit/GFDetPlane.cxx:178-183. -/
def project (p : Plane) (x : V3) : ℝ × ℝ := (dot p.u x, dot p.v x)

/-- `LabToPlane`, larreco/Genfit/GFDetPlane.cxx:185-189. -/
def toPlane (p : Plane) (x : V3) : ℝ × ℝ := project p (sub x p.o)

/-- `toLab`, larreco/Genfit/GFDetPlane.cxx:191-197. -/
def toLab (p : Plane) (x : ℝ × ℝ) : V3 := add (add p.o (smul x.1 p.u)) (smul x.2 p.v)

/-- `dist`, larreco/Genfit/GFDetPlane.cxx:199-204. -/
def dist (p : Plane) (x : V3) : V3 := sub (toLab p (toPlane p x)) x

/-- `distance`, larreco/Genfit/GFDetPlane.cxx:340-354. -/
noncomputable def distance (p : Plane) (v : V3) : ℝ :=
  let s := dot (sub v p.o) p.u
  let t := dot (sub v p.o) p.v
  mag (sub (sub (sub v p.o) (smul s p.u)) (smul t p.v))

open Classical in
/-- `straightLineToPlane`, larreco/Genfit/GFDetPlane.cxx:356-368. -/
noncomputable def lineToPlane (p : Plane) (point dir : V3) : ℝ × ℝ :=
  let d := unit dir
  let n := p.normal
  let dn := dot d n
  if |dn| < 1 / 1000000 then (10 ^ 100, 10 ^ 100)
  else
    let t := 1 / dn * dot (sub p.o point) n
    project p (add (sub point p.o) (smul t d))

/-- Two vectors differ in a coordinate by more than 0.00001, larreco/Genfit/GFDetPlane.cxx:251-262. -/
def differ (a b : V3) : Prop := |a.x - b.x| > 1 / 100000 ∨ |a.y - b.y| > 1 / 100000 ∨ |a.z - b.z| > 1 / 100000

open Classical in
/-- `operator==`, larreco/Genfit/GFDetPlane.cxx:249-264. -/
noncomputable def same (a b : Plane) : Bool :=
  if differ a.o b.o then false else if differ a.u b.u then false else if differ a.v b.v then false else true

end Verif.GFPlane

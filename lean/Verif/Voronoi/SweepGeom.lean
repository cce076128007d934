import Mathlib.Data.Real.Sqrt
import Mathlib.Tactic.Ring
import Mathlib.Tactic.FieldSimp
import Mathlib.Tactic.Linarith
import Mathlib.Tactic.LinearCombination
import Mathlib.Tactic.NormNum

/-!
C90, C91: the geometry of the sweep, `EventUtilities.cxx` and the circle centres of `Voronoi.cxx`, over the real numbers.

`double` and `float` are idealised as real numbers, without rounding, overflow or NaN.  A point is a pair `(x, y)`; the sweep line is the line
`x = lx`, it moves to smaller `x`, and the arc of a site `p` is the set of points as far from `p` as from the line.
-/
namespace Verif.Voronoi.Geom

noncomputable section

/-- `std::numeric_limits<double>::epsilon()` -/
def eps : ℝ := 1 / 2 ^ 52

/-- `computeArcVal`, EventUtilities.cxx:22-36; `none` stands for the largest `double` -/
def arcVal (lx y : ℝ) (p : ℝ × ℝ) : Option ℝ :=
  if |p.1 - lx| > eps then some ((1 / 2) * ((y - p.2) * (y - p.2) / (p.1 - lx) + (p.1 + lx))) else none

/-- the two roots, EventUtilities.cxx:55-73 -/
def roots (lx : ℝ) (p q : ℝ × ℝ) : ℝ × ℝ :=
  let d1 := p.1 - lx
  let d2 := q.1 - lx
  let a := q.1 - p.1
  let b := 2 * (q.2 * d1 - p.2 * d2)
  let c := d2 * (p.2 * p.2 + d1 * (p.1 + lx)) - d1 * (q.2 * q.2 + d2 * (q.1 + lx))
  let r := max 0 (b * b - 4 * a * c)
  let r := if r > 0 then Real.sqrt r else r
  let pos := (1 / 2) * (-b + r) / a
  let neg := (1 / 2) * (-b - r) / a
  (min pos neg, max pos neg)

/-- `computeBreak`, EventUtilities.cxx:38-86 -/
def computeBreak (lx : ℝ) (p q : ℝ × ℝ) : ℝ :=
  if |(p.1 - lx) - (q.1 - lx)| < eps then (1 / 2) * (q.2 + p.2)
  else if p.1 < q.1 then (roots lx p q).2 else (roots lx p q).1

/-- `newSiteToLeft`, EventUtilities.cxx:88-100 -/
def newSiteToLeft (s p q : ℝ × ℝ) : Prop := s.2 < computeBreak (s.1 - 1 / 1000000) p q

/-! ## Specification -/

/-- the `x` coordinate at which the arc of the site `p` crosses the height `y` -/
def arc (lx y : ℝ) (p : ℝ × ℝ) : ℝ := (1 / 2) * ((y - p.2) ^ 2 / (p.1 - lx) + (p.1 + lx))

/-- the arc is the set of points at the same distance from the site and from the sweep line -/
theorem arc_spec (lx y x : ℝ) (p : ℝ × ℝ) (h : lx < p.1) : x = arc lx y p ↔ (x - p.1) ^ 2 + (y - p.2) ^ 2 = (x - lx) ^ 2 := by
  have hd : p.1 - lx ≠ 0 := by linarith
  unfold arc
  constructor
  · rintro rfl
    field_simp
    ring
  · intro h2
    field_simp
    linear_combination -h2

theorem arcVal_eq (lx y : ℝ) (p : ℝ × ℝ) (h : lx + eps < p.1) : arcVal lx y p = some (arc lx y p) := by
  unfold arcVal arc
  have he : (0 : ℝ) < eps := by unfold eps; positivity
  rw [if_pos (by rw [abs_of_pos (by linarith)]; linarith), pow_two]

/-! ## C90 -/

/-- the difference of two arcs is a quadratic whose roots are the ones computed -/
theorem roots_spec (lx : ℝ) (p q : ℝ × ℝ) (hp : lx < p.1) (hq : lx < q.1) (hne : p.1 ≠ q.1) :
    (roots lx p q).1 ≤ (roots lx p q).2 ∧
    ∀ y, arc lx y p - arc lx y q = (q.1 - p.1) * ((y - (roots lx p q).1) * (y - (roots lx p q).2)) / (2 * (p.1 - lx) * (q.1 - lx)) := by
  have ha : q.1 - p.1 ≠ 0 := fun h => hne (by linarith)
  have h1 : p.1 - lx ≠ 0 := by intro h; linarith
  have h2 : q.1 - lx ≠ 0 := by intro h; linarith
  unfold roots
  dsimp only
  have hdisc : (2 * (q.2 * (p.1 - lx) - p.2 * (q.1 - lx))) * (2 * (q.2 * (p.1 - lx) - p.2 * (q.1 - lx))) -
      4 * (q.1 - p.1) * ((q.1 - lx) * (p.2 * p.2 + (p.1 - lx) * (p.1 + lx)) - (p.1 - lx) * (q.2 * q.2 + (q.1 - lx) * (q.1 + lx))) =
      4 * ((p.1 - lx) * (q.1 - lx)) * ((p.2 - q.2) ^ 2 + (p.1 - q.1) ^ 2) := by ring
  rw [hdisc]
  have hpos : 0 < 4 * ((p.1 - lx) * (q.1 - lx)) * ((p.2 - q.2) ^ 2 + (p.1 - q.1) ^ 2) := by
    have h3 : 0 < (p.1 - lx) * (q.1 - lx) := mul_pos (by linarith) (by linarith)
    have h4 : 0 < (p.1 - q.1) ^ 2 := by
      have : p.1 - q.1 ≠ 0 := fun h => hne (by linarith)
      positivity
    have h5 : 0 ≤ (p.2 - q.2) ^ 2 := sq_nonneg _
    exact mul_pos (by linarith) (by linarith)
  rw [max_eq_right hpos.le, if_pos hpos]
  have hs := Real.mul_self_sqrt hpos.le
  generalize Real.sqrt (4 * ((p.1 - lx) * (q.1 - lx)) * ((p.2 - q.2) ^ 2 + (p.1 - q.1) ^ 2)) = r at hs
  clear hdisc hpos
  refine ⟨le_trans (min_le_left _ _) (le_max_left _ _), fun y => ?_⟩
  have hprod : ∀ u v : ℝ, (y - min u v) * (y - max u v) = (y - u) * (y - v) := by
    intro u v
    rcases le_total u v with h | h
    · rw [min_eq_left h, max_eq_right h]
    · rw [min_eq_right h, max_eq_left h]; ring
  rw [hprod]
  unfold arc
  field_simp
  linear_combination hs

/-- C90: the two arcs meet at the computed breakpoint -/
theorem C90_meet (lx : ℝ) (p q : ℝ × ℝ) (hp : lx < p.1) (hq : lx < q.1) (hne : p.1 = q.1 ∨ eps ≤ |p.1 - q.1|) :
    arc lx (computeBreak lx p q) p = arc lx (computeBreak lx p q) q := by
  have he : (0 : ℝ) < eps := by unfold eps; positivity
  have hsub : (p.1 - lx) - (q.1 - lx) = p.1 - q.1 := by ring
  unfold computeBreak
  rw [hsub]
  rcases hne with h | h
  · rw [h, if_pos (by simpa using he)]
    unfold arc
    rw [h]
    ring
  · rw [if_neg (not_lt.2 h)]
    have hne : p.1 ≠ q.1 := by intro h'; rw [h', sub_self, abs_zero] at h; linarith
    obtain ⟨_, r2⟩ := roots_spec lx p q hp hq hne
    split
    · have := r2 (roots lx p q).2
      simp only [sub_self, mul_zero, zero_div] at this
      linarith
    · have := r2 (roots lx p q).1
      simp only [sub_self, zero_mul, mul_zero, zero_div] at this
      linarith

/-- C90: the breakpoint is the one at which the beach line passes from the left arc to the right arc: on one side, up to the other root, the left arc
is in front, on the other side the right one.  "In front" means closer to the sweep line. -/
theorem C90_order (lx : ℝ) (p q : ℝ × ℝ) (hp : lx < p.1) (hq : lx < q.1) (hne : eps ≤ |p.1 - q.1|) :
    (p.1 < q.1 → computeBreak lx p q = (roots lx p q).2 ∧ (∀ y, (roots lx p q).1 ≤ y → y ≤ computeBreak lx p q → arc lx y p ≤ arc lx y q) ∧
      (∀ y, computeBreak lx p q ≤ y → arc lx y q ≤ arc lx y p)) ∧
    (q.1 < p.1 → computeBreak lx p q = (roots lx p q).1 ∧ (∀ y, y ≤ computeBreak lx p q → arc lx y p ≤ arc lx y q) ∧
      (∀ y, computeBreak lx p q ≤ y → y ≤ (roots lx p q).2 → arc lx y q ≤ arc lx y p)) := by
  have he : (0 : ℝ) < eps := by unfold eps; positivity
  have hsub : (p.1 - lx) - (q.1 - lx) = p.1 - q.1 := by ring
  have hne' : p.1 ≠ q.1 := by intro h'; rw [h', sub_self, abs_zero] at hne; linarith
  obtain ⟨r1, r2⟩ := roots_spec lx p q hp hq hne'
  unfold computeBreak
  rw [hsub, if_neg (not_lt.2 hne)]
  have hD : 0 < 2 * (p.1 - lx) * (q.1 - lx) := mul_pos (by linarith) (by linarith)
  refine ⟨fun h => ?_, fun h => ?_⟩
  · rw [if_pos h]
    refine ⟨rfl, fun y h1 h2 => ?_, fun y h1 => ?_⟩
    · have : arc lx y p - arc lx y q ≤ 0 := by
        rw [r2]
        refine div_nonpos_of_nonpos_of_nonneg ?_ hD.le
        exact mul_nonpos_of_nonneg_of_nonpos (by linarith) (mul_nonpos_of_nonneg_of_nonpos (by linarith) (by linarith))
      linarith
    · have : 0 ≤ arc lx y p - arc lx y q := by
        rw [r2]
        exact div_nonneg (mul_nonneg (by linarith) (mul_nonneg (by linarith) (by linarith))) hD.le
      linarith
  · rw [if_neg (by linarith)]
    refine ⟨rfl, fun y h1 => ?_, fun y h1 h2 => ?_⟩
    · have : arc lx y p - arc lx y q ≤ 0 := by
        rw [r2]
        refine div_nonpos_of_nonpos_of_nonneg ?_ hD.le
        refine mul_nonpos_of_nonpos_of_nonneg (by linarith) (mul_nonneg_of_nonpos_of_nonpos (by linarith) (by linarith))
      linarith
    · have : 0 ≤ arc lx y p - arc lx y q := by
        rw [r2]
        refine div_nonneg ?_ hD.le
        exact mul_nonneg_of_nonpos_of_nonpos (by linarith) (mul_nonpos_of_nonneg_of_nonpos (by linarith) (by linarith))
      linarith

/-- C90: two sites at the same distance from the sweep line, the left one below: the break is in the middle, the left arc is in front below it and the right
arc above it -/
theorem C90_order_level (lx : ℝ) (p q : ℝ × ℝ) (hp : lx < p.1) (he : p.1 = q.1) (hy : p.2 ≤ q.2) :
    computeBreak lx p q = (p.2 + q.2) / 2 ∧ (∀ y, y ≤ computeBreak lx p q → arc lx y p ≤ arc lx y q) ∧ (∀ y, computeBreak lx p q ≤ y → arc lx y q ≤ arc lx y p) := by
  have hb : computeBreak lx p q = (p.2 + q.2) / 2 := by
    unfold computeBreak
    rw [he, sub_self, abs_zero, if_pos (by unfold eps; positivity)]
    ring
  have hD : 0 < q.1 - lx := by linarith
  have key : ∀ y, arc lx y q - arc lx y p = (q.2 - p.2) * ((p.2 + q.2) / 2 - y) / (q.1 - lx) := by
    intro y
    unfold arc
    rw [he]
    field_simp
    ring
  refine ⟨hb, fun y h => ?_, fun y h => ?_⟩
  · rw [hb] at h
    have : 0 ≤ arc lx y q - arc lx y p := by
      rw [key]; exact div_nonneg (mul_nonneg (by linarith) (by linarith)) hD.le
    linarith
  · rw [hb] at h
    have : arc lx y q - arc lx y p ≤ 0 := by
      rw [key]; exact div_nonpos_of_nonpos_of_nonneg (mul_nonpos_of_nonneg_of_nonpos (by linarith) (by linarith)) hD.le
    linarith

/-- C90: a new site is sent to the left arc only if, 10⁻⁶ before the site, that arc is in front of the right one at the height of the site, as far as the other
intersection of the two arcs -/
theorem C90_left (s p q : ℝ × ℝ) (hp : s.1 ≤ p.1) (hq : s.1 ≤ q.1) (hne : eps ≤ |p.1 - q.1|) (h : newSiteToLeft s p q)
    (hr : (roots (s.1 - 1 / 1000000) p q).1 ≤ s.2) : arc (s.1 - 1 / 1000000) s.2 p ≤ arc (s.1 - 1 / 1000000) s.2 q := by
  have he : (0 : ℝ) < eps := by unfold eps; positivity
  obtain ⟨h1, h2⟩ := C90_order (s.1 - 1 / 1000000) p q (by linarith) (by linarith) hne
  rcases lt_trichotomy p.1 q.1 with hx | hx | hx
  · exact (h1 hx).2.1 _ hr h.le
  · rw [hx, sub_self, abs_zero] at hne; linarith
  · exact (h2 hx).2.1 _ h.le

/-- a breakpoint with two different sites, in closed form -/
example : computeBreak 0 (1, 0) (2, 1) = 1 := by
  have he : eps ≤ 1 := by unfold eps; norm_num
  have e1 : ((2 : ℝ) * (1 * (1 - 0) - 0 * (2 - 0))) * (2 * (1 * (1 - 0) - 0 * (2 - 0))) - 4 * (2 - 1) * ((2 - 0) * (0 * 0 + (1 - 0) * (1 + 0)) - (1 - 0) * (1 * 1 + (2 - 0) * (2 + 0))) = 4 ^ 2 := by norm_num
  unfold computeBreak
  rw [if_neg (by norm_num; exact he), if_pos (by norm_num)]
  unfold roots
  dsimp only
  rw [e1, max_eq_right (a := (0 : ℝ)) (by norm_num), if_pos (by norm_num), Real.sqrt_sq (by norm_num)]
  norm_num

/-! ## C91 -/

/-- the determinant of `computeCircleCenter`, Voronoi.cxx:725-733: twice the signed area of the triangle -/
def det (p q r : ℝ × ℝ) : ℝ := (q.1 - p.1) * (r.2 - p.2) - (r.1 - p.1) * (q.2 - p.2)

/-- `computeCircleCenter`, Voronoi.cxx:714-783: the centre and the radius.  The estimate `delta` of the rounding error (761-774) is, without rounding, its
lower limit `5e-7`. -/
def circleCenter (p q r : ℝ × ℝ) : Option ((ℝ × ℝ) × ℝ) :=
  let x2 := q.1 - p.1
  let y2 := q.2 - p.2
  let x3 := r.1 - p.1
  let y3 := r.2 - p.2
  let d := x2 * y3 - x3 * y2
  if d ≤ 0 then none
  else
    let p2 := x2 * x2 + y2 * y2
    let p3 := x3 * x3 + y3 * y3
    let cx := (1 / 2) * (y3 * p2 - y2 * p3) / d
    let cy := (1 / 2) * (x2 * p3 - x3 * p2) / d
    some ((cx + p.1, cy + p.2), Real.sqrt (cx * cx + cy * cy))

/-- `makeCircleEvent`, Voronoi.cxx:673-712: the position of the event and the centre -/
def makeCircle (lx : ℝ) (p q r : ℝ × ℝ) : Option (ℝ × (ℝ × ℝ)) :=
  match circleCenter p q r with
  | none => none
  | some (c, rad) => if lx ≥ (c.1 - rad) - 10 * (5 / 10000000) then some (c.1 - rad, c) else none

/-- `computeCircleCenter2`, Voronoi.cxx:785-816; `none` also for a division by zero -/
def circleCenter2 (p q r : ℝ × ℝ) : Option ((ℝ × ℝ) × ℝ) :=
  if q.1 = p.1 ∨ r.1 = q.1 then none
  else
    let s12 := (q.2 - p.2) / (q.1 - p.1)
    let s32 := (r.2 - q.2) / (r.1 - q.1)
    if |s12 - s32| ≤ eps then none
    else if s12 = 0 then none
    else
      let cx := (s12 * s32 * (r.2 - p.2) + s12 * (q.1 + r.1) - s32 * (p.1 + q.1)) / (2 * (s12 - s32))
      let cy := (1 / 2) * (p.2 + q.2) - (cx - (1 / 2) * (p.1 + q.1)) / s12
      some ((cx, cy), Real.sqrt ((q.1 - cx) ^ 2 + (q.2 - cy) ^ 2))

/-- `computeCircleCenter3`, Voronoi.cxx:818-852 -/
def circleCenter3 (p q r : ℝ × ℝ) : Option ((ℝ × ℝ) × ℝ) :=
  let t := q.1 * q.1 + q.2 * q.2
  let a := (p.1 * p.1 + p.2 * p.2 - t) / 2
  let b := (t - r.1 * r.1 - r.2 * r.2) / 2
  let d := (p.1 - q.1) * (q.2 - r.2) - (q.1 - r.1) * (p.2 - q.2)
  if |d| < 10 * eps then none
  else
    let d := 1 / d
    let cx := (a * (q.2 - r.2) - b * (p.2 - q.2)) * d
    let cy := (b * (p.1 - q.1) - a * (q.1 - r.1)) * d
    some ((cx, cy), Real.sqrt ((p.1 - cx) ^ 2 + (p.2 - cy) ^ 2))

/-- specification: the circle around `c` with radius `rad` goes through `p` -/
def Through (c : ℝ × ℝ) (rad : ℝ) (p : ℝ × ℝ) : Prop := (p.1 - c.1) ^ 2 + (p.2 - c.2) ^ 2 = rad ^ 2

/-- a point that is equidistant from three points that are not on a line is unique -/
theorem center_unique (p q r c c' : ℝ × ℝ) (rad rad' : ℝ) (hd : det p q r ≠ 0) (h1 : Through c rad p) (h2 : Through c rad q) (h3 : Through c rad r)
    (h1' : Through c' rad' p) (h2' : Through c' rad' q) (h3' : Through c' rad' r) : c = c' := by
  unfold Through at *
  have e1 : (q.1 - p.1) * (c.1 - c'.1) + (q.2 - p.2) * (c.2 - c'.2) = 0 := by linear_combination (1 / 2) * (h1 - h2) - (1 / 2) * (h1' - h2')
  have e2 : (r.1 - p.1) * (c.1 - c'.1) + (r.2 - p.2) * (c.2 - c'.2) = 0 := by linear_combination (1 / 2) * (h1 - h3) - (1 / 2) * (h1' - h3')
  have f1 : det p q r * (c.1 - c'.1) = 0 := by unfold det; linear_combination (r.2 - p.2) * e1 - (q.2 - p.2) * e2
  have f2 : det p q r * (c.2 - c'.2) = 0 := by unfold det; linear_combination (q.1 - p.1) * e2 - (r.1 - p.1) * e1
  have g1 := (mul_eq_zero.1 f1).resolve_left hd
  have g2 := (mul_eq_zero.1 f2).resolve_left hd
  exact Prod.ext (by linarith) (by linarith)

/-- C91: a circle is found exactly when the three points turn left (counterclockwise), and it is then the circle through the three points -/
theorem C91_center (p q r : ℝ × ℝ) :
    (circleCenter p q r = none ↔ det p q r ≤ 0) ∧
    ∀ c rad, circleCenter p q r = some (c, rad) → 0 < rad ∧ Through c rad p ∧ Through c rad q ∧ Through c rad r ∧
      ∀ c' rad', Through c' rad' p → Through c' rad' q → Through c' rad' r → c' = c := by
  unfold circleCenter
  dsimp only
  by_cases hd : (q.1 - p.1) * (r.2 - p.2) - (r.1 - p.1) * (q.2 - p.2) ≤ 0
  · rw [if_pos hd]
    exact ⟨⟨fun _ => hd, fun _ => rfl⟩, by simp⟩
  · rw [if_neg hd]
    push Not at hd
    refine ⟨by simp [det]; linarith, ?_⟩
    rintro c rad h
    simp only [Option.some.injEq, Prod.mk.injEq] at h
    obtain ⟨rfl, rfl⟩ := h
    have hd' : (q.1 - p.1) * (r.2 - p.2) - (r.1 - p.1) * (q.2 - p.2) ≠ 0 := ne_of_gt hd
    generalize hcx : (1 / 2) * ((r.2 - p.2) * ((q.1 - p.1) * (q.1 - p.1) + (q.2 - p.2) * (q.2 - p.2)) -
      (q.2 - p.2) * ((r.1 - p.1) * (r.1 - p.1) + (r.2 - p.2) * (r.2 - p.2))) / ((q.1 - p.1) * (r.2 - p.2) - (r.1 - p.1) * (q.2 - p.2)) = cx
    generalize hcy : (1 / 2) * ((q.1 - p.1) * ((r.1 - p.1) * (r.1 - p.1) + (r.2 - p.2) * (r.2 - p.2)) -
      (r.1 - p.1) * ((q.1 - p.1) * (q.1 - p.1) + (q.2 - p.2) * (q.2 - p.2))) / ((q.1 - p.1) * (r.2 - p.2) - (r.1 - p.1) * (q.2 - p.2)) = cy
    rw [div_eq_iff hd'] at hcx hcy
    -- the centre lies on the two perpendicular bisectors
    have b1 : 2 * ((q.1 - p.1) * cx + (q.2 - p.2) * cy) = (q.1 - p.1) ^ 2 + (q.2 - p.2) ^ 2 := by
      apply mul_left_cancel₀ hd'
      linear_combination -2 * (q.1 - p.1) * hcx - 2 * (q.2 - p.2) * hcy
    have b2 : 2 * ((r.1 - p.1) * cx + (r.2 - p.2) * cy) = (r.1 - p.1) ^ 2 + (r.2 - p.2) ^ 2 := by
      apply mul_left_cancel₀ hd'
      linear_combination -2 * (r.1 - p.1) * hcx - 2 * (r.2 - p.2) * hcy
    have hs : Real.sqrt (cx * cx + cy * cy) ^ 2 = cx * cx + cy * cy := Real.sq_sqrt (by nlinarith [mul_self_nonneg cx, mul_self_nonneg cy])
    have t1 : Through (cx + p.1, cy + p.2) (Real.sqrt (cx * cx + cy * cy)) p := by unfold Through; rw [hs]; ring
    have t2 : Through (cx + p.1, cy + p.2) (Real.sqrt (cx * cx + cy * cy)) q := by unfold Through; rw [hs]; linear_combination -b1
    have t3 : Through (cx + p.1, cy + p.2) (Real.sqrt (cx * cx + cy * cy)) r := by unfold Through; rw [hs]; linear_combination -b2
    refine ⟨?_, t1, t2, t3, fun c' rad' u1 u2 u3 => center_unique p q r _ _ _ _ hd' u1 u2 u3 t1 t2 t3⟩
    refine Real.sqrt_pos.2 ?_
    by_contra hneg
    have hz : ∀ u v : ℝ, u * u + v * v ≤ 0 → u = 0 ∧ v = 0 := fun u v h =>
      ⟨mul_self_eq_zero.1 (le_antisymm (by linarith [mul_self_nonneg v]) (mul_self_nonneg u)),
        mul_self_eq_zero.1 (le_antisymm (by linarith [mul_self_nonneg u]) (mul_self_nonneg v))⟩
    obtain ⟨z1, z2⟩ := hz cx cy (by linarith)
    rw [z1, z2] at b1
    obtain ⟨y1, y2⟩ := hz (q.1 - p.1) (q.2 - p.2) (by linarith)
    rw [y1, y2] at hd
    linarith

/-- C91: a circle event is made exactly when the three points turn left and the circle's last point has not been passed by the sweep line by more than the tolerance;
its position is that last point, and the sweep line through it is as far from the centre as the three sites are -/
theorem C91_event (lx : ℝ) (p q r : ℝ × ℝ) (x : ℝ) (c : ℝ × ℝ) (h : makeCircle lx p q r = some (x, c)) :
    0 < det p q r ∧ x ≤ lx + 5 / 1000000 ∧ x < c.1 ∧ Through c (c.1 - x) p ∧ Through c (c.1 - x) q ∧ Through c (c.1 - x) r := by
  unfold makeCircle at h
  obtain ⟨h1, h2⟩ := C91_center p q r
  cases hc : circleCenter p q r with
  | none => rw [hc] at h; simp at h
  | some cr =>
    obtain ⟨c', rad⟩ := cr
    rw [hc] at h
    dsimp only at h
    by_cases hl : lx ≥ (c'.1 - rad) - 10 * (5 / 10000000)
    · rw [if_pos hl] at h
      simp only [Option.some.injEq, Prod.mk.injEq] at h
      obtain ⟨rfl, rfl⟩ := h
      obtain ⟨g1, g2, g3, g4, _⟩ := h2 _ _ hc
      have e : c'.1 - (c'.1 - rad) = rad := by ring
      rw [e]
      refine ⟨?_, by linarith, by linarith, g2, g3, g4⟩
      by_contra hn
      rw [h1.2 (by linarith)] at hc
      simp at hc
    · rw [if_neg hl] at h; simp at h

/-- C91: conversely nothing is missed -/
theorem C91_event_complete (lx : ℝ) (p q r : ℝ × ℝ) (hd : 0 < det p q r) (c : ℝ × ℝ) (rad : ℝ) (hr : 0 ≤ rad) (h1 : Through c rad p) (h2 : Through c rad q) (h3 : Through c rad r)
    (hl : c.1 - rad ≤ lx) : makeCircle lx p q r = some (c.1 - rad, c) := by
  obtain ⟨g1, g2⟩ := C91_center p q r
  unfold makeCircle
  cases hc : circleCenter p q r with
  | none => exact absurd (g1.1 hc) (by linarith)
  | some cr =>
    obtain ⟨c', rad'⟩ := cr
    obtain ⟨k1, k2, _, _, k5⟩ := g2 _ _ hc
    have e := k5 c rad h1 h2 h3
    subst e
    have : rad = rad' := by
      unfold Through at h1 k2
      have : rad ^ 2 = rad' ^ 2 := by rw [← h1, k2]
      nlinarith
    subst this
    dsimp only
    rw [if_pos (by linarith)]

/-- C91: the other two functions return the same circle when they return one, whichever way the points turn; the second one needs sites with different
coordinates (its quotients are otherwise divisions by zero), the third one gives up for small triangles -/
theorem C91_center2_partial (p q r c : ℝ × ℝ) (rad : ℝ) (h : circleCenter2 p q r = some (c, rad)) : Through c rad p ∧ Through c rad q ∧ Through c rad r := by
  unfold circleCenter2 at h
  by_cases h0 : q.1 = p.1 ∨ r.1 = q.1
  · rw [if_pos h0] at h; simp at h
  · rw [if_neg h0] at h
    push Not at h0
    dsimp only at h
    by_cases h1 : |(q.2 - p.2) / (q.1 - p.1) - (r.2 - q.2) / (r.1 - q.1)| ≤ eps
    · rw [if_pos h1] at h; simp at h
    · rw [if_neg h1] at h
      by_cases h2 : (q.2 - p.2) / (q.1 - p.1) = 0
      · rw [if_pos h2] at h; simp at h
      · rw [if_neg h2] at h
        simp only [Option.some.injEq, Prod.mk.injEq] at h
        obtain ⟨rfl, rfl⟩ := h
        have d1 : q.1 - p.1 ≠ 0 := fun h => h0.1 (by linarith)
        have d2 : r.1 - q.1 ≠ 0 := fun h => h0.2 (by linarith)
        have hq : q.2 - p.2 = (q.2 - p.2) / (q.1 - p.1) * (q.1 - p.1) := by field_simp
        have hr : r.2 - q.2 = (r.2 - q.2) / (r.1 - q.1) * (r.1 - q.1) := by field_simp
        have hne : (q.2 - p.2) / (q.1 - p.1) - (r.2 - q.2) / (r.1 - q.1) ≠ 0 := by
          intro h
          rw [h, abs_zero] at h1
          exact h1 (by unfold eps; positivity)
        generalize (q.2 - p.2) / (q.1 - p.1) = s at *
        generalize (r.2 - q.2) / (r.1 - q.1) = t at *
        generalize hcx : (s * t * (r.2 - p.2) + s * (q.1 + r.1) - t * (p.1 + q.1)) / (2 * (s - t)) = cx
        generalize hcy : (1 / 2) * (p.2 + q.2) - (cx - (1 / 2) * (p.1 + q.1)) / s = cy
        have e1 : 2 * (s - t) * cx = s * t * (r.2 - p.2) + s * (q.1 + r.1) - t * (p.1 + q.1) := by rw [← hcx]; field_simp
        have e2 : s * cy = (1 / 2) * s * (p.2 + q.2) - (cx - (1 / 2) * (p.1 + q.1)) := by rw [← hcy]; field_simp
        have hs : Real.sqrt ((q.1 - cx) ^ 2 + (q.2 - cy) ^ 2) ^ 2 = (q.1 - cx) ^ 2 + (q.2 - cy) ^ 2 := Real.sq_sqrt (by positivity)
        unfold Through
        rw [hs]
        refine ⟨?_, rfl, ?_⟩
        · have : (p.1 - cx) ^ 2 + (p.2 - cy) ^ 2 - ((q.1 - cx) ^ 2 + (q.2 - cy) ^ 2) = 0 := by
            have e3 : q.2 = p.2 + s * (q.1 - p.1) := by linarith
            have : (p.1 - cx) ^ 2 + (p.2 - cy) ^ 2 - ((q.1 - cx) ^ 2 + (q.2 - cy) ^ 2) = (q.1 - p.1) * (2 * cx - p.1 - q.1 + 2 * s * cy - s * (p.2 + q.2)) := by
              linear_combination (2 * cy - p.2 - q.2) * e3
            rw [this]
            have : 2 * cx - p.1 - q.1 + 2 * s * cy - s * (p.2 + q.2) = 0 := by linear_combination 2 * e2
            rw [this, mul_zero]
          linarith
        · have e4 : r.2 = q.2 + t * (r.1 - q.1) := by linarith
          have key : s * (2 * cx - q.1 - r.1 + 2 * t * cy - t * (q.2 + r.2)) = 0 := by
            have e3 : q.2 = p.2 + s * (q.1 - p.1) := by linarith
            linear_combination e1 + 2 * t * e2
          have key' := (mul_eq_zero.1 key).resolve_left h2
          have : (r.1 - cx) ^ 2 + (r.2 - cy) ^ 2 - ((q.1 - cx) ^ 2 + (q.2 - cy) ^ 2) = (q.1 - r.1) * (2 * cx - q.1 - r.1 + 2 * t * cy - t * (q.2 + r.2)) := by
            linear_combination (q.2 + r.2 - 2 * cy) * e4
          rw [key', mul_zero] at this
          linarith

/-- C91: the third function, for triangles with more than a tiny area in either orientation -/
theorem C91_center3 (p q r : ℝ × ℝ) : (circleCenter3 p q r = none ↔ |det p q r| < 10 * eps) ∧
    ∀ c rad, circleCenter3 p q r = some (c, rad) → Through c rad p ∧ Through c rad q ∧ Through c rad r := by
  have hdet : (p.1 - q.1) * (q.2 - r.2) - (q.1 - r.1) * (p.2 - q.2) = det p q r := by unfold det; ring
  unfold circleCenter3
  dsimp only
  rw [hdet]
  by_cases hd : |det p q r| < 10 * eps
  · rw [if_pos hd]; exact ⟨by simp [hd], by simp⟩
  · rw [if_neg hd]
    refine ⟨by simp [hd], ?_⟩
    rintro c rad h
    simp only [Option.some.injEq, Prod.mk.injEq] at h
    obtain ⟨rfl, rfl⟩ := h
    have hne : det p q r ≠ 0 := by
      intro h
      rw [h, abs_zero] at hd
      exact hd (by unfold eps; positivity)
    generalize hcx : ((p.1 * p.1 + p.2 * p.2 - (q.1 * q.1 + q.2 * q.2)) / 2 * (q.2 - r.2) - (q.1 * q.1 + q.2 * q.2 - r.1 * r.1 - r.2 * r.2) / 2 * (p.2 - q.2)) * (1 / det p q r) = cx
    generalize hcy : ((q.1 * q.1 + q.2 * q.2 - r.1 * r.1 - r.2 * r.2) / 2 * (p.1 - q.1) - (p.1 * p.1 + p.2 * p.2 - (q.1 * q.1 + q.2 * q.2)) / 2 * (q.1 - r.1)) * (1 / det p q r) = cy
    have b1 : 2 * ((p.1 - q.1) * cx + (p.2 - q.2) * cy) = p.1 ^ 2 + p.2 ^ 2 - q.1 ^ 2 - q.2 ^ 2 := by
      rw [← hcx, ← hcy]; field_simp; unfold det; ring
    have b2 : 2 * ((q.1 - r.1) * cx + (q.2 - r.2) * cy) = q.1 ^ 2 + q.2 ^ 2 - r.1 ^ 2 - r.2 ^ 2 := by
      rw [← hcx, ← hcy]; field_simp; unfold det; ring
    have hs : Real.sqrt ((p.1 - cx) ^ 2 + (p.2 - cy) ^ 2) ^ 2 = (p.1 - cx) ^ 2 + (p.2 - cy) ^ 2 := Real.sq_sqrt (by positivity)
    unfold Through
    rw [hs]
    exact ⟨rfl, by linear_combination b1, by linear_combination b1 + b2⟩

/-- the second function misses the circle through three corners of a square -/
theorem C91_center2_refuted : circleCenter2 (0, 0) (0, 1) (1, 1) = none ∧ circleCenter2 (0, 0) (1, 0) (1, 1) = none ∧
    circleCenter2 (0, 0) (1, 0) (2, 1) = none ∧ det (0, 0) (1, 0) (2, 1) ≠ 0 := by
  refine ⟨?_, ?_, ?_, ?_⟩ <;> simp [circleCenter2, det]

/-- the circle through three corners of a square -/
example : circleCenter (0, 0) (2, 0) (2, 2) = some ((1, 1), Real.sqrt 2) := by
  unfold circleCenter
  norm_num

example : makeCircle 1 (0, 0) (2, 0) (2, 2) = some (1 - Real.sqrt 2, (1, 1)) := by
  refine C91_event_complete 1 (0, 0) (2, 0) (2, 2) (by norm_num [det]) (1, 1) (Real.sqrt 2) (Real.sqrt_nonneg _) ?_ ?_ ?_ (by simp [Real.sqrt_nonneg])
  all_goals (unfold Through; rw [Real.sq_sqrt (by norm_num)]; norm_num)

end

end Verif.Voronoi.Geom

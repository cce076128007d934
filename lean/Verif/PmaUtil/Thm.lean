import Verif.PmaUtil.Model
import Mathlib.Tactic.Ring
import Mathlib.Tactic.FieldSimp
import Mathlib.Tactic.LinearCombination
import Mathlib.Tactic.Positivity
import Mathlib.Tactic.NormNum
import Mathlib.LinearAlgebra.Matrix.ToLinearEquiv
import Mathlib.LinearAlgebra.Matrix.Notation
import Mathlib.LinearAlgebra.Matrix.Determinant.Basic

/-! # Projection matching helpers: projections and the point nearest to lines (C371, C372) -/

namespace Verif.PmaUtil

open V3

/-- Specification: the point of the line through two points at a fraction of the way from the first to the second. -/
def onLine (l : V3 × V3) (t : ℚ) : V3 := ⟨l.1.x + t * (l.2.x - l.1.x), l.1.y + t * (l.2.y - l.1.y), l.1.z + t * (l.2.z - l.1.z)⟩

/-- Specification: two lines have the same or opposite directions (their cross product vanishes). -/
def Parallel (l m : V3 × V3) : Prop :=
  (l.2.x - l.1.x) * (m.2.y - m.1.y) = (l.2.y - l.1.y) * (m.2.x - m.1.x) ∧
  (l.2.y - l.1.y) * (m.2.z - m.1.z) = (l.2.z - l.1.z) * (m.2.y - m.1.y) ∧
  (l.2.x - l.1.x) * (m.2.z - m.1.z) = (l.2.z - l.1.z) * (m.2.x - m.1.x)

theorem dot_self_nonneg (a : V3) : 0 ≤ dot a a := by
  unfold dot; nlinarith [sq_nonneg a.x, sq_nonneg a.y, sq_nonneg a.z]

theorem dot_self_zero {a : V3} (h : dot a a = 0) : a = ⟨0, 0, 0⟩ := by
  unfold dot at h
  have hx : a.x = 0 := by
    have : a.x * a.x = 0 := by nlinarith [mul_self_nonneg a.x, mul_self_nonneg a.y, mul_self_nonneg a.z]
    simpa using this
  have hy : a.y = 0 := by
    have : a.y * a.y = 0 := by nlinarith [mul_self_nonneg a.x, mul_self_nonneg a.y, mul_self_nonneg a.z]
    simpa using this
  have hz : a.z = 0 := by
    have : a.z * a.z = 0 := by nlinarith [mul_self_nonneg a.x, mul_self_nonneg a.y, mul_self_nonneg a.z]
    simpa using this
  ext <;> simp [hx, hy, hz]

theorem len_pos {p0 p1 : V3} (h : p0 ≠ p1) : 0 < dot (sub p1 p0) (sub p1 p0) := by
  rcases (dot_self_nonneg (sub p1 p0)).lt_or_eq with h1 | h1
  · exact h1
  · exfalso
    have := dot_self_zero h1.symm
    apply h
    simp only [sub, V3.mk.injEq] at this
    ext <;> linarith [this.1, this.2.1, this.2.2]

/-- Pythagoras: the squared distance to a point of the line. -/
theorem dist2_onLine (p p0 p1 : V3) (h : p0 ≠ p1) (t : ℚ) :
    dist2 p (onLine (p0, p1) t) = dist2 p (toSegment p p0 p1) + (t - segProj p p0 p1) ^ 2 * dot (sub p1 p0) (sub p1 p0) := by
  have hn := len_pos h
  have hb : segProj p p0 p1 * dot (sub p1 p0) (sub p1 p0) = dot (sub p p0) (sub p1 p0) := by
    unfold segProj; field_simp
  unfold dist2 toSegment onLine
  generalize segProj p p0 p1 = b at hb
  simp only [dot, sub, add, smul] at hb ⊢
  linear_combination (2 * (t - b)) * hb

theorem toSegment_onLine (p p0 p1 : V3) : toSegment p p0 p1 = onLine (p0, p1) (segProj p p0 p1) := rfl

/-- C371: the projection of a point onto the line through two different points lies on the line at the fraction the code returns, no other point of the line is as near, the vector to it is
orthogonal to the line, and the fraction is 0 at the first point, 1 at the second, and in general the fraction of any point of the line itself. -/
theorem C371_projection (p p0 p1 : V3) (h : p0 ≠ p1) :
    toSegment p p0 p1 = onLine (p0, p1) (segProj p p0 p1) ∧
    (∀ t, dist2 p (toSegment p p0 p1) ≤ dist2 p (onLine (p0, p1) t)) ∧
    (∀ t, dist2 p (onLine (p0, p1) t) ≤ dist2 p (toSegment p p0 p1) → t = segProj p p0 p1) ∧
    dot (sub p (toSegment p p0 p1)) (sub p1 p0) = 0 ∧
    (∀ t, segProj (onLine (p0, p1) t) p0 p1 = t) := by
  have hn := len_pos h
  refine ⟨rfl, fun t => ?_, fun t ht => ?_, ?_, fun t => ?_⟩
  · rw [dist2_onLine p p0 p1 h t]
    nlinarith [mul_nonneg (sq_nonneg (t - segProj p p0 p1)) hn.le]
  · rw [dist2_onLine p p0 p1 h t] at ht
    have : (t - segProj p p0 p1) ^ 2 * dot (sub p1 p0) (sub p1 p0) = 0 :=
      le_antisymm (by linarith) (mul_nonneg (sq_nonneg _) hn.le)
    rcases mul_eq_zero.mp this with h1 | h1
    · have := pow_eq_zero_iff (two_ne_zero) |>.mp h1
      linarith
    · exact absurd h1 hn.ne'
  · have hb : segProj p p0 p1 * dot (sub p1 p0) (sub p1 p0) = dot (sub p p0) (sub p1 p0) := by
      unfold segProj; field_simp
    unfold toSegment
    generalize segProj p p0 p1 = b at hb
    simp only [dot, sub, add, smul] at hb ⊢
    linear_combination (-1 : ℚ) * hb
  · unfold segProj
    rw [div_eq_iff hn.ne']
    simp only [dot, sub, onLine]
    ring

example : toSegment ⟨1, 2, 3⟩ ⟨0, 0, 0⟩ ⟨0, 0, 6⟩ = ⟨0, 0, 3⟩ ∧ segProj ⟨1, 2, 3⟩ ⟨0, 0, 0⟩ ⟨0, 0, 6⟩ = 1 / 2 := by decide +kernel

/-! ### The quadratic form -/

/-- The quadratic form of the matrix. -/
def Sys.qf (s : Sys) (v : V3) : ℚ :=
  s.xx * v.x * v.x + s.yy * v.y * v.y + s.zz * v.z * v.z + 2 * s.xy * v.x * v.y + 2 * s.xz * v.x * v.z + 2 * s.yz * v.y * v.z

/-- The matrix times a vector. -/
def Sys.mv (s : Sys) (v : V3) : V3 :=
  ⟨s.xx * v.x + s.xy * v.y + s.xz * v.z, s.xy * v.x + s.yy * v.y + s.yz * v.z, s.xz * v.x + s.yz * v.y + s.zz * v.z⟩

theorem qf_add (s t : Sys) (v : V3) : (s.add t).qf v = s.qf v + t.qf v := by simp only [Sys.qf, Sys.add]; ring
theorem mv_add (s t : Sys) (v : V3) : (s.add t).mv v = V3.add (s.mv v) (t.mv v) := by
  simp only [Sys.mv, Sys.add, V3.add, V3.mk.injEq]; refine ⟨?_, ?_, ?_⟩ <;> ring

/-- Squared length of the cross product with the direction, over the squared length of the direction. -/
theorem qf_line (l : V3 × V3) (h : l.1 ≠ l.2) (v : V3) :
    (linePart l).qf v = (((l.2.x - l.1.x) * v.y - (l.2.y - l.1.y) * v.x) ^ 2 + ((l.2.y - l.1.y) * v.z - (l.2.z - l.1.z) * v.y) ^ 2 +
      ((l.2.x - l.1.x) * v.z - (l.2.z - l.1.z) * v.x) ^ 2) / dot (sub l.2 l.1) (sub l.2 l.1) := by
  have hn := (len_pos h).ne'
  rw [eq_div_iff hn]
  unfold linePart Sys.qf
  dsimp only
  have e : ∀ a : ℚ, a / dot (sub l.2 l.1) (sub l.2 l.1) * dot (sub l.2 l.1) (sub l.2 l.1) = a := fun a => div_mul_cancel₀ a hn
  have e1 := e ((sub l.2 l.1).x * (sub l.2 l.1).x)
  have e2 := e ((sub l.2 l.1).y * (sub l.2 l.1).y)
  have e3 := e ((sub l.2 l.1).z * (sub l.2 l.1).z)
  have e4 := e ((sub l.2 l.1).x * (sub l.2 l.1).y)
  have e5 := e ((sub l.2 l.1).x * (sub l.2 l.1).z)
  have e6 := e ((sub l.2 l.1).y * (sub l.2 l.1).z)
  have hd : dot (sub l.2 l.1) (sub l.2 l.1) = (l.2.x - l.1.x) * (l.2.x - l.1.x) + (l.2.y - l.1.y) * (l.2.y - l.1.y) + (l.2.z - l.1.z) * (l.2.z - l.1.z) := rfl
  generalize dot (sub l.2 l.1) (sub l.2 l.1) = n at *
  simp only [sub] at *
  generalize (l.2.x - l.1.x) * (l.2.x - l.1.x) / n = a1 at *
  generalize (l.2.y - l.1.y) * (l.2.y - l.1.y) / n = a2 at *
  generalize (l.2.z - l.1.z) * (l.2.z - l.1.z) / n = a3 at *
  generalize (l.2.x - l.1.x) * (l.2.y - l.1.y) / n = a4 at *
  generalize (l.2.x - l.1.x) * (l.2.z - l.1.z) / n = a5 at *
  generalize (l.2.y - l.1.y) * (l.2.z - l.1.z) / n = a6 at *
  linear_combination (v.x * v.x + v.y * v.y + v.z * v.z) * hd - v.x * v.x * e1 - v.y * v.y * e2 - v.z * v.z * e3 - 2 * v.x * v.y * e4 - 2 * v.x * v.z * e5 - 2 * v.y * v.z * e6

theorem qf_line_nonneg (l : V3 × V3) (h : l.1 ≠ l.2) (v : V3) : 0 ≤ (linePart l).qf v := by
  rw [qf_line l h v]
  exact div_nonneg (by positivity) (len_pos h).le

/-- The form of a line vanishes exactly on the multiples of its direction. -/
theorem qf_line_zero (l : V3 × V3) (h : l.1 ≠ l.2) (v : V3) :
    (linePart l).qf v = 0 ↔ (l.2.x - l.1.x) * v.y = (l.2.y - l.1.y) * v.x ∧ (l.2.y - l.1.y) * v.z = (l.2.z - l.1.z) * v.y ∧ (l.2.x - l.1.x) * v.z = (l.2.z - l.1.z) * v.x := by
  rw [qf_line l h v, div_eq_zero_iff, or_iff_left (len_pos h).ne']
  constructor
  · intro e
    refine ⟨?_, ?_, ?_⟩ <;> refine sub_eq_zero.mp (pow_eq_zero_iff two_ne_zero |>.mp ?_) <;>
      nlinarith [sq_nonneg ((l.2.x - l.1.x) * v.y - (l.2.y - l.1.y) * v.x), sq_nonneg ((l.2.y - l.1.y) * v.z - (l.2.z - l.1.z) * v.y), sq_nonneg ((l.2.x - l.1.x) * v.z - (l.2.z - l.1.z) * v.x)]
  · rintro ⟨a, b, c⟩; rw [a, b, c]; ring

/-- The matrix of a line kills a vector its form kills. -/
theorem mv_line_zero (l : V3 × V3) (h : l.1 ≠ l.2) (v : V3) (e : (linePart l).qf v = 0) : (linePart l).mv v = ⟨0, 0, 0⟩ := by
  obtain ⟨e1, e2, e3⟩ := (qf_line_zero l h v).mp e
  have hn := (len_pos h).ne'
  have hd : dot (sub l.2 l.1) (sub l.2 l.1) = (l.2.x - l.1.x) * (l.2.x - l.1.x) + (l.2.y - l.1.y) * (l.2.y - l.1.y) + (l.2.z - l.1.z) * (l.2.z - l.1.z) := rfl
  unfold linePart Sys.mv
  dsimp only
  generalize dot (sub l.2 l.1) (sub l.2 l.1) = n at *
  simp only [sub]
  generalize l.2.x - l.1.x = dx at *
  generalize l.2.y - l.1.y = dy at *
  generalize l.2.z - l.1.z = dz at *
  simp only [V3.mk.injEq]
  refine ⟨?_, ?_, ?_⟩
  · field_simp
    linear_combination v.x * hd - dy * e1 - dz * e3
  · field_simp
    linear_combination v.y * hd + dx * e1 - dz * e2
  · field_simp
    linear_combination v.z * hd + dx * e3 + dy * e2

/-- The squared distance to a line is quadratic with the matrix and the vector of the line. -/
theorem dist_line (l : V3 × V3) (h : l.1 ≠ l.2) (x z : V3) :
    dist2 z (toSegment z l.1 l.2) - dist2 x (toSegment x l.1 l.2) =
      (linePart l).qf (sub z x) + 2 * dot (sub ((linePart l).mv x) (linePart l).b) (sub z x) := by
  have hn := (len_pos h).ne'
  have key : ∀ z : V3, dist2 z (toSegment z l.1 l.2) = dot (sub z l.1) (sub z l.1) - dot (sub z l.1) (sub l.2 l.1) ^ 2 / dot (sub l.2 l.1) (sub l.2 l.1) := by
    intro z
    have hb : segProj z l.1 l.2 * dot (sub l.2 l.1) (sub l.2 l.1) = dot (sub z l.1) (sub l.2 l.1) := by
      unfold segProj; field_simp
    have : dot (sub z l.1) (sub l.2 l.1) ^ 2 / dot (sub l.2 l.1) (sub l.2 l.1) = segProj z l.1 l.2 * dot (sub z l.1) (sub l.2 l.1) := by
      unfold segProj; field_simp
    rw [this]
    unfold dist2 toSegment
    generalize segProj z l.1 l.2 = b at *
    simp only [dot, sub, add, smul] at hb ⊢
    linear_combination b * hb
  rw [key, key]
  unfold linePart Sys.qf Sys.mv
  dsimp only
  generalize dot (sub l.2 l.1) (sub l.2 l.1) = n at *
  simp only [sub, dot]
  generalize l.2.x - l.1.x = dx at *
  generalize l.2.y - l.1.y = dy at *
  generalize l.2.z - l.1.z = dz at *
  field_simp
  ring

theorem usable_ne {lines : List (V3 × V3)} {l : V3 × V3} (h : l ∈ usable lines) : l.1 ≠ l.2 := by
  unfold usable at h
  have := (List.mem_filter.mp h).2
  simp only [gt_iff_lt, decide_eq_true_eq] at this
  intro e
  rw [e] at this
  simp [dot, sub] at this

/-- Matrix and vector of a list of lines. -/
def sysOf (u : List (V3 × V3)) : Sys := (u.map linePart).foldr Sys.add ⟨0, 0, 0, 0, 0, 0, ⟨0, 0, 0⟩⟩

theorem sysOf_cons (l : V3 × V3) (u) : sysOf (l :: u) = (linePart l).add (sysOf u) := rfl

theorem dist_sum (u : List (V3 × V3)) (hu : ∀ l ∈ u, l.1 ≠ l.2) (x z : V3) :
    (u.map fun l => dist2 z (toSegment z l.1 l.2)).sum - (u.map fun l => dist2 x (toSegment x l.1 l.2)).sum =
      (sysOf u).qf (sub z x) + 2 * dot (sub ((sysOf u).mv x) (sysOf u).b) (sub z x) := by
  induction u with
  | nil => simp [sysOf, Sys.qf, Sys.mv, dot, sub]
  | cons l u ih =>
    have h1 := dist_line l (hu l (by simp)) x z
    have h2 := ih (fun m hm => hu m (by simp [hm]))
    rw [sysOf_cons, qf_add, mv_add]
    simp only [List.map_cons, List.sum_cons]
    simp only [Sys.add]
    generalize (sysOf u).mv x = mu at *
    generalize (linePart l).mv x = ml at *
    simp only [dot, sub, V3.add] at h1 h2 ⊢
    linear_combination h1 + h2

theorem qf_sum (u : List (V3 × V3)) (v : V3) : (sysOf u).qf v = (u.map fun l => (linePart l).qf v).sum := by
  induction u with
  | nil => simp [sysOf, Sys.qf]
  | cons l u ih => rw [sysOf_cons, qf_add, ih]; simp

theorem qf_sum_nonneg (u : List (V3 × V3)) (hu : ∀ l ∈ u, l.1 ≠ l.2) (v : V3) : 0 ≤ (sysOf u).qf v := by
  rw [qf_sum]
  apply List.sum_nonneg
  intro q hq
  obtain ⟨l, hl, rfl⟩ := List.mem_map.mp hq
  exact qf_line_nonneg l (hu l hl) v

theorem qf_sum_zero (u : List (V3 × V3)) (hu : ∀ l ∈ u, l.1 ≠ l.2) (v : V3) (e : (sysOf u).qf v = 0) : ∀ l ∈ u, (linePart l).qf v = 0 := by
  induction u with
  | nil => simp
  | cons l u ih =>
    rw [sysOf_cons, qf_add] at e
    have h1 := qf_line_nonneg l (hu l (by simp)) v
    have h2 := qf_sum_nonneg u (fun m hm => hu m (by simp [hm])) v
    intro m hm
    rcases List.mem_cons.mp hm with rfl | hm
    · linarith
    · exact ih (fun m hm => hu m (by simp [hm])) (by linarith) m hm

theorem mv_zero_of (u : List (V3 × V3)) (hu : ∀ l ∈ u, l.1 ≠ l.2) (v : V3) (e : ∀ l ∈ u, (linePart l).qf v = 0) : (sysOf u).mv v = ⟨0, 0, 0⟩ := by
  induction u with
  | nil => simp [sysOf, Sys.mv]
  | cons l u ih =>
    rw [sysOf_cons, mv_add, ih (fun m hm => hu m (by simp [hm])) (fun m hm => e m (by simp [hm])),
      mv_line_zero l (hu l (by simp)) v (e l (by simp))]
    simp [V3.add]

/-- A matrix with a determinant other than zero kills only the zero vector. -/
theorem mv_inj (s : Sys) (hd : s.det ≠ 0) (v : V3) (e : s.mv v = ⟨0, 0, 0⟩) : v = ⟨0, 0, 0⟩ := by
  simp only [Sys.mv, V3.mk.injEq] at e
  obtain ⟨e1, e2, e3⟩ := e
  have hx : s.det * v.x = 0 := by
    unfold Sys.det
    linear_combination (s.yy * s.zz - s.yz * s.yz) * e1 + (s.xz * s.yz - s.xy * s.zz) * e2 + (s.xy * s.yz - s.xz * s.yy) * e3
  have hy : s.det * v.y = 0 := by
    unfold Sys.det
    linear_combination (s.xz * s.yz - s.xy * s.zz) * e1 + (s.xx * s.zz - s.xz * s.xz) * e2 + (s.xy * s.xz - s.xx * s.yz) * e3
  have hz : s.det * v.z = 0 := by
    unfold Sys.det
    linear_combination (s.xy * s.yz - s.xz * s.yy) * e1 + (s.xy * s.xz - s.xx * s.yz) * e2 + (s.xx * s.yy - s.xy * s.xy) * e3
  ext
  · exact (mul_eq_zero.mp hx).resolve_left hd
  · exact (mul_eq_zero.mp hy).resolve_left hd
  · exact (mul_eq_zero.mp hz).resolve_left hd

theorem mv_solve (s : Sys) (hd : s.det ≠ 0) : s.mv s.solve = s.b := by
  unfold Sys.mv Sys.solve
  ext
  · dsimp only
    field_simp
    unfold Sys.det; ring
  · dsimp only
    field_simp
    unfold Sys.det; ring
  · dsimp only
    field_simp
    unfold Sys.det; ring

/-- A singular matrix kills some vector other than zero. -/
theorem kernel (s : Sys) (hd : s.det = 0) : ∃ v : V3, v ≠ ⟨0, 0, 0⟩ ∧ s.mv v = ⟨0, 0, 0⟩ := by
  have h : (!![s.xx, s.xy, s.xz; s.xy, s.yy, s.yz; s.xz, s.yz, s.zz] : Matrix (Fin 3) (Fin 3) ℚ).det = 0 := by
    rw [Matrix.det_fin_three]
    simp only [Matrix.of_apply, Matrix.cons_val', Matrix.cons_val_zero, Matrix.cons_val_one, Matrix.cons_val]
    unfold Sys.det at hd
    linear_combination hd
  obtain ⟨w, hw, e⟩ := Matrix.exists_mulVec_eq_zero_iff.mpr h
  refine ⟨⟨w 0, w 1, w 2⟩, ?_, ?_⟩
  · intro hz
    apply hw
    simp only [V3.mk.injEq] at hz
    funext i
    fin_cases i
    · exact hz.1
    · exact hz.2.1
    · exact hz.2.2
  · have e0 := congrFun e 0
    have e1 := congrFun e 1
    have e2 := congrFun e 2
    simp [Matrix.mulVec, dotProduct, Fin.sum_univ_three] at e0 e1 e2
    simp only [Sys.mv, V3.mk.injEq]
    exact ⟨e0, e1, e2⟩

theorem parallel_iff (l m : V3 × V3) (h : l.1 ≠ l.2) : Parallel l m ↔ (linePart l).qf (sub m.2 m.1) = 0 := by
  rw [qf_line_zero l h]
  unfold Parallel
  simp only [sub]

theorem parallel_trans (l m : V3 × V3) (hm : m.1 ≠ m.2) (v : V3) (hv : v ≠ ⟨0, 0, 0⟩)
    (e1 : (linePart l).qf v = 0) (hl : l.1 ≠ l.2) (e2 : (linePart m).qf v = 0) : Parallel l m := by
  obtain ⟨a1, a2, a3⟩ := (qf_line_zero l hl v).mp e1
  obtain ⟨b1, b2, b3⟩ := (qf_line_zero m hm v).mp e2
  unfold Parallel
  have hne : v.x ≠ 0 ∨ v.y ≠ 0 ∨ v.z ≠ 0 := by
    by_contra hc
    push Not at hc
    exact hv (by ext <;> simp [hc.1, hc.2.1, hc.2.2])
  generalize l.2.x - l.1.x = lx at *
  generalize l.2.y - l.1.y = ly at *
  generalize l.2.z - l.1.z = lz at *
  generalize m.2.x - m.1.x = mx at *
  generalize m.2.y - m.1.y = my at *
  generalize m.2.z - m.1.z = mz at *
  rcases hne with h | h | h
  · refine ⟨?_, ?_, ?_⟩ <;> apply mul_left_cancel₀ h
    · linear_combination mx * a1 - lx * b1
    · linear_combination my * a3 - mz * a1 - lx * b2
    · linear_combination mx * a3 - lx * b3
  · refine ⟨?_, ?_, ?_⟩ <;> apply mul_left_cancel₀ h
    · linear_combination my * a1 - ly * b1
    · linear_combination my * a2 - ly * b2
    · linear_combination mz * a1 + mx * a2 - ly * b3
  · refine ⟨?_, ?_, ?_⟩ <;> apply mul_left_cancel₀ h
    · linear_combination my * a3 - mx * a2 - lz * b1
    · linear_combination mz * a2 - lz * b2
    · linear_combination mz * a3 - lz * b3

/-! ### C372 -/

/-- Specification: the lines whose two points differ. -/
def defined (lines : List (V3 × V3)) : List (V3 × V3) := lines.filter fun l => decide (l.1 ≠ l.2)

theorem usable_eq (lines : List (V3 × V3)) : usable lines = defined lines := by
  unfold usable defined
  apply List.filter_congr
  intro l _
  by_cases h : l.1 = l.2
  · simp [h, dot, sub]
  · have := len_pos h
    simp [h, this]

theorem system_eq (lines : List (V3 × V3)) : system lines = sysOf (usable lines) := rfl

theorem solve_point (lines : List (V3 × V3)) (h2 : 2 ≤ (usable lines).length) (hd : (system lines).det ≠ 0) :
    (solve lines).2 = (system lines).solve := by
  have hl : 2 ≤ lines.length := le_trans h2 (List.length_filter_le _ _)
  unfold solve
  rw [if_neg (by omega), if_neg (by omega)]
  dsimp only
  rw [if_neg hd]

/-- The determinant vanishes exactly when all lines in use are parallel. -/
theorem det_zero_iff (u : List (V3 × V3)) (hu : ∀ l ∈ u, l.1 ≠ l.2) (hne : u ≠ []) :
    (sysOf u).det = 0 ↔ ∀ l ∈ u, ∀ m ∈ u, Parallel l m := by
  constructor
  · intro hd l hl m hm
    obtain ⟨v, hv, e⟩ := kernel _ hd
    have hq : (sysOf u).qf v = 0 := by
      have e' := e
      simp only [Sys.mv, V3.mk.injEq] at e'
      obtain ⟨e1, e2, e3⟩ := e'
      unfold Sys.qf
      linear_combination v.x * e1 + v.y * e2 + v.z * e3
    have hz := qf_sum_zero u hu v hq
    exact parallel_trans l m (hu m hm) v hv (hz l hl) (hu l hl) (hz m hm)
  · intro hp
    by_contra hd
    obtain ⟨m, hm⟩ := List.exists_mem_of_ne_nil u hne
    have h1 : ∀ l ∈ u, (linePart l).qf (sub m.2 m.1) = 0 := fun l hl => (parallel_iff l m (hu l hl)).mp (hp l hl m hm)
    have := mv_inj _ hd _ (mv_zero_of u hu _ h1)
    have hpos := len_pos (hu m hm)
    rw [this] at hpos
    simp [dot] at hpos

theorem sum_onLine (u : List (V3 × V3)) (hu : ∀ l ∈ u, l.1 ≠ l.2) (z : V3) (t : V3 × V3 → ℚ) :
    (u.map fun l => dist2 z (toSegment z l.1 l.2)).sum ≤ (u.map fun l => dist2 z (onLine l (t l))).sum := by
  apply List.sum_le_sum
  intro l hl
  exact (C371_projection z l.1 l.2 (hu l hl)).2.1 (t l)

/-- Specification: the point minimises the sum of the squared distances to points of the lines, and is the only one that does. -/
def Nearest (u : List (V3 × V3)) (x : V3) : Prop :=
  ∃ t : V3 × V3 → ℚ, (∀ z (s : V3 × V3 → ℚ), (u.map fun l => dist2 x (onLine l (t l))).sum ≤ (u.map fun l => dist2 z (onLine l (s l))).sum) ∧
    ∀ z (s : V3 × V3 → ℚ), (u.map fun l => dist2 z (onLine l (s l))).sum ≤ (u.map fun l => dist2 x (onLine l (t l))).sum → z = x

theorem nearest_of (u : List (V3 × V3)) (hu : ∀ l ∈ u, l.1 ≠ l.2) (hd : (sysOf u).det ≠ 0) :
    (∀ z, (u.map fun l => dist2 (sysOf u).solve (toSegment (sysOf u).solve l.1 l.2)).sum ≤ (u.map fun l => dist2 z (toSegment z l.1 l.2)).sum) ∧
    ∀ z, (u.map fun l => dist2 z (toSegment z l.1 l.2)).sum ≤ (u.map fun l => dist2 (sysOf u).solve (toSegment (sysOf u).solve l.1 l.2)).sum → z = (sysOf u).solve := by
  have key : ∀ z, (u.map fun l => dist2 z (toSegment z l.1 l.2)).sum - (u.map fun l => dist2 (sysOf u).solve (toSegment (sysOf u).solve l.1 l.2)).sum =
      (sysOf u).qf (sub z (sysOf u).solve) := by
    intro z
    rw [dist_sum u hu, mv_solve _ hd]
    have : ∀ a b : V3, dot (sub a a) b = 0 := by intro a b; simp [dot, sub]
    rw [this]; ring
  refine ⟨fun z => ?_, fun z hz => ?_⟩
  · have := key z
    have h0 := qf_sum_nonneg u hu (sub z (sysOf u).solve)
    linarith
  · have h1 := key z
    have h0 := qf_sum_nonneg u hu (sub z (sysOf u).solve)
    have h2 : (sysOf u).qf (sub z (sysOf u).solve) = 0 := by linarith
    have h3 := mv_inj _ hd _ (mv_zero_of u hu _ (qf_sum_zero u hu _ h2))
    simp only [sub, V3.mk.injEq] at h3
    ext <;> linarith [h3.1, h3.2.1, h3.2.2]

/-- C372: with at least two lines whose points differ, of which two are not parallel, the point returned minimises the sum of the squared distances to those lines, and no other point does. -/
theorem C372_nearest (lines : List (V3 × V3)) (h2 : 2 ≤ (defined lines).length)
    (hp : ∃ l ∈ defined lines, ∃ m ∈ defined lines, ¬ Parallel l m) : Nearest (defined lines) (solve lines).2 := by
  rw [← usable_eq] at *
  have hu : ∀ l ∈ usable lines, l.1 ≠ l.2 := fun l hl => usable_ne hl
  have hne : usable lines ≠ [] := by intro h; rw [h] at h2; simp at h2
  have hd : (system lines).det ≠ 0 := by
    intro hd
    obtain ⟨l, hl, m, hm, hn⟩ := hp
    exact hn ((det_zero_iff _ hu hne).mp hd l hl m hm)
  rw [solve_point lines h2 hd, system_eq]
  obtain ⟨n1, n2⟩ := nearest_of (usable lines) hu hd
  refine ⟨fun l => segProj (sysOf (usable lines)).solve l.1 l.2, fun z s => ?_, fun z s hz => ?_⟩
  · exact le_trans (n1 z) (sum_onLine _ hu z s)
  · exact n2 z (le_trans (sum_onLine _ hu z s) hz)

/-- C372: when the points of every line differ, the number returned is the mean over the lines of the squared distance from that point, so no point and no choice of points on the lines
has a smaller mean, and the number is reached. -/
theorem C372_value_partial (lines : List (V3 × V3)) (hall : ∀ l ∈ lines, l.1 ≠ l.2) (h2 : 2 ≤ lines.length)
    (hp : ∃ l ∈ lines, ∃ m ∈ lines, ¬ Parallel l m) :
    ∃ v, (solve lines).1 = some v ∧ (∃ t : V3 × V3 → ℚ, v * lines.length = (lines.map fun l => dist2 (solve lines).2 (onLine l (t l))).sum) ∧
      ∀ z (s : V3 × V3 → ℚ), v * lines.length ≤ (lines.map fun l => dist2 z (onLine l (s l))).sum := by
  have hus : usable lines = lines := by
    unfold usable
    rw [List.filter_eq_self]
    intro l hl
    simpa using len_pos (hall l hl)
  have hne : lines ≠ [] := by intro h; rw [h] at h2; simp at h2
  have hd : (sysOf lines).det ≠ 0 := by
    intro hd
    obtain ⟨l, hl, m, hm, hn⟩ := hp
    exact hn ((det_zero_iff _ hall hne).mp hd l hl m hm)
  have hs : system lines = sysOf lines := by rw [system_eq, hus]
  have h3 : (solve lines).2 = (sysOf lines).solve := by
    rw [← hs]; exact solve_point lines (by rw [hus]; exact h2) (by rw [hs]; exact hd)
  have h4 : (solve lines).1 = some ((lines.map fun l => dist2 (sysOf lines).solve (toSegment (sysOf lines).solve l.1 l.2)).sum / lines.length) := by
    unfold solve
    rw [hus, hs, if_neg (by omega), if_neg (by omega)]
    dsimp only
    rw [if_neg hd, if_pos rfl]
  have hn : (lines.length : ℚ) ≠ 0 := by
    have : lines.length ≠ 0 := by omega
    exact_mod_cast this
  obtain ⟨n1, n2⟩ := nearest_of lines hall hd
  refine ⟨_, h4, ⟨fun l => segProj (sysOf lines).solve l.1 l.2, ?_⟩, fun z s => ?_⟩
  · rw [div_mul_cancel₀ _ hn, h3]; rfl
  · rw [div_mul_cancel₀ _ hn]
    exact le_trans (n1 z) (sum_onLine _ hall z s)

/-- C372: fewer than two lines with different points give -1, and lines that are all parallel give 10^12; in both cases the point is the origin. -/
theorem C372_none (lines : List (V3 × V3)) :
    ((defined lines).length < 2 → solve lines = (some (-1), ⟨0, 0, 0⟩)) ∧
    (2 ≤ (defined lines).length → (∀ l ∈ defined lines, ∀ m ∈ defined lines, Parallel l m) → solve lines = (some (10 ^ 12), ⟨0, 0, 0⟩)) := by
  rw [← usable_eq]
  constructor
  · intro h
    unfold solve
    by_cases h1 : lines.length < 2
    · rw [if_pos h1]
    · rw [if_neg h1, if_pos h]
  · intro h2 hp
    have hl : 2 ≤ lines.length := le_trans h2 (List.length_filter_le _ _)
    have hne : usable lines ≠ [] := by intro h; rw [h] at h2; simp at h2
    have hd : (system lines).det = 0 := (det_zero_iff _ (fun l hl => usable_ne hl) hne).mpr hp
    unfold solve
    rw [if_neg (by omega), if_neg (by omega)]
    dsimp only
    rw [if_pos hd]

/-- Two lines that do not meet: the point half way between them, and the mean of the squares of half their distance. -/
example : solve [(⟨0, 0, 0⟩, ⟨1, 0, 0⟩), (⟨0, 0, 2⟩, ⟨0, 3, 2⟩)] = (some 1, ⟨0, 0, 1⟩) := by decide +kernel

/-- C372: one line whose points are equal makes the returned number undefined although the point is found. -/
theorem C372_refuted : ¬ ∀ lines : List (V3 × V3), 2 ≤ (defined lines).length → ∃ v, (solve lines).1 = some v := by
  intro h
  obtain ⟨v, hv⟩ := h [(⟨0, 0, 0⟩, ⟨1, 0, 0⟩), (⟨0, 0, 2⟩, ⟨0, 3, 2⟩), (⟨5, 5, 5⟩, ⟨5, 5, 5⟩)] (by decide +kernel)
  rw [show (solve [(⟨0, 0, 0⟩, ⟨1, 0, 0⟩), (⟨0, 0, 2⟩, ⟨0, 3, 2⟩), (⟨5, 5, 5⟩, ⟨5, 5, 5⟩)]).1 = none by decide +kernel] at hv
  simp at hv

end Verif.PmaUtil

import Verif.GFPlane.Model
import Mathlib.Tactic.LinearCombination
import Mathlib.Tactic.Linarith
import Mathlib.Tactic.FieldSimp

/-! # Planes of the Genfit fitter: theorems -/

namespace Verif.GFPlane

/-- Specification: the axes of the plane have length 1 and are orthogonal. -/
structure Frame (p : Plane) : Prop where
  uu : dot p.u p.u = 1
  vv : dot p.v p.v = 1
  uv : dot p.u p.v = 0

theorem dot_nonneg (a : V3) : 0 ≤ dot a a := by
  unfold dot
  nlinarith [mul_self_nonneg a.x, mul_self_nonneg a.y, mul_self_nonneg a.z]

theorem dot_pos (a : V3) (h : a ≠ zero) : 0 < dot a a := by
  rcases lt_or_eq_of_le (dot_nonneg a) with hh | hh
  · exact hh
  · exfalso
    apply h
    unfold dot at hh
    have h1 := mul_self_nonneg a.x
    have h2 := mul_self_nonneg a.y
    have h3 := mul_self_nonneg a.z
    ext
    · exact mul_self_eq_zero.mp (by linarith)
    · exact mul_self_eq_zero.mp (by linarith)
    · exact mul_self_eq_zero.mp (by linarith)

theorem mag_pos (a : V3) (h : a ≠ zero) : 0 < mag a := Real.sqrt_pos.mpr (dot_pos a h)

theorem mag_sq (a : V3) : mag a * mag a = dot a a := Real.mul_self_sqrt (dot_nonneg a)

theorem mag_zero : mag zero = 0 := by simp [mag, dot, zero]

theorem unit_zero : unit zero = zero := by unfold unit; rw [if_pos mag_zero]

/-- Making the length 1 multiplies a vector other than zero with a positive number. -/
theorem unit_spec (a : V3) (h : a ≠ zero) : ∃ k, 0 < k ∧ unit a = smul k a ∧ dot (unit a) (unit a) = 1 := by
  have hm := mag_pos a h
  have he : unit a = smul (1 / mag a) a := by unfold unit; rw [if_neg hm.ne']
  refine ⟨1 / mag a, by positivity, he, ?_⟩
  rw [he]
  have h1 : dot (smul (1 / mag a) a) (smul (1 / mag a) a) = (1 / mag a) * (1 / mag a) * dot a a := by unfold dot smul; ring
  rw [h1, ← mag_sq]
  field_simp

theorem unit_of_unit (a : V3) (h : dot a a = 1) : unit a = a := by
  have hm : mag a = 1 := by unfold mag; rw [h, Real.sqrt_one]
  unfold unit
  rw [hm, if_neg one_ne_zero]
  simp [smul]

theorem unit_smul (k : ℝ) (hk : 0 < k) (a : V3) (h : a ≠ zero) : unit (smul k a) = unit a := by
  have hm := mag_pos a h
  have h1 : mag (smul k a) = k * mag a := by
    unfold mag
    rw [show dot (smul k a) (smul k a) = k ^ 2 * dot a a by unfold dot smul; ring, Real.sqrt_mul (sq_nonneg k), Real.sqrt_sq hk.le]
  unfold unit
  rw [h1, if_neg hm.ne', if_neg (mul_pos hk hm).ne']
  have : 1 / (k * mag a) * k = 1 / mag a := by field_simp
  unfold smul
  ext <;> dsimp only <;> rw [← mul_assoc, this]

theorem dot_self_cross (a b : V3) : dot (cross a b) a = 0 ∧ dot (cross a b) b = 0 := by
  constructor <;> (unfold dot cross; ring)

theorem cross_smul (k l : ℝ) (a b : V3) : cross (smul k a) (smul l b) = smul (k * l) (cross a b) := by
  unfold cross smul; ext <;> dsimp only <;> ring

theorem smul_ne_zero {k : ℝ} (hk : k ≠ 0) {a : V3} (h : a ≠ zero) : smul k a ≠ zero := by
  intro e
  apply h
  have hx := congrArg V3.x e
  have hy := congrArg V3.y e
  have hz := congrArg V3.z e
  simp only [smul, zero, mul_eq_zero, hk, false_or] at hx hy hz
  exact V3.ext hx hy hz

theorem cross_zero_left (a : V3) : cross zero a = zero := by unfold cross zero; ext <;> dsimp only <;> ring

theorem cross_self (a : V3) : cross a a = zero := by unfold cross zero; ext <;> dsimp only <;> ring

theorem mag_sub_self (a : V3) : mag (sub a a) = 0 := by simp [mag, dot, sub]

/-- The frame from a unit vector and a unit normal orthogonal to it. -/
theorem frame_of (o u n : V3) (hu : dot u u = 1) (hn : dot n n = 1) (hun : dot n u = 0) : Frame ⟨o, u, cross n u⟩ ∧ Plane.normal ⟨o, u, cross n u⟩ = n := by
  constructor
  · refine ⟨hu, ?_, ?_⟩
    · have : dot (cross n u) (cross n u) = dot n n * dot u u - dot n u * dot n u := by unfold dot cross; ring
      show dot (cross n u) (cross n u) = 1
      rw [this, hu, hn, hun]; ring
    · show dot u (cross n u) = 0
      unfold dot cross; ring
  · unfold Plane.normal
    dsimp only
    have : cross u (cross n u) = n := by
      have e : cross u (cross n u) = sub (smul (dot u u) n) (smul (dot n u) u) := by unfold cross dot sub smul; ext <;> dsimp only <;> ring
      rw [e, hu, hun]
      simp [sub, smul]
    rw [this]
    exact unit_of_unit n hn

/-- What `sane` does with axes that are not parallel. -/
theorem sane_ok (o u v : V3) (h : cross u v ≠ zero) :
    ∃ c, 0 < c ∧ sane ⟨o, u, v⟩ = (⟨o, unit u, cross (smul c (cross u v)) (unit u)⟩, false) ∧ dot (smul c (cross u v)) (smul c (cross u v)) = 1 := by
  have hu : u ≠ zero := by rintro rfl; exact h (cross_zero_left v)
  have hv : v ≠ zero := by rintro rfl; apply h; unfold cross zero; ext <;> dsimp only <;> ring
  have hne : u ≠ v := by rintro rfl; exact h (cross_self u)
  obtain ⟨a, ha, hua, huu⟩ := unit_spec u hu
  obtain ⟨b, hb, hvb, hvv⟩ := unit_spec v hv
  have hcr : cross (unit u) (unit v) = smul (a * b) (cross u v) := by rw [hua, hvb, cross_smul]
  have hn : Plane.normal ⟨o, unit u, unit v⟩ = unit (cross u v) := by
    unfold Plane.normal
    dsimp only
    rw [hcr, unit_smul _ (mul_pos ha hb) _ h]
  obtain ⟨c, hc, hcn, hcc⟩ := unit_spec (cross u v) h
  refine ⟨c, hc, ?_, by rw [← hcn]; exact hcc⟩
  unfold sane
  dsimp only
  rw [if_neg hne, hn, hcn]
  congr 1
  rw [decide_eq_false_iff_not, not_le]
  have hq : quarter (unit u) (smul c (cross u v)) = cross (smul c (cross u v)) (unit u) := by
    unfold quarter
    rw [if_neg (smul_ne_zero hc.ne' h)]
    have : dot (smul c (cross u v)) (unit u) = 0 := by
      rw [hua]
      unfold dot smul cross; ring
    rw [this]
    unfold add smul
    ext <;> dsimp only <;> ring
  rw [hq, mag_sub_self]
  norm_num

/-- C397: axes that are not parallel give a plane with axes of length 1, orthogonal and counterclockwise about the normal; the first axis points along the first vector, the second is in the plane of the two
vectors on the side of the second one, the normal points along their cross product, the origin is the given one, and no exception is thrown. -/
theorem C397_axes (o u v : V3) (h : cross u v ≠ zero) :
    ∃ p, sane ⟨o, u, v⟩ = (p, false) ∧ Frame p ∧ p.o = o ∧ (∃ a, 0 < a ∧ p.u = smul a u) ∧ (∃ s t, 0 < t ∧ p.v = add (smul s u) (smul t v)) ∧
      (∃ c, 0 < c ∧ p.normal = smul c (cross u v)) ∧ cross p.u p.v = p.normal := by
  obtain ⟨c, hc, hs, hcc⟩ := sane_ok o u v h
  have hu : u ≠ zero := by rintro rfl; exact h (cross_zero_left v)
  obtain ⟨a, ha, hua, huu⟩ := unit_spec u hu
  have horth : dot (smul c (cross u v)) (unit u) = 0 := by rw [hua]; unfold dot smul cross; ring
  obtain ⟨hf, hn⟩ := frame_of o (unit u) (smul c (cross u v)) huu hcc horth
  refine ⟨_, hs, hf, rfl, ⟨a, ha, hua⟩, ⟨-(c * a * dot u v), c * a * dot u u, mul_pos (mul_pos hc ha) (dot_pos u hu), ?_⟩, ⟨c, hc, hn⟩, ?_⟩
  · show cross (smul c (cross u v)) (unit u) = _
    rw [hua]
    unfold cross smul add dot
    ext <;> dsimp only <;> ring
  · rw [hn]
    show cross (unit u) (cross (smul c (cross u v)) (unit u)) = _
    have e : cross (unit u) (cross (smul c (cross u v)) (unit u)) = sub (smul (dot (unit u) (unit u)) (smul c (cross u v))) (smul (dot (smul c (cross u v)) (unit u)) (unit u)) := by
      unfold cross dot sub smul; ext <;> dsimp only <;> ring
    rw [e, huu, horth]
    simp [sub, smul]

/-- C397: an exception is thrown exactly if the vectors are equal, or parallel and the first is not zero. -/
theorem C397_throws (o u v : V3) : (sane ⟨o, u, v⟩).2 = true ↔ u = v ∨ (u ≠ zero ∧ cross u v = zero) := by
  by_cases he : u = v
  · constructor
    · intro _; exact Or.inl he
    · intro _; unfold sane; rw [if_pos he]
  · by_cases hc : cross u v = zero
    · have hn : Plane.normal ⟨o, unit u, unit v⟩ = zero := by
        unfold Plane.normal
        dsimp only
        have : cross (unit u) (unit v) = zero := by
          have key : ∀ a, ∃ k, unit a = smul k a := by
            intro a
            by_cases ha : a = zero
            · exact ⟨1, by rw [ha, unit_zero]; simp [smul, zero]⟩
            · obtain ⟨k, _, hk, _⟩ := unit_spec a ha; exact ⟨k, hk⟩
          obtain ⟨k, hk⟩ := key u
          obtain ⟨l, hl⟩ := key v
          rw [hk, hl, cross_smul, hc]
          simp [smul, zero]
        rw [this, unit_zero]
      have hs : sane ⟨o, u, v⟩ = (⟨o, unit u, zero⟩, decide (mag (sub (unit u) zero) ≥ 1 / 1000000)) := by
        unfold sane
        dsimp only
        rw [if_neg he, hn, cross_zero_left]
        unfold quarter
        rw [if_pos rfl]
      rw [hs]
      have hsub : sub (unit u) zero = unit u := by simp [sub, zero]
      rw [hsub]
      dsimp only
      rw [decide_eq_true_eq]
      by_cases hu : u = zero
      · rw [hu, unit_zero, mag_zero]
        constructor
        · intro h; norm_num at h
        · rintro (h | h)
          · exact absurd (hu.trans h) he
          · exact absurd rfl h.1
      · obtain ⟨_, _, _, h1⟩ := unit_spec u hu
        have : mag (unit u) = 1 := by unfold mag; rw [h1, Real.sqrt_one]
        rw [this]
        constructor
        · intro _; exact Or.inr ⟨hu, hc⟩
        · intro _; norm_num
    · obtain ⟨c, _, hs, _⟩ := sane_ok o u v hc
      rw [hs]
      simp [he, hc]

example : cross ⟨2, 0, 0⟩ ⟨1, 1, 0⟩ ≠ zero := by
  intro h
  have := congrArg V3.z h
  simp [cross, zero] at this

/-- C397: a zero first axis is accepted, and leaves a plane with both axes zero. -/
theorem C397_refuted (o v : V3) (hv : v ≠ zero) : sane ⟨o, zero, v⟩ = (⟨o, zero, zero⟩, false) ∧ ¬ Frame ⟨o, zero, zero⟩ := by
  constructor
  · have h := C397_throws o zero v
    have hf : (sane ⟨o, zero, v⟩).2 = false := by
      rw [← Bool.not_eq_true, h]
      rintro (e | e)
      · exact hv e.symm
      · exact e.1 rfl
    refine Prod.ext ?_ hf
    unfold sane
    dsimp only
    rw [if_neg (fun e => hv e.symm), unit_zero]
    have : Plane.normal ⟨o, zero, unit v⟩ = zero := by
      unfold Plane.normal
      dsimp only
      rw [cross_zero_left, unit_zero]
    dsimp only
    rw [this, cross_self]
  · intro h
    have := h.uu
    simp [dot, zero] at this

/-! ### C398: planes from a normal -/

/-- C398: a normal other than zero, of any length, gives a plane with axes of length 1, orthogonal, whose normal points along it; the origin stays. -/
theorem C398_normal (p : Plane) (n : V3) (h : n ≠ zero) : Frame (setNormal p n) ∧ (∃ k, 0 < k ∧ (setNormal p n).normal = smul k n) ∧ (setNormal p n).o = p.o := by
  obtain ⟨k, hk, hkn, hnn⟩ := unit_spec n h
  have key : ∀ w : V3, w ≠ zero → dot (unit n) w = 0 → Frame ⟨p.o, unit w, cross (unit n) (unit w)⟩ ∧ (∃ k, 0 < k ∧ Plane.normal ⟨p.o, unit w, cross (unit n) (unit w)⟩ = smul k n) := by
    intro w hw hd
    obtain ⟨l, hl, hlw, hww⟩ := unit_spec w hw
    have : dot (unit n) (unit w) = 0 := by
      rw [hlw]
      have : dot (unit n) (smul l w) = l * dot (unit n) w := by unfold dot smul; ring
      rw [this, hd, mul_zero]
    obtain ⟨h1, h2⟩ := frame_of p.o (unit w) (unit n) hww hnn this
    exact ⟨h1, k, hk, by rw [h2, hkn]⟩
  have hz : ∀ a b c : ℝ, (a = 1 ∨ b = 1 ∨ c = 1) → (⟨a, b, c⟩ : V3) ≠ zero := by
    intro a b c h e
    have h1 := congrArg V3.x e
    have h2 := congrArg V3.y e
    have h3 := congrArg V3.z e
    simp only [zero] at h1 h2 h3
    rcases h with h | h | h <;> linarith
  unfold setNormal
  dsimp only
  generalize hm : unit n = m at *
  have hm1 : m.x * m.x + m.y * m.y + m.z * m.z = 1 := hnn
  have fin : ∀ w : V3, w ≠ zero → dot m w = 0 → Frame ⟨p.o, unit w, cross m (unit w)⟩ ∧ (∃ k, 0 < k ∧ Plane.normal ⟨p.o, unit w, cross m (unit w)⟩ = smul k n) ∧ p.o = p.o :=
    fun w hw hd => ⟨(key w hw hd).1, (key w hw hd).2, rfl⟩
  split
  · next hx =>
    have hx0 : m.x ≠ 0 := by intro e; rw [e] at hx; norm_num at hx
    refine fin _ (hz _ _ _ (Or.inr (Or.inl rfl))) ?_
    unfold dot
    dsimp only
    field_simp
    ring
  · next hx =>
    split
    · next hy =>
      have hy0 : m.y ≠ 0 := by intro e; rw [e] at hy; norm_num at hy
      refine fin _ (hz _ _ _ (Or.inl rfl)) ?_
      unfold dot
      dsimp only
      field_simp
      ring
    · next hy =>
      have hz0 : m.z ≠ 0 := by
        intro e
        have h1 := abs_le.mp (not_lt.mp hx)
        have h2 := abs_le.mp (not_lt.mp hy)
        rw [e] at hm1
        nlinarith [h1.1, h1.2, h2.1, h2.2]
      refine fin _ (hz _ _ _ (Or.inl rfl)) ?_
      unfold dot
      dsimp only
      field_simp
      ring

end Verif.GFPlane

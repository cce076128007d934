import Verif.Calo.AlgModel
import Mathlib.Tactic.Linarith
import Mathlib.Tactic.Ring
import Mathlib.Tactic.FieldSimp
import Mathlib.Tactic.NormNum
import Mathlib.Tactic.Positivity

/-! Properties of the recombination and lifetime corrections. -/

namespace Verif.CaloAlg

/-! ### C260 modified box model -/

/-- C260: the correction inverts the modified box model: the charge left by a deposit gives the deposit back. -/
theorem C260_inverse (a b w rho field e : ℝ) (hb : 0 < b) (hw : 0 < w) (hr : 0 < rho) (hf : 0 < field)
    (h : 0 < a + b / (rho * field) * e) : modBox a b w rho field (boxCharge a b w rho field e) = e := by
  unfold modBox boxCharge
  dsimp only
  have hbeta : 0 < b / (rho * field) := by positivity
  generalize b / (rho * field) = beta at hbeta h
  rw [show beta * w * (Real.log (a + beta * e) / (beta * w)) = Real.log (a + beta * e) by field_simp, Real.exp_log h]
  field_simp
  ring

/-- C260 (part): more charge gives more energy. -/
theorem C260_strictMono (a b w rho field : ℝ) (hb : 0 < b) (hw : 0 < w) (hr : 0 < rho) (hf : 0 < field) :
    StrictMono (modBox a b w rho field) := by
  intro x y hxy
  unfold modBox
  dsimp only
  have hbeta : 0 < b / (rho * field) := by positivity
  generalize b / (rho * field) = beta at hbeta
  apply div_lt_div_of_pos_right _ hbeta
  have : Real.exp (beta * w * x) < Real.exp (beta * w * y) :=
    Real.exp_lt_exp.mpr (mul_lt_mul_of_pos_left hxy (by positivity))
  linarith

/-- C260 (part): without negative charge the energy is not negative if the parameter is at most one. -/
theorem C260_nonneg_partial (a b w rho field q : ℝ) (hb : 0 < b) (hw : 0 < w) (hr : 0 < rho) (hf : 0 < field) (ha : a ≤ 1)
    (hq : 0 ≤ q) : 0 ≤ modBox a b w rho field q := by
  unfold modBox
  dsimp only
  have hbeta : 0 < b / (rho * field) := by positivity
  generalize b / (rho * field) = beta at hbeta
  apply div_nonneg _ hbeta.le
  have : 1 ≤ Real.exp (beta * w * q) := Real.one_le_exp (by positivity)
  linarith

/-- C260 (exact): no charge gives no energy exactly if the parameter is one. -/
theorem C260_zero (a b w rho field : ℝ) (hb : 0 < b) (hr : 0 < rho) (hf : 0 < field) :
    modBox a b w rho field 0 = 0 ↔ a = 1 := by
  unfold modBox
  dsimp only
  have hbeta : 0 < b / (rho * field) := by positivity
  generalize b / (rho * field) = beta at hbeta
  rw [mul_zero, Real.exp_zero, div_eq_zero_iff]
  constructor
  · rintro (h | h)
    · linarith
    · linarith
  · intro h
    left
    linarith

/-- C260 (refuted): with the usual parameter 0.93 a hit without charge has energy. -/
theorem C260_refuted : ¬ ∀ b w rho field : ℝ, 0 < b → 0 < w → 0 < rho → 0 < field → modBox (93 / 100) b w rho field 0 = 0 := by
  intro h
  have := (C260_zero _ 1 1 1 1 (by norm_num) (by norm_num) (by norm_num)).mp
    (h 1 1 1 1 (by norm_num) (by norm_num) (by norm_num) (by norm_num))
  norm_num at this

example : 0 < (93 / 100 : ℝ) + 212 / 1000 / (1.4 * 0.5) * 2 := by norm_num

/-! ### C261 Birks -/

/-- C261: the correction inverts Birks' law. -/
theorem C261_inverse (a k w rho field e : ℝ) (ha : 0 < a) (hk : 0 ≤ k) (hw : 0 < w) (hr : 0 < rho) (hf : 0 < field)
    (he : 0 ≤ e) : birks a k w rho field (birksCharge a k w rho field e) = e := by
  unfold birks birksCharge
  have hc : 0 ≤ k / rho / field := by positivity
  generalize k / rho / field = c at hc
  have h1 : 0 < 1 + c * e := by positivity
  have h2 : a / w - c * (a / w * e / (1 + c * e)) = a / w / (1 + c * e) := by
    field_simp
    ring
  rw [h2]
  field_simp

/-- the charge per length at which Birks' law has its pole -/
noncomputable def pole (a k w rho field : ℝ) : ℝ := (a / w) / (k / rho / field)

/-- C261 (part): below the pole the energy is not negative and grows with the charge; no charge gives no energy. -/
theorem C261_below_partial (a k w rho field : ℝ) (ha : 0 < a) (hk : 0 < k) (hw : 0 < w) (hr : 0 < rho) (hf : 0 < field) :
    birks a k w rho field 0 = 0 ∧
    ∀ x y, 0 ≤ x → x < y → y < pole a k w rho field →
      0 ≤ birks a k w rho field x ∧ birks a k w rho field x < birks a k w rho field y := by
  unfold birks pole
  have hc : 0 < k / rho / field := by positivity
  have hA : 0 < a / w := by positivity
  generalize k / rho / field = c at hc
  generalize a / w = A at hA
  refine ⟨by simp, ?_⟩
  intro x y hx hxy hy
  have h2 : y * c < A := (lt_div_iff₀ hc).mp hy
  have h3 : 0 < A - c * y := by linarith
  have h4 : 0 < A - c * x := by nlinarith
  refine ⟨by positivity, ?_⟩
  rw [div_lt_div_iff₀ h4 h3]
  nlinarith

/-- C261 (exact): above the pole the energy is negative. -/
theorem C261_above (a k w rho field q : ℝ) (ha : 0 < a) (hk : 0 < k) (hw : 0 < w) (hr : 0 < rho) (hf : 0 < field)
    (hq : pole a k w rho field < q) : birks a k w rho field q < 0 := by
  unfold birks
  unfold pole at hq
  have hc : 0 < k / rho / field := by positivity
  have hA : 0 < a / w := by positivity
  generalize k / rho / field = c at hc hq
  generalize a / w = A at hA hq
  have h2 : A < q * c := (div_lt_iff₀ hc).mp hq
  have hq0 : 0 < q := lt_trans (by positivity) hq
  exact div_neg_of_pos_of_neg hq0 (by linarith)

/-- C261 (refuted): a large charge gives a negative energy. -/
theorem C261_refuted : ¬ ∀ a k w rho field q : ℝ, 0 < a → 0 < k → 0 < w → 0 < rho → 0 < field → 0 ≤ q →
    0 ≤ birks a k w rho field q := by
  intro h
  have := h 1 1 1 1 1 2 (by norm_num) (by norm_num) (by norm_num) (by norm_num) (by norm_num) (by norm_num)
  unfold birks at this
  norm_num at this

example : pole 1 1 1 1 1 = 1 := by unfold pole; norm_num
example : birks 1 1 1 1 1 (1 / 2) = 1 := by unfold birks; norm_num

/-! ### C262 lifetime -/

/-- C262: the correction of a hit is one at the time of the track, grows with the drift time, is at least one exactly for
hits that are not before the track, and that of two drift times after one another is the product of theirs. -/
theorem C262_lifetime (offset tick tau t0 : ℝ) (ht : 0 < tick) (htau : 0 < tau) :
    (∀ t, lifetime offset tick tau t t0 = 1 ↔ (t - offset) * tick = t0) ∧
    (∀ t, 1 ≤ lifetime offset tick tau t t0 ↔ t0 ≤ (t - offset) * tick) ∧
    (StrictMono fun t => lifetime offset tick tau t t0) ∧
    (∀ t u, lifetime offset tick tau (t + u) t0 = lifetime offset tick tau t t0 * lifetime 0 tick tau u 0) ∧
    (∀ t s, lifetime offset tick tau (t + s) (t0 + s * tick) = lifetime offset tick tau t t0) := by
  unfold lifetime
  refine ⟨?_, ?_, ?_, ?_, ?_⟩
  · intro t
    rw [Real.exp_eq_one_iff, div_eq_zero_iff]
    constructor
    · rintro (h | h)
      · linarith
      · linarith
    · intro h
      left
      linarith
  · intro t
    rw [Real.one_le_exp_iff, div_nonneg_iff]
    constructor
    · rintro (⟨h, _⟩ | ⟨_, h⟩)
      · linarith
      · linarith
    · intro h
      left
      exact ⟨by linarith, htau.le⟩
  · intro x y hxy
    apply Real.exp_lt_exp.mpr
    apply div_lt_div_of_pos_right _ htau
    have : (x - offset) * (tick / 1000) < (y - offset) * (tick / 1000) :=
      mul_lt_mul_of_pos_right (by linarith) (by positivity)
    linarith
  · intro t u
    rw [← Real.exp_add]
    congr 1
    field_simp
    ring
  · intro t s
    congr 1
    field_simp
    ring

/-- C262 (part): with both corrections the deposit is recovered from the charge that is left of it after recombination and
drift, for either model of the recombination. -/
theorem C262_recovers (c a b k w rho field offset tick tau t t0 e : ℝ) (hc : 0 < c) (ha : 0 < a) (hb : 0 < b) (hk : 0 ≤ k)
    (hw : 0 < w) (hr : 0 < rho) (hf : 0 < field) (he : 0 ≤ e) :
    let life := lifetime offset tick tau t t0
    let box := modBox a b w rho field
    let birk := birks a k w rho field
    dEdx true true c life box birk (boxCharge a b w rho field e / life * c) = e ∧
    dEdx true false c life box birk (birksCharge a k w rho field e / life * c) = e ∧
    dEdx false true c life box birk (boxCharge a b w rho field e * c) = e ∧
    dEdx false false c life box birk (birksCharge a k w rho field e * c) = e := by
  intro life box birk
  have hl : life ≠ 0 := (Real.exp_pos _).ne'
  have hc' := hc.ne'
  have e1 : ∀ x : ℝ, x / life * c / c * life = x := by intro x; field_simp
  have e2 : ∀ x : ℝ, x * c / c = x := by intro x; field_simp
  have h1 : box (boxCharge a b w rho field e) = e := C260_inverse a b w rho field e hb hw hr hf (by positivity)
  have h2 : birk (birksCharge a k w rho field e) = e := C261_inverse a k w rho field e ha hk hw hr hf he
  unfold dEdx
  dsimp only
  refine ⟨?_, ?_, ?_, ?_⟩
  · rw [if_pos rfl, if_pos rfl, e1, h1]
  · rw [if_neg (by decide), if_pos rfl, e1, h2]
  · rw [if_pos rfl, if_neg (by decide), e2, h1]
  · rw [if_neg (by decide), if_neg (by decide), e2, h2]

example : lifetime 3200 500 3000 3200 0 = 1 := by unfold lifetime; norm_num

end Verif.CaloAlg

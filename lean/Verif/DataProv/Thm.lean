import Verif.DataProv.Model
import Mathlib.Algebra.BigOperators.Group.List.Basic
import Mathlib.Algebra.Order.BigOperators.Group.List
import Mathlib.Tactic.FieldSimp
import Mathlib.Tactic.Ring

/-!
# Theorems about the image provider: scaling and downscaling
-/

namespace Verif.DataProv

/-! ## C361: scaling -/

/-- The sample limited to the interval of the settings. -/
def limited (c : SCfg) (v : ℚ) : ℚ := max c.adcMin (min c.adcMax (v * c.calib))

theorem scaleOne_eq (c : SCfg) (h : c.ok) (v : ℚ) : scaleOne c v = c.outMin + c.scale * (limited c v - c.adcMin) := by
  unfold scaleOne limited
  have := h.1
  dsimp only
  congr 3
  split
  · rw [min_eq_right (by linarith), max_eq_left (by linarith)]
  · split
    · rw [min_eq_left (by linarith), max_eq_right (by linarith)]
    · rw [min_eq_right (by linarith), max_eq_right (by linarith)]

theorem scaleFour_eq (c : SCfg) (h : c.ok) (v : ℚ) : scaleFour c v = scaleOne c v := by
  unfold scaleOne scaleFour
  have := h.1
  dsimp only
  congr 3
  by_cases h1 : v * c.calib < c.adcMin
  · rw [if_pos h1, if_pos h1, if_neg (by linarith)]
  · rw [if_neg h1, if_neg h1]

theorem scaleAll_eq (c : SCfg) (h : c.ok) : ∀ l : List ℚ, scaleAll c l = l.map (scaleOne c)
  | [] => rfl
  | [_] => rfl
  | [_, _] => rfl
  | [_, _, _] => rfl
  | a :: b :: d :: e :: rest => by
    rw [scaleAll, scaleAll_eq c h rest]
    simp [scaleFour_eq c h]

/-- **C361.** Scaling a vector scales each sample. -/
theorem C361_all (c : SCfg) (h : c.ok) (l : List ℚ) : scaleAll c l = l.map (scaleOne c) := scaleAll_eq c h l

theorem scale_mul (c : SCfg) (h : c.ok) : c.scale * (c.adcMax - c.adcMin) = c.outMax - c.outMin := by
  have h1 := h.1
  unfold SCfg.scale
  have : c.adcMax - c.adcMin ≠ 0 := by intro h; linarith
  field_simp

theorem limited_range (c : SCfg) (h : c.ok) (v : ℚ) : c.adcMin ≤ limited c v ∧ limited c v ≤ c.adcMax :=
  ⟨le_max_left _ _, max_le h.1.le (min_le_left _ _)⟩

/-- **C361.** A scaled sample is in the output range; samples at or below the lower limit give `OutMin`, at or above the upper limit `OutMax`, in between the relation is linear;
larger samples give larger values if `OutMin < OutMax` and the calibration is not negative. -/
theorem C361_range (c : SCfg) (h : c.ok) (v : ℚ) :
    min c.outMin c.outMax ≤ scaleOne c v ∧ scaleOne c v ≤ max c.outMin c.outMax ∧
    (v * c.calib ≤ c.adcMin → scaleOne c v = c.outMin) ∧ (c.adcMax ≤ v * c.calib → scaleOne c v = c.outMax) ∧
    (c.adcMin ≤ v * c.calib → v * c.calib ≤ c.adcMax →
      (scaleOne c v - c.outMin) * (c.adcMax - c.adcMin) = (v * c.calib - c.adcMin) * (c.outMax - c.outMin)) ∧
    (c.outMin < c.outMax → 0 ≤ c.calib → ∀ u, v ≤ u → scaleOne c v ≤ scaleOne c u) := by
  have hm := scale_mul c h
  have hr := limited_range c h v
  have h1 := h.1
  have hl1 : v * c.calib ≤ c.adcMin → limited c v = c.adcMin := fun h => by
    unfold limited; rw [min_eq_right (by linarith), max_eq_left h]
  have hl2 : c.adcMax ≤ v * c.calib → limited c v = c.adcMax := fun h => by
    unfold limited; rw [min_eq_left h, max_eq_right (by linarith)]
  have hl3 : c.adcMin ≤ v * c.calib → v * c.calib ≤ c.adcMax → limited c v = v * c.calib := fun h h' => by
    unfold limited; rw [min_eq_right h', max_eq_right h]
  have hpos : c.outMin < c.outMax → 0 < c.scale := fun h => by unfold SCfg.scale; exact div_pos (by linarith) (by linarith)
  have hneg : c.outMax ≤ c.outMin → c.scale ≤ 0 := fun h => by unfold SCfg.scale; exact div_nonpos_of_nonpos_of_nonneg (by linarith) (by linarith)
  rw [scaleOne_eq c h]
  refine ⟨?_, ?_, ?_, ?_, ?_, ?_⟩
  · rcases lt_or_ge c.outMin c.outMax with ho | ho
    · rw [min_eq_left ho.le]; nlinarith [mul_nonneg (hpos ho).le (sub_nonneg.2 hr.1)]
    · rw [min_eq_right ho]; nlinarith [mul_nonneg (neg_nonneg.2 (hneg ho)) (sub_nonneg.2 hr.2)]
  · rcases lt_or_ge c.outMin c.outMax with ho | ho
    · rw [max_eq_right ho.le]; nlinarith [mul_nonneg (hpos ho).le (sub_nonneg.2 hr.2)]
    · rw [max_eq_left ho]; nlinarith [mul_nonneg (neg_nonneg.2 (hneg ho)) (sub_nonneg.2 hr.1)]
  · intro h'; rw [hl1 h']; ring
  · intro h'; rw [hl2 h', hm]; ring
  · intro h' h''; rw [hl3 h' h'', ← hm]; ring
  · intro ho hc u hu
    rw [scaleOne_eq c h]
    have : limited c v ≤ limited c u := max_le_max (le_refl _) (min_le_min (le_refl _) (mul_le_mul_of_nonneg_right hu hc))
    nlinarith [mul_le_mul_of_nonneg_left this (hpos ho).le]

/-- **C361.** The zero level is the scaled value of a sample of 0 if 0 is within the limits. -/
theorem C361_zero_partial (c : SCfg) (h : c.ok) (h1 : c.adcMin ≤ 0) (h2 : 0 ≤ c.adcMax) : c.zero = scaleOne c 0 := by
  rw [scaleOne_eq c h]
  unfold limited SCfg.zero
  rw [zero_mul, min_eq_right h2, max_eq_right h1]

/-- **C361 refuted** for other limits: with samples from 10 to 20 and output from 0 to 1 the zero level is -1, and 0 is scaled to 0. -/
theorem C361_zero_refuted : SCfg.zero ⟨1, 10, 20, 0, 1⟩ = -1 ∧ scaleOne ⟨1, 10, 20, 0, 1⟩ 0 = 0 := by decide +kernel

example : scaleAll ⟨2, -10, 30, -1, 1⟩ [0, 5, 10, 15, 20, -8] = [-1/2, 0, 1/2, 1, 1, -1] := by decide +kernel

/-! ## C362 - C364: downscaling -/

theorem maxVal_spec (s : Nat → ℚ) (k0 n : Nat) : (∃ j ≤ n, maxVal s k0 n = s (k0 + j)) ∧ ∀ j ≤ n, s (k0 + j) ≤ maxVal s k0 n := by
  induction n with
  | zero =>
    refine ⟨⟨0, le_refl _, rfl⟩, fun j hj => ?_⟩
    have : j = 0 := by omega
    subst this
    exact le_refl _
  | succ n ih =>
    obtain ⟨⟨j, hj, e⟩, h⟩ := ih
    unfold maxVal
    dsimp only
    split
    · rename_i hlt
      refine ⟨⟨n + 1, le_refl _, rfl⟩, fun i hi => ?_⟩
      rcases Nat.lt_or_ge i (n + 1) with h' | h'
      · exact le_trans (h i (by omega)) hlt.le
      · have : i = n + 1 := by omega
        subst this; exact le_refl _
    · rename_i hlt
      refine ⟨⟨j, by omega, e⟩, fun i hi => ?_⟩
      rcases Nat.lt_or_ge i (n + 1) with h' | h'
      · exact h i (by omega)
      · have : i = n + 1 := by omega
        subst this; exact not_lt.1 hlt

theorem maxIdx_spec (s : Nat → ℚ) (k0 n : Nat) : k0 ≤ maxIdx s k0 n ∧ maxIdx s k0 n ≤ k0 + n ∧ (∀ j ≤ n, s (k0 + j) ≤ s (maxIdx s k0 n)) ∧
    ∀ k, k0 ≤ k → k < maxIdx s k0 n → s k < s (maxIdx s k0 n) := by
  induction n with
  | zero =>
    refine ⟨le_refl _, le_refl _, fun j hj => ?_, fun k h1 h2 => ?_⟩
    · have : j = 0 := by omega
      subst this; exact le_refl _
    · have : maxIdx s k0 0 = k0 := rfl
      omega
  | succ n ih =>
    obtain ⟨h1, h2, h3, h4⟩ := ih
    unfold maxIdx
    dsimp only
    split
    · rename_i hlt
      refine ⟨by omega, by omega, fun i hi => ?_, fun k hk hk' => ?_⟩
      · rcases Nat.lt_or_ge i (n + 1) with h' | h'
        · exact le_trans (h3 i (by omega)) hlt.le
        · have : i = n + 1 := by omega
          subst this; exact le_refl _
      · have := h3 (k - k0) (by omega)
        rw [show k0 + (k - k0) = k by omega] at this
        exact lt_of_le_of_lt this hlt
    · rename_i hlt
      refine ⟨h1, by omega, fun i hi => ?_, h4⟩
      rcases Nat.lt_or_ge i (n + 1) with h' | h'
      · exact h3 i (by omega)
      · have : i = n + 1 := by omega
        subst this; exact not_lt.1 hlt

/-- What downscaling needs: `dst` windows of samples and of lifetime factors; with `maxMean` a factor for each sample. -/
def Enough (mode : Mode) (w : Nat) (adc life : List ℚ) (t0 dst : Nat) : Prop :=
  dst * w ≤ adc.length ∧ (mode ≠ .mean → dst * w + t0 ≤ life.length) ∧ (mode = .maxMean → adc.length + t0 ≤ life.length ∨ ∃ r, 0 < r ∧ dst * w + r ≤ adc.length ∧ dst * w + t0 + r ≤ life.length)

theorem downscale_eq (c : SCfg) (hc : c.ok) (mode : Mode) (w : Nat) (hw : 0 < w) (adc life : List ℚ) (t0 dst : Nat) (h : Enough mode w adc life t0 dst) :
    downscale c mode w life dst adc t0 = some ((List.range dst).map fun i => scaleOne c (pixel mode w adc life t0 i)) := by
  obtain ⟨h1, h2, h3⟩ := h
  have hle : dst ≤ adc.length := le_trans (Nat.le_mul_of_pos_right _ hw) h1
  unfold downscale
  dsimp only
  rw [min_eq_left hle, if_pos]
  · rw [scaleAll_eq c hc, List.map_map]
    congr 1
    apply List.map_congr_left
    intro i hi
    rw [List.mem_range] at hi
    simp only [Function.comp, if_pos hi]
  · rw [List.all_eq_true]
    intro i hi
    rw [List.mem_range] at hi
    have hmul : (i + 1) * w ≤ dst * w := Nat.mul_le_mul_right _ hi
    rw [Nat.add_mul, Nat.one_mul] at hmul
    unfold readsOk
    rw [Bool.and_eq_true]
    constructor
    · rw [List.all_eq_true]
      intro j hj
      rw [List.mem_range] at hj
      rw [Bool.and_eq_true, Bool.or_eq_true, decide_eq_true_eq, decide_eq_true_eq, decide_eq_true_eq]
      refine ⟨by omega, ?_⟩
      by_cases hm : mode = .mean
      · exact Or.inl hm
      · right; have := h2 hm; omega
    · rw [Bool.or_eq_true, decide_eq_true_eq]
      by_cases hm : mode = .maxMean
      · right
        dsimp only
        rw [decide_eq_true_eq]
        intro hlt
        have hi := maxIdx_spec (samp adc life t0) (i * w) (w - 1)
        rcases h3 hm with h | ⟨r, hr, ha, hb⟩ <;> omega
      · exact Or.inl hm

/-- **C362.** With maximum pooling, pixel `i` is the scaled value of the largest corrected sample among the ticks `i w .. (i + 1) w - 1`. -/
theorem C362_max (c : SCfg) (hc : c.ok) (w : Nat) (hw : 0 < w) (adc life : List ℚ) (t0 dst : Nat) (h1 : dst * w ≤ adc.length) (h2 : dst * w + t0 ≤ life.length) :
    ∃ out, downscale c .max w life dst adc t0 = some out ∧ out.length = dst ∧ ∀ i < dst, ∃ m, out[i]? = some (scaleOne c m) ∧
      (∃ j < w, m = samp adc life t0 (i * w + j)) ∧ ∀ j < w, samp adc life t0 (i * w + j) ≤ m := by
  refine ⟨_, downscale_eq c hc .max w hw adc life t0 dst ⟨h1, fun _ => h2, by simp⟩, by simp, fun i hi => ?_⟩
  obtain ⟨⟨j, hj, e⟩, h⟩ := maxVal_spec (samp adc life t0) (i * w) (w - 1)
  exact ⟨pixel .max w adc life t0 i, by simp [hi], ⟨j, by omega, e⟩, fun j hj => h j (by omega)⟩

/-- **C363.** With averaging, pixel `i` is the scaled mean of the corrected samples of the ticks `i w .. (i + 1) w - 1`; it is within every interval that holds them. -/
theorem C363_mean (c : SCfg) (hc : c.ok) (w : Nat) (hw : 0 < w) (adc life : List ℚ) (t0 dst : Nat) (h1 : dst * w ≤ adc.length) (h2 : dst * w + t0 ≤ life.length) :
    ∃ out, downscale c .mean w life dst adc t0 = some out ∧ out.length = dst ∧ ∀ i < dst, ∃ m, out[i]? = some (scaleOne c m) ∧
      m * w = ((List.range w).map fun j => samp adc life t0 (i * w + j)).sum ∧
      ∀ a b, (∀ j < w, a ≤ samp adc life t0 (i * w + j) ∧ samp adc life t0 (i * w + j) ≤ b) → a ≤ m ∧ m ≤ b := by
  refine ⟨_, downscale_eq c hc .mean w hw adc life t0 dst ⟨h1, fun _ => h2, by simp⟩, by simp, fun i hi => ?_⟩
  have hw' : (0 : ℚ) < w := by exact_mod_cast hw
  have hmul : (i + 1) * w ≤ dst * w := Nat.mul_le_mul_right _ hi
  rw [Nat.add_mul, Nat.one_mul] at hmul
  have e : pixel .mean w adc life t0 i * w = ((List.range w).map fun j => samp adc life t0 (i * w + j)).sum := by
    unfold pixel meanVal
    dsimp only
    have : (List.range w).map (fun j => if i * w + j + t0 < life.length then samp adc life t0 (i * w + j) else 0) =
        (List.range w).map fun j => samp adc life t0 (i * w + j) := by
      apply List.map_congr_left
      intro j hj
      rw [List.mem_range] at hj
      rw [if_pos (by omega)]
    rw [this, mul_assoc, one_div, inv_mul_cancel₀ hw'.ne', mul_one]
  refine ⟨pixel .mean w adc life t0 i, by simp [hi], e, fun a b hab => ?_⟩
  have lo : (w : ℚ) * a ≤ ((List.range w).map fun j => samp adc life t0 (i * w + j)).sum := by
    have := List.card_nsmul_le_sum ((List.range w).map fun j => samp adc life t0 (i * w + j)) a (by
      intro x hx
      obtain ⟨j, hj, rfl⟩ := List.mem_map.1 hx
      exact (hab j (List.mem_range.1 hj)).1)
    simpa using this
  have up : ((List.range w).map fun j => samp adc life t0 (i * w + j)).sum ≤ (w : ℚ) * b := by
    have := List.sum_le_card_nsmul ((List.range w).map fun j => samp adc life t0 (i * w + j)) b (by
      intro x hx
      obtain ⟨j, hj, rfl⟩ := List.mem_map.1 hx
      exact (hab j (List.mem_range.1 hj)).2)
    simpa using this
  rw [← e] at lo up
  constructor
  · have : a * w ≤ pixel .mean w adc life t0 i * w := by linarith
    exact le_of_mul_le_mul_right this hw'
  · have : pixel .mean w adc life t0 i * w ≤ b * w := by linarith
    exact le_of_mul_le_mul_right this hw'

/-- **C364.** With the mean around the maximum, pixel `i` is the scaled mean of the first largest corrected sample of the window and its neighbours in the signal. -/
theorem C364_maxMean_partial (c : SCfg) (hc : c.ok) (w : Nat) (hw : 0 < w) (adc life : List ℚ) (t0 dst : Nat) (h1 : dst * w ≤ adc.length) (h2 : adc.length + t0 ≤ life.length) :
    ∃ out, downscale c .maxMean w life dst adc t0 = some out ∧ out.length = dst ∧ ∀ i < dst, ∃ m k, out[i]? = some (scaleOne c m) ∧
      i * w ≤ k ∧ k < (i + 1) * w ∧ (∀ j < w, samp adc life t0 (i * w + j) ≤ samp adc life t0 k) ∧ (∀ j, i * w ≤ j → j < k → samp adc life t0 j < samp adc life t0 k) ∧
      m * (((List.range adc.length).filter fun j => decide (j ≤ k + 1 ∧ k ≤ j + 1)).length : ℚ) =
        (((List.range adc.length).filter fun j => decide (j ≤ k + 1 ∧ k ≤ j + 1)).map (samp adc life t0)).sum := by
  refine ⟨_, downscale_eq c hc .maxMean w hw adc life t0 dst ⟨h1, fun _ => by omega, fun _ => Or.inl h2⟩, by simp, fun i hi => ?_⟩
  have hmul : (i + 1) * w ≤ dst * w := Nat.mul_le_mul_right _ hi
  obtain ⟨a1, a2, a3, a4⟩ := maxIdx_spec (samp adc life t0) (i * w) (w - 1)
  have hmw : (i + 1) * w = i * w + w := by ring
  refine ⟨pixel .maxMean w adc life t0 i, maxIdx (samp adc life t0) (i * w) (w - 1), by simp [hi], a1, by omega, fun j hj => a3 j (by omega), a4, ?_⟩
  unfold pixel maxMean
  dsimp only
  generalize maxIdx (samp adc life t0) (i * w) (w - 1) = k at *
  generalize samp adc life t0 = s at *
  have hk : k < adc.length := by omega
  have key : ∀ n, k < n → (List.range n).filter (fun j => decide (j ≤ k + 1 ∧ k ≤ j + 1)) =
      (if k > 0 then [k - 1] else []) ++ [k] ++ (if k + 1 < n then [k + 1] else []) := by
    intro n hn
    induction n with
    | zero => omega
    | succ n ih =>
      rw [List.range_succ, List.filter_append]
      rcases Nat.lt_trichotomy n k with h | h | h
      · omega
      · subst h
        have low : ∀ m, m ≤ n → (List.range m).filter (fun j => decide (j ≤ n + 1 ∧ n ≤ j + 1)) = if m = n ∧ 0 < n then [n - 1] else [] := by
          intro m hm
          induction m with
          | zero => simp; intro h1; omega
          | succ m ihm =>
            rw [List.range_succ, List.filter_append, ihm (by omega)]
            by_cases h' : m + 1 = n
            · subst h'
              have : ¬ (m = m + 1 ∧ 0 < m + 1) := by omega
              rw [if_neg this]
              simp
              omega
            · rw [if_neg (by omega), if_neg (by omega)]
              simp; omega
        rw [low n (le_refl _)]
        simp
      · rw [ih h]
        by_cases h' : n = k + 1
        · subst h'
          simp
          omega
        · have : k + 1 < n := by omega
          have h2 : k + 1 < n + 1 := by omega
          have h3 : ¬ (n ≤ k + 1 ∧ k ≤ n + 1) := by omega
          simp only [if_pos this, if_pos h2, List.filter_cons, List.filter_nil, h3, decide_false]
          simp
  rw [key _ hk]
  by_cases c1 : k > 0 <;> by_cases c2 : k + 1 < adc.length <;> simp [c1, c2] <;> (try field_simp) <;> (try ring)

/-- **C364 refuted**: the mean around the maximum may be larger than the maximum of the window; and a signal that is longer than the table of lifetime factors (the number of time
samples of the detector) is read with factors after the end of the table. -/
theorem C364_refuted : downscale ⟨1, 0, 100, 0, 100⟩ .maxMean 2 [1, 1, 1, 1] 2 [1, 2, 12, 1] 0 = some [5, 5] ∧
    downscale ⟨1, 0, 100, 0, 100⟩ .max 2 [1, 1, 1, 1] 2 [1, 2, 12, 1] 0 = some [2, 12] ∧
    downscale ⟨1, 0, 100, 0, 100⟩ .maxMean 2 [1, 1, 1, 1] 2 [1, 2, 1, 12, 1] 0 = none := by decide +kernel

example : downscale ⟨1, 0, 100, 0, 100⟩ .mean 2 [1, 1, 2, 1, 1] 2 [1, 2, 12, 1] 1 = some [5/2, 13/2] := by decide +kernel

end Verif.DataProv

import Verif.SimpleHit.RawModel
import Mathlib.Data.List.Range
import Mathlib.Tactic.Linarith
import Mathlib.Tactic.NormNum
import Mathlib.Tactic.Ring
import Mathlib.Tactic.Positivity
import Mathlib.Algebra.BigOperators.Group.Finset.Basic
import Mathlib.Algebra.BigOperators.Group.Finset.Piecewise
import Mathlib.Algebra.Order.BigOperators.Group.Finset
import Mathlib.Algebra.BigOperators.Intervals

/-! Properties C307 - C313: `RawHitFinder`. -/

namespace Verif.RawHit

open Finset

/-! ### C307 the hits of a collection plane -/

/-- Specification: the ticks `a` to `b`, at least two, are above threshold, and neither of the ticks next to them is. -/
def IsRun (s : Nat → ℚ) (n : Nat) (thr : ℚ) (a b : Nat) : Prop :=
  a < b ∧ b < n ∧ (∀ t, a ≤ t → t ≤ b → thr < s t) ∧ (a = 0 ∨ s (a - 1) ≤ thr) ∧ (b + 1 = n ∨ s (b + 1) ≤ thr)

theorem runLoop_spec (s : Nat → ℚ) (n : Nat) (thr : ℚ) (bin ibin : Nat) (madc : ℚ) (hb : bin ≤ n) :
    let r := runLoop s n thr bin ibin madc
    bin ≤ r.1 ∧ r.1 ≤ n ∧ (∀ t, bin ≤ t → t < r.1 → thr < s t) ∧ (r.1 = n ∨ s r.1 ≤ thr) ∧
    (∀ t, bin ≤ t → t < r.1 → s t ≤ r.2.2) ∧ madc ≤ r.2.2 ∧
    ((r.2.2 = madc ∧ r.2.1 = ibin) ∨
      (bin ≤ r.2.1 ∧ r.2.1 < r.1 ∧ s r.2.1 = r.2.2 ∧ madc < r.2.2 ∧ ∀ t, bin ≤ t → t < r.2.1 → s t < r.2.2)) := by
  induction hd : n - bin generalizing bin ibin madc with
  | zero =>
    have : bin = n := by omega
    subst this
    rw [runLoop, if_neg (by omega)]
    exact ⟨le_refl _, le_refl _, by omega, Or.inl rfl, by omega, le_refl _, Or.inl ⟨rfl, rfl⟩⟩
  | succ d ih =>
    rw [runLoop, if_pos (by omega)]
    by_cases h : s bin > thr
    · rw [if_pos h]
      by_cases hm : s bin > madc
      · rw [if_pos hm]
        obtain ⟨a1, a2, a3, a4, a5, a6, a7⟩ := ih (bin + 1) bin (s bin) (by omega) (by omega)
        generalize runLoop s n thr (bin + 1) bin (s bin) = r at *
        refine ⟨by omega, a2, ?_, a4, ?_, by linarith, Or.inr ?_⟩
        · intro t h1 h2
          by_cases e : t = bin
          · rw [e]; exact h
          · exact a3 t (by omega) h2
        · intro t h1 h2
          by_cases e : t = bin
          · rw [e]; exact a6
          · exact a5 t (by omega) h2
        · rcases a7 with ⟨b1, b2⟩ | ⟨b1, b2, b3, b4, b5⟩
          · refine ⟨by omega, by omega, by rw [b1, b2], by rw [b1]; exact hm, ?_⟩
            intro t h1 h2; omega
          · refine ⟨by omega, b2, b3, by linarith, ?_⟩
            intro t h1 h2
            by_cases e : t = bin
            · rw [e]; exact b4
            · exact b5 t (by omega) h2
      · rw [if_neg hm]
        obtain ⟨a1, a2, a3, a4, a5, a6, a7⟩ := ih (bin + 1) ibin madc (by omega) (by omega)
        generalize runLoop s n thr (bin + 1) ibin madc = r at *
        refine ⟨by omega, a2, ?_, a4, ?_, a6, ?_⟩
        · intro t h1 h2
          by_cases e : t = bin
          · rw [e]; exact h
          · exact a3 t (by omega) h2
        · intro t h1 h2
          by_cases e : t = bin
          · rw [e]; linarith
          · exact a5 t (by omega) h2
        · rcases a7 with b | ⟨b1, b2, b3, b4, b5⟩
          · exact Or.inl b
          · refine Or.inr ⟨by omega, b2, b3, b4, ?_⟩
            intro t h1 h2
            by_cases e : t = bin
            · rw [e]; linarith
            · exact b5 t (by omega) h2
    · rw [if_neg h]
      exact ⟨le_refl _, hb, by simp only; omega, Or.inr (by simpa using h), by simp only; omega, le_refl _,
        Or.inl ⟨rfl, rfl⟩⟩

/-- what is known of one run found -/
structure GoodRun (s : Nat → ℚ) (n : Nat) (thr : ℚ) (r : Run) : Prop where
  run : IsRun s n thr r.start r.stop
  lo : r.start ≤ r.ibin
  hi : r.ibin ≤ r.stop
  val : s r.ibin = r.madc
  top : ∀ t, r.start ≤ t → t ≤ r.stop → s t ≤ r.madc
  first : ∀ t, r.start ≤ t → t < r.ibin → s t < r.madc

theorem colLoop_spec (s : Nat → ℚ) (n : Nat) (thr : ℚ) : ∀ (fuel bin : Nat), n ≤ bin + fuel →
    (bin = 0 ∨ n ≤ bin ∨ s (bin - 1) ≤ thr) →
    (∀ r ∈ colLoop s n thr fuel bin, bin ≤ r.start ∧ GoodRun s n thr r) ∧
    (∀ a b, IsRun s n thr a b → bin ≤ a → ∃ r ∈ colLoop s n thr fuel bin, r.start = a ∧ r.stop = b) ∧
    (colLoop s n thr fuel bin).Pairwise fun r r' => r.stop < r'.start := by
  intro fuel
  induction fuel with
  | zero =>
    intro bin hf _
    refine ⟨by simp [colLoop], ?_, by simp [colLoop]⟩
    intro a b h hb
    have := h.1; have := h.2.1
    omega
  | succ fuel ih =>
    intro bin hf hbin
    rw [colLoop]
    by_cases hn : bin < n
    · rw [if_pos hn]
      by_cases h : s bin > thr
      · rw [if_pos h]
        obtain ⟨a1, a2, a3, a4, a5, a6, a7⟩ := runLoop_spec s n thr bin 0 thr (by omega)
        generalize runLoop s n thr bin 0 thr = r at *
        have hr : bin < r.1 := by
          rcases Nat.lt_or_ge bin r.1 with h' | h'
          · exact h'
          · have : r.1 = bin := by omega
            rcases a4 with h4 | h4
            · omega
            · rw [this] at h4; linarith
        obtain ⟨c1, c2, c3⟩ := ih (r.1 + 1) (by omega) (by
          rcases a4 with h4 | h4
          · right; left; omega
          · right; right; simpa using h4)
        dsimp only
        have hcomp : ∀ a b, IsRun s n thr a b → bin ≤ a → (a = bin ∧ b = r.1 - 1) ∨ r.1 + 1 ≤ a := by
          intro a b hrun hb
          obtain ⟨r1, r2, r3, r4, r5⟩ := hrun
          rcases Nat.lt_or_ge a (r.1 + 1) with h' | h'
          · left
            have ha : a = bin := by
              by_contra hne
              rcases r4 with r4 | r4
              · omega
              · have := a3 (a - 1) (by omega) (by omega)
                linarith
            refine ⟨ha, ?_⟩
            rcases Nat.lt_trichotomy b (r.1 - 1) with hb' | hb' | hb'
            · have := a3 (b + 1) (by omega) (by omega)
              rcases r5 with r5 | r5
              · omega
              · linarith
            · exact hb'
            · have := r3 r.1 (by omega) (by omega)
              rcases a4 with a4 | a4
              · omega
              · linarith
          · right; exact h'
        by_cases hne : bin ≠ r.1 - 1
        · rw [if_pos hne]
          have hmem : r.2.2 ≠ thr := by
            have := a5 bin (le_refl _) hr
            intro e; rw [e] at this; linarith
          have hG : GoodRun s n thr ⟨bin, r.1 - 1, r.2.1, r.2.2⟩ := by
            rcases a7 with ⟨b1, -⟩ | ⟨b1, b2, b3, b4, b5⟩
            · exact absurd b1 hmem
            · refine ⟨⟨by simp only; omega, by simp only; omega, ?_, ?_, ?_⟩, b1, by simp only; omega, b3, ?_, b5⟩
              · intro t h1 h2
                simp only at h1 h2
                exact a3 t h1 (by omega)
              · rcases hbin with hb | hb | hb
                · left; exact hb
                · omega
                · right; exact hb
              · rcases a4 with h4 | h4
                · left; simp only; omega
                · right
                  simp only
                  rw [show r.1 - 1 + 1 = r.1 by omega]
                  exact h4
              · intro t h1 h2
                simp only at h1 h2
                exact a5 t h1 (by omega)
          refine ⟨?_, ?_, ?_⟩
          · intro q hq
            rcases List.mem_cons.1 hq with rfl | hq
            · exact ⟨le_refl _, hG⟩
            · obtain ⟨q1, q2⟩ := c1 q hq
              exact ⟨by omega, q2⟩
          · intro a b hrun hb
            rcases hcomp a b hrun hb with ⟨e1, e2⟩ | hgt
            · exact ⟨_, List.mem_cons_self, e1.symm, e2.symm⟩
            · obtain ⟨q, hq, e⟩ := c2 a b hrun hgt
              exact ⟨q, List.mem_cons_of_mem _ hq, e⟩
          · refine List.pairwise_cons.2 ⟨?_, c3⟩
            intro q hq
            have := (c1 q hq).1
            simp only
            omega
        · rw [if_neg hne]
          refine ⟨?_, ?_, c3⟩
          · intro q hq
            obtain ⟨q1, q2⟩ := c1 q hq
            exact ⟨by omega, q2⟩
          · intro a b hrun hb
            rcases hcomp a b hrun hb with ⟨e1, e2⟩ | hgt
            · have := hrun.1
              omega
            · exact c2 a b hrun hgt
      · rw [if_neg h]
        obtain ⟨c1, c2, c3⟩ := ih (bin + 1) (by omega) (by right; right; simpa using h)
        refine ⟨fun q hq => ⟨by have := (c1 q hq).1; omega, (c1 q hq).2⟩, ?_, c3⟩
        intro a b hrun hb
        refine c2 a b hrun ?_
        by_contra hlt
        have : a = bin := by omega
        subst this
        exact h (hrun.2.2.1 a (le_refl _) (by have := hrun.1; omega))
    · rw [if_neg hn]
      refine ⟨by simp, ?_, by simp⟩
      intro a b hrun hb
      have := hrun.1; have := hrun.2.1
      omega

/-- C307: the hits of a collection channel are, in time order and each once, the runs of at least two ticks above threshold,
each as long as possible. -/
theorem C307_runs (s : Nat → ℚ) (n : Nat) (thr : ℚ) :
    (∀ a b, (a, b) ∈ (runs s n thr).map (fun r => (r.start, r.stop)) ↔ IsRun s n thr a b) ∧
    (runs s n thr).Pairwise fun r r' => r.stop < r'.start := by
  obtain ⟨h1, h2, h3⟩ := colLoop_spec s n thr n 0 (by omega) (Or.inl rfl)
  refine ⟨?_, h3⟩
  intro a b
  rw [List.mem_map]
  constructor
  · rintro ⟨r, hr, he⟩
    simp only [Prod.mk.injEq] at he
    rw [← he.1, ← he.2]
    exact (h1 r hr).2.run
  · intro h
    obtain ⟨r, hr, e1, e2⟩ := h2 a b h (by omega)
    exact ⟨r, hr, by rw [e1, e2]⟩

/-- a waveform with a run of three, a single tick and a run to the end -/
def wave (t : Nat) : ℚ := [0, 4, 7, 5, 0, 9, 0, 3, 3].getD t 0

example : runs wave 9 2 = [⟨1, 3, 2, 7⟩, ⟨7, 8, 7, 3⟩] := by decide +kernel

/-! ### C308 peak and charge -/

theorem tailSum_eq (g : Nat → ℚ) (n : Nat) : ∀ (k : Nat) (i : Int),
    tailSum g n k i = ∑ t ∈ (range n).filter (fun t : Nat => i ≤ (t : Int) ∧ (t : Int) < i + k), g t := by
  intro k
  induction k with
  | zero =>
    intro i
    rw [tailSum, Finset.sum_eq_zero]
    intro t ht
    have := (mem_filter.1 ht).2
    push_cast at this
    omega
  | succ k ih =>
    intro i
    rw [tailSum, ih, sum_filter, sum_filter]
    have hone : (if i < (n : Int) ∧ i ≥ 0 then g i.toNat else 0) =
        ∑ t ∈ range n, if (t : Int) = i then g t else 0 := by
      by_cases h : i < (n : Int) ∧ i ≥ 0
      · rw [if_pos h, Finset.sum_eq_single i.toNat]
        · rw [if_pos (by omega)]
        · intro b _ hb
          rw [if_neg (by omega)]
        · intro hb
          exact absurd (Finset.mem_range.2 (by omega)) hb
      · rw [if_neg h, Finset.sum_eq_zero]
        intro t ht
        have := Finset.mem_range.1 ht
        rw [if_neg (by omega)]
    rw [hone, ← Finset.sum_add_distrib]
    apply Finset.sum_congr rfl
    intro t _
    push_cast
    by_cases h1 : (t : Int) = i
    · rw [if_pos h1, if_neg (by omega), if_pos (by omega), add_zero]
    · rw [if_neg h1, zero_add]
      by_cases h2 : i + 1 ≤ (t : Int) ∧ (t : Int) < i + 1 + k
      · rw [if_pos h2, if_pos (by omega)]
      · rw [if_neg h2, if_neg (by omega)]

/-- C308: the peak of a collection hit is the largest value of the run, at its first tick with that value; the charge is the
sum of the waveform over all existing ticks from `moreTail` before the run to `moreTail` after it. -/
theorem C308_peak_charge (s : Nat → ℚ) (n : Nat) (thr f : ℚ) (colMin : Int) (r : Run) (hr : r ∈ runs s n thr) :
    (r.start ≤ r.ibin ∧ r.ibin ≤ r.stop ∧ s r.ibin = r.madc) ∧
    (∀ t, r.start ≤ t → t ≤ r.stop → s t ≤ r.madc) ∧ (∀ t, r.start ≤ t → t < r.ibin → s t < r.madc) ∧
    charge s n f colMin r = ∑ t ∈ (range n).filter (fun t : Nat =>
      (r.start : Int) - moreTail f colMin r ≤ t ∧ (t : Int) ≤ r.stop + moreTail f colMin r), s t ∧
    colMin ≤ moreTail f colMin r ∧ f * ((r.stop : ℚ) - r.start) ≤ moreTail f colMin r := by
  have h := ((colLoop_spec s n thr n 0 (by omega) (Or.inl rfl)).1 r hr).2
  refine ⟨⟨h.lo, h.hi, h.val⟩, h.top, h.first, ?_, ?_, ?_⟩
  · unfold charge
    rw [tailSum_eq]
    apply Finset.sum_congr _ (fun _ _ => rfl)
    ext t
    simp only [mem_filter, Finset.mem_range, and_congr_right_iff]
    intro _
    unfold tailCount
    omega
  · unfold moreTail
    dsimp only
    split_ifs with h' <;> omega
  · unfold moreTail
    dsimp only
    have := Int.le_ceil (f * ((r.stop : ℚ) - r.start))
    split_ifs with h'
    · have : (⌈f * ((r.stop : ℚ) - r.start)⌉ : ℚ) ≤ colMin := by exact_mod_cast le_of_lt h'
      linarith
    · exact this

example : charge wave 9 (1 / 2) 0 ⟨1, 3, 2, 7⟩ = 16 ∧ charge wave 9 0 2 ⟨1, 3, 2, 7⟩ = 25 := by decide +kernel

/-! ### C309 the width -/

/-- C309 (part): if the threshold is not negative, the run is not made shorter, and no tick of the widened run is negative,
the charge of a collection hit is positive and the square of its width is not negative. -/
theorem C309_width_partial (s : Nat → ℚ) (n : Nat) (thr f : ℚ) (colMin : Int) (r : Run) (hr : r ∈ runs s n thr)
    (hthr : 0 ≤ thr) (hm : 0 ≤ moreTail f colMin r)
    (hs : ∀ t : Nat, t < n → (r.start : Int) - moreTail f colMin r ≤ t → (t : Int) ≤ r.stop + moreTail f colMin r → 0 ≤ s t) :
    0 < charge s n f colMin r ∧ 0 ≤ rms2 s n f colMin r := by
  have h := ((colLoop_spec s n thr n 0 (by omega) (Or.inl rfl)).1 r hr).2
  have hc : 0 < charge s n f colMin r := by
    rw [(C308_peak_charge s n thr f colMin r hr).2.2.2.1]
    apply Finset.sum_pos'
    · intro t ht
      have := mem_filter.1 ht
      exact hs t (Finset.mem_range.1 this.1) this.2.1 this.2.2
    · refine ⟨r.start, mem_filter.2 ⟨Finset.mem_range.2 (by have := h.run.1; have := h.run.2.1; omega), by omega, ?_⟩, ?_⟩
      · have := h.run.1; omega
      · have := h.run.2.2.1 r.start (le_refl _) (le_of_lt h.run.1)
        linarith
  refine ⟨hc, ?_⟩
  unfold rms2
  apply div_nonneg _ (le_of_lt hc)
  rw [tailSum_eq]
  apply Finset.sum_nonneg
  intro t ht
  have := mem_filter.1 ht
  have h0 : 0 ≤ s t := by
    refine hs t (Finset.mem_range.1 this.1) this.2.1 ?_
    have h2 := this.2.2
    unfold tailCount at h2
    omega
  exact mul_nonneg (mul_self_nonneg _) h0

/-- a run followed by a negative tick -/
def under (t : Nat) : ℚ := [0, 10, 10, -3].getD t 0

/-- C309 (refuted): with a widened run the width may be the root of a negative number. -/
theorem C309_refuted : ¬ ∀ (s : Nat → ℚ) (n : Nat) (thr f : ℚ) (colMin : Int), 0 ≤ thr → 0 ≤ f → 0 ≤ colMin →
    ∀ r ∈ runs s n thr, 0 ≤ rms2 s n f colMin r := by
  intro h
  have := h under 4 1 0 1 (by norm_num) (by norm_num) (by norm_num) ⟨1, 2, 1, 10⟩ (by decide +kernel)
  revert this
  decide +kernel

/-! ### C310 the ticks of a hit -/

/-- C310 (part): the summed charge of a collection hit and the last tick of the run together are the sum over the run. -/
theorem C310_summed_partial (s : Nat → ℚ) (n : Nat) (thr : ℚ) (r : Run) (hr : r ∈ runs s n thr) :
    summed s r.start r.stop + s r.stop = ∑ t ∈ Finset.Icc r.start r.stop, s t := by
  have h := ((colLoop_spec s n thr n 0 (by omega) (Or.inl rfl)).1 r hr).2
  have hlt := h.run.1
  have key : ∀ k a, ((List.range' a k).map s).sum = ∑ t ∈ Finset.Ico a (a + k), s t := by
    intro k
    induction k with
    | zero => intro a; simp
    | succ k ih =>
      intro a
      rw [List.range'_succ, List.map_cons, List.sum_cons, ih, Finset.sum_eq_sum_Ico_succ_bot (show a < a + (k + 1) by omega),
        show a + (k + 1) = a + 1 + k by omega]
  unfold summed
  rw [key, show r.start + (r.stop - r.start) = r.stop by omega, ← Finset.sum_Ico_succ_top (le_of_lt hlt)]
  rfl

/-- C310 (refuted): the first and last tick given to a hit do not span all ticks above threshold (the last one of the run is
given as the end, which is not part of the hit): the summed charge is not that of the run. -/
theorem C310_refuted : ¬ ∀ (s : Nat → ℚ) (n : Nat) (thr : ℚ), 0 ≤ thr → ∀ r ∈ runs s n thr,
    summed s r.start r.stop = ∑ t ∈ Finset.Icc r.start r.stop, s t := by
  intro h
  have hr : (⟨1, 3, 2, 7⟩ : Run) ∈ runs wave 9 2 := by decide +kernel
  have h1 := h wave 9 2 (by norm_num) _ hr
  have h2 := C310_summed_partial wave 9 2 _ hr
  rw [← h1] at h2
  have h3 : wave 3 = 0 := by linarith
  revert h3
  decide +kernel

/-! ### C311 the hits of an induction plane -/

theorem stepBack_spec (s : Nat → ℚ) (c : ℚ → Bool) (stop : Nat) : ∀ (bin : Nat) (adc : ℚ),
    (stepBack s c stop bin adc).1 ≤ bin ∧
    (adc = s bin → (stepBack s c stop bin adc).2 = s (stepBack s c stop bin adc).1) ∧
    (adc = s bin → ∀ u, (stepBack s c stop bin adc).1 < u → u ≤ bin → c (s u) = true) ∧
    ((stepBack s c stop bin adc).1 ≤ stop ∨ c (stepBack s c stop bin adc).2 = false) := by
  intro bin
  induction bin with
  | zero =>
    intro adc
    refine ⟨by simp [stepBack], by simp [stepBack], by simp only [stepBack]; omega, Or.inl (by simp [stepBack])⟩
  | succ bin ih =>
    intro adc
    rw [stepBack]
    by_cases h : c adc = true ∧ bin + 1 > stop
    · rw [if_pos h]
      obtain ⟨h1, h2, h3, h4⟩ := ih (s bin)
      refine ⟨by omega, fun _ => h2 rfl, ?_, h4⟩
      intro ha u hu hub
      by_cases e : u = bin + 1
      · rw [e, ← ha]; exact h.1
      · exact h3 rfl u hu (by omega)
    · rw [if_neg h]
      refine ⟨le_refl _, fun h => h, by simp only; omega, ?_⟩
      by_cases h5 : bin + 1 > stop
      · right
        have : ¬ c adc = true := fun e => h ⟨e, h5⟩
        simpa using this
      · left; simp only; omega

theorem dipLoop_spec (s : Nat → ℚ) (n : Nat) (negthr : ℚ) (bin p : Nat) (mn tot : ℚ) (hp : bin = p + 1) (hb : bin ≤ n)
    (hmn : mn ≤ s p) :
    let d := dipLoop s n negthr bin (s p) mn tot
    bin ≤ d.1 ∧ d.1 ≤ n ∧ d.2.1 = s (d.1 - 1) ∧ (∀ u, p ≤ u → u + 1 < d.1 → s u < negthr) ∧
    (d.1 = n ∨ negthr ≤ s (d.1 - 1)) ∧
    d.2.2.2 = tot + ∑ u ∈ Finset.Ico p (d.1 - 1), |s u| ∧
    d.2.2.1 ≤ mn ∧ (∀ u, p ≤ u → u < d.1 → d.2.2.1 ≤ s u) ∧
    (d.2.2.1 = mn ∨ ∃ u, p ≤ u ∧ u < d.1 ∧ d.2.2.1 = s u) := by
  induction hd : n - bin generalizing bin p mn tot with
  | zero =>
    rw [dipLoop, if_neg (by omega)]
    refine ⟨le_refl _, hb, by simp [hp], by simp only; omega, Or.inl (by simp only; omega), by simp [hp], le_refl _, ?_, Or.inl rfl⟩
    intro u h1 h2
    simp only at h2
    have : u = p := by omega
    rw [this]; exact hmn
  | succ k ih =>
    rw [dipLoop, if_pos (by omega)]
    by_cases h : s p < negthr
    · rw [if_pos h]
      obtain ⟨a1, a2, a3, a4, a5, a6, a7, a8, a9⟩ := ih (bin + 1) bin (if s bin < mn then s bin else mn) (tot + |s p|) rfl
        (by omega) (by split_ifs with h' <;> linarith) (by omega)
      generalize dipLoop s n negthr (bin + 1) (s bin) (if s bin < mn then s bin else mn) (tot + |s p|) = d at *
      have hmn' : (if s bin < mn then s bin else mn) ≤ mn := by split_ifs with h' <;> linarith
      refine ⟨by omega, a2, a3, ?_, a5, ?_, le_trans a7 hmn', ?_, ?_⟩
      · intro u h1 h2
        by_cases e : u = p
        · rw [e]; exact h
        · exact a4 u (by omega) h2
      · rw [a6, Finset.sum_eq_sum_Ico_succ_bot (show p < d.1 - 1 by omega), ← hp]
        ring
      · intro u h1 h2
        by_cases e : u = p
        · rw [e]; linarith
        · exact a8 u (by omega) h2
      · rcases a9 with a9 | ⟨u, h1, h2, h3⟩
        · rw [a9]
          split_ifs with h'
          · right; exact ⟨bin, by omega, by omega, rfl⟩
          · left; rfl
        · right; exact ⟨u, by omega, h2, h3⟩
    · rw [if_neg h]
      refine ⟨le_refl _, hb, by simp [hp], by simp only; omega, Or.inr (by simp [hp]; linarith), by simp [hp], le_refl _, ?_,
        Or.inl rfl⟩
      intro u h1 h2
      simp only at h2
      have : u = p := by omega
      rw [this]; exact hmn

theorem toBaseline_spec (s : Nat → ℚ) (n : Nat) (bin : Nat) (adc : ℚ) (hb : bin ≤ n) (hs : adc = s (bin - 1)) :
    bin ≤ toBaseline s n bin adc ∧ toBaseline s n bin adc ≤ n ∧
    (toBaseline s n bin adc < n → (toBaseline s n bin adc = bin ∧ 0 ≤ s (bin - 1)) ∨
      (bin < toBaseline s n bin adc ∧ 0 ≤ s (toBaseline s n bin adc))) := by
  have key : ∀ k bin adc, n - bin = k → bin ≤ n → bin ≤ toBaseline s n bin adc ∧ toBaseline s n bin adc ≤ n ∧
      (toBaseline s n bin adc < n → (toBaseline s n bin adc = bin ∧ 0 ≤ adc) ∨
      (bin < toBaseline s n bin adc ∧ 0 ≤ s (toBaseline s n bin adc))) := by
    intro k
    induction k with
    | zero =>
      intro bin adc hk hb
      rw [toBaseline, if_neg (by omega)]
      exact ⟨le_refl _, hb, fun h => by omega⟩
    | succ k ih =>
      intro bin adc hk hb
      rw [toBaseline, if_pos (by omega)]
      by_cases h : adc < 0
      · rw [if_pos h]
        by_cases h1 : bin + 1 = n
        · rw [if_pos h1]
          exact ⟨hb, le_refl _, fun h => by omega⟩
        · rw [if_neg h1]
          obtain ⟨a1, a2, a3⟩ := ih (bin + 1) (s (bin + 1)) (by omega) (by omega)
          refine ⟨by omega, a2, fun hlt => Or.inr ⟨by omega, ?_⟩⟩
          rcases a3 hlt with ⟨e, h0⟩ | ⟨-, h0⟩
          · rw [e]; exact h0
          · exact h0
      · rw [if_neg h]
        exact ⟨le_refl _, hb, fun _ => Or.inl ⟨rfl, by linarith⟩⟩
  have := key (n - bin) bin adc rfl hb
  rw [hs] at this ⊢
  exact this

/-- what is known of a dip found, `p` being the tick where it was found -/
structure GoodDip (s : Nat → ℚ) (n : Nat) (thr : ℚ) (p : Nat) (d : Dip) : Prop where
  first : s p < -thr ∧ s (p + 1) < -thr
  binlt : d.bin < p
  start1 : 1 ≤ d.start
  start : d.start ≤ d.bin + 1
  stop : p < d.stop ∧ d.stop < n
  num : d.num = s d.bin
  den : d.den = s d.bin - s (d.bin + 1)
  cross : d.bin = 0 ∨ 0 < s d.bin
  neg : ∀ u, d.bin < u → u ≤ p → s u ≤ 0
  low : ∀ u, p ≤ u → u < d.stop → s u < -thr
  ends : d.stop + 1 = n ∨ -thr ≤ s d.stop
  charge : d.charge = |s p| + ∑ u ∈ Finset.Ico p d.stop, |s u|
  height : (∀ u, p ≤ u → u ≤ d.stop → -s u ≤ d.height) ∧ ∃ u, p ≤ u ∧ u ≤ d.stop ∧ d.height = -s u

theorem indLoop_spec (s : Nat → ℚ) (n : Nat) (thr : ℚ) (cutoff : Int) (hthr : 0 ≤ thr) : ∀ (fuel bin : Nat),
    n ≤ bin + fuel → 1 ≤ bin →
    (∀ d ∈ indLoop s n thr cutoff fuel bin, ∃ p, bin ≤ p ∧ GoodDip s n thr p d) ∧
    ((∃ p, bin ≤ p ∧ p + 1 < n ∧ s p < -thr ∧ s (p + 1) < -thr) → indLoop s n thr cutoff fuel bin ≠ []) ∧
    ((∀ t, t < n → s t ≠ 0) → (indLoop s n thr cutoff fuel bin).Pairwise fun d d' => d.stop ≤ d'.bin) := by
  intro fuel
  induction fuel with
  | zero =>
    intro bin hf _
    refine ⟨by simp [indLoop], ?_, by simp [indLoop]⟩
    rintro ⟨p, h1, h2, -⟩
    omega
  | succ fuel ih =>
    intro bin hf hb1
    rw [indLoop]
    by_cases hn : bin < n - 1
    · rw [if_pos hn]
      by_cases h : s bin < -thr ∧ s (bin + 1) < -thr
      · rw [if_pos h]
        dsimp only
        obtain ⟨d1, d2, d3, d4, d5, d6, d7, d8, d9⟩ := dipLoop_spec s n (-thr) (bin + 1) bin (s bin) |s bin| rfl (by omega)
          (le_refl _)
        generalize dipLoop s n (-thr) (bin + 1) (s bin) (s bin) |s bin| = d at *
        obtain ⟨z1, z2, z3, z4⟩ := stepBack_spec s (fun a => decide (a ≤ 0)) 0 bin (s bin)
        generalize ht : dipTimes s thr cutoff bin = T
        unfold dipTimes at ht
        dsimp only at ht
        generalize stepBack s (fun a => decide (a ≤ 0)) 0 bin (s bin) = z at *
        generalize (if cutoff < (z.1 : Int) then ((z.1 : Int) - cutoff).toNat else 0) = st at *
        obtain ⟨u1, -, -, -⟩ := stepBack_spec s (fun a => decide (a < thr)) st z.1 z.2
        generalize stepBack s (fun a => decide (a < thr)) st z.1 z.2 = u at *
        obtain ⟨v1, -, -, -⟩ := stepBack_spec s (fun a => decide (a > thr)) st (if u.1 ≥ 2 then u.1 - 2 else u.1) u.2
        generalize stepBack s (fun a => decide (a > thr)) st (if u.1 ≥ 2 then u.1 - 2 else u.1) u.2 = v at *
        have hv : v.1 ≤ z.1 := by
          have : (if u.1 ≥ 2 then u.1 - 2 else u.1) ≤ u.1 := by split_ifs <;> omega
          omega
        have hz2 := z2 rfl
        have hzlt : z.1 < bin := by
          rcases Nat.lt_or_ge z.1 bin with h' | h'
          · exact h'
          · have e : z.1 = bin := by omega
            rcases z4 with z4 | z4
            · omega
            · rw [hz2, e] at z4
              simp only [decide_eq_false_iff_not, not_le] at z4
              linarith [h.1]
        have hd1 : bin + 1 < d.1 := by
          rcases Nat.lt_or_ge (bin + 1) d.1 with h' | h'
          · exact h'
          · have e : d.1 = bin + 1 := by omega
            rcases d5 with d5 | d5
            · omega
            · rw [e] at d5
              simp only [Nat.add_sub_cancel] at d5
              linarith [h.1]
        have hG : GoodDip s n thr bin ⟨z.1, z.2, z.2 - s (z.1 + 1), v.1 + 1, d.1 - 1, -d.2.2.1, d.2.2.2⟩ := by
          refine ⟨h, hzlt, by simp, by simp only; omega, by simp only; omega, hz2, by simp only; rw [hz2], ?_, ?_, ?_, ?_, d6, ?_, ?_⟩
          · rcases z4 with z4 | z4
            · left; simp only; omega
            · right
              rw [hz2] at z4
              simpa using z4
          · intro t h1 h2
            simpa using z3 rfl t h1 h2
          · intro t h1 h2
            simp only at h2
            exact d4 t h1 (by omega)
          · rcases d5 with d5 | d5
            · left; simp only; omega
            · right; exact d5
          · intro t h1 h2
            simp only at h2
            have := d8 t h1 (by omega)
            simp only
            linarith
          · rcases d9 with d9 | ⟨t, h1, h2, h3⟩
            · exact ⟨bin, le_refl _, by simp only; omega, by simp only; rw [d9]⟩
            · exact ⟨t, h1, by simp only; omega, by simp only; rw [h3]⟩
        rw [← ht]
        dsimp only
        obtain ⟨b1, b2, b3⟩ := toBaseline_spec s n d.1 d.2.1 d2 d3
        generalize toBaseline s n d.1 d.2.1 = B at *
        obtain ⟨c1, c2, c3⟩ := ih (B + 1) (by omega) (by omega)
        refine ⟨?_, fun _ => by simp, ?_⟩
        · intro q hq
          rcases List.mem_cons.1 hq with rfl | hq
          · exact ⟨bin, le_refl _, hG⟩
          · obtain ⟨p, hp, hg⟩ := c1 q hq
            exact ⟨p, by omega, hg⟩
        · intro hz
          refine List.pairwise_cons.2 ⟨?_, c3 hz⟩
          intro q hq
          obtain ⟨p, hp, hg⟩ := c1 q hq
          simp only
          have hpn : p < n := by have := hg.stop; omega
          have hpos : ∃ t, d.1 - 1 ≤ t ∧ t ≤ B ∧ 0 < s t := by
            rcases b3 (by omega) with ⟨e, h0⟩ | ⟨e, h0⟩
            · exact ⟨d.1 - 1, le_refl _, by omega, lt_of_le_of_ne h0 (Ne.symm (hz _ (by omega)))⟩
            · exact ⟨B, by omega, le_refl _, lt_of_le_of_ne h0 (Ne.symm (hz _ (by omega)))⟩
          obtain ⟨t, t1, t2, t3⟩ := hpos
          by_contra hlt
          have := hg.neg t (by omega) (by omega)
          linarith
      · rw [if_neg h]
        obtain ⟨c1, c2, c3⟩ := ih (bin + 1) (by omega) (by omega)
        refine ⟨?_, ?_, c3⟩
        · intro q hq
          obtain ⟨p, hp, hg⟩ := c1 q hq
          exact ⟨p, by omega, hg⟩
        · rintro ⟨p, h1, h2, h3⟩
          refine c2 ⟨p, ?_, h2, h3⟩
          by_contra hlt
          have : p = bin := by omega
          rw [this] at h3
          exact h h3
    · rw [if_neg hn]
      refine ⟨by simp, ?_, by simp⟩
      rintro ⟨p, h1, h2, -⟩
      omega

/-- C311: with a threshold that is not negative, an induction channel has hits exactly if two neighbouring ticks (not the
first) are below minus the threshold; every hit begins inside the waveform, at or before the tick after its zero crossing, and
ends inside it, after a dip of at least two such ticks that starts after the crossing; its height is the depth of the dip. -/
theorem C311_dips (s : Nat → ℚ) (n : Nat) (thr : ℚ) (cutoff : Int) (hthr : 0 ≤ thr) :
    (dips s n thr cutoff ≠ [] ↔ ∃ p, 1 ≤ p ∧ p + 1 < n ∧ s p < -thr ∧ s (p + 1) < -thr) ∧
    ∀ d ∈ dips s n thr cutoff, 1 ≤ d.start ∧ d.start < d.stop ∧ d.stop < n ∧ d.start ≤ d.bin + 1 ∧
      ∃ p, d.bin < p ∧ p < d.stop ∧ s (p + 1) < -thr ∧ (∀ u, p ≤ u → u < d.stop → s u < -thr) ∧
        (d.stop + 1 = n ∨ -thr ≤ s d.stop) ∧
        (∀ u, p ≤ u → u ≤ d.stop → -s u ≤ d.height) ∧ ∃ u, p ≤ u ∧ u ≤ d.stop ∧ d.height = -s u := by
  obtain ⟨h1, h2, -⟩ := indLoop_spec s n thr cutoff hthr n 1 (by omega) (le_refl _)
  refine ⟨⟨?_, h2⟩, ?_⟩
  · intro h
    obtain ⟨d, hd⟩ := List.exists_mem_of_ne_nil _ h
    obtain ⟨p, hp, g⟩ := h1 d hd
    exact ⟨p, hp, by have := g.stop; omega, g.first⟩
  · intro d hd
    obtain ⟨p, hp, g⟩ := h1 d hd
    have a := g.stop; have b := g.binlt; have c := g.start
    exact ⟨g.start1, by omega, a.2, c, p, b, a.1, g.first.2, g.low, g.ends, g.height⟩

/-- a bipolar pulse -/
def bipolar (t : Nat) : ℚ := [0, 0, 4, 6, 2, -2, -6, -4, -1, 0, 0].getD t 0

example : dips bipolar 11 3 20 = [⟨4, 2, 4, 1, 8, 6, 16⟩] := by decide +kernel

/-! ### C312 the charge of an induction hit -/

/-- C312 (part): the charge of an induction hit is the sum of the depths of the dip, from its first tick (`p`) below minus the
threshold up to the end of the hit, and once more the depth of the first tick. -/
theorem C312_charge_partial (s : Nat → ℚ) (n : Nat) (thr : ℚ) (cutoff : Int) (hthr : 0 ≤ thr) :
    ∀ d ∈ dips s n thr cutoff, ∃ p, d.bin < p ∧ p < d.stop ∧ (∀ u, p ≤ u → u < d.stop → s u < -thr) ∧
      d.charge = |s p| + ∑ u ∈ Finset.Ico p d.stop, |s u| := by
  obtain ⟨h1, -, -⟩ := indLoop_spec s n thr cutoff hthr n 1 (by omega) (le_refl _)
  intro d hd
  obtain ⟨p, hp, g⟩ := h1 d hd
  exact ⟨p, g.binlt, g.stop.1, g.low, g.charge⟩

/-- C312 (refuted): the charge of an induction hit is not the sum over the ticks of its dip: for the dip of ten counts of this
waveform it is sixteen. -/
theorem C312_refuted : ¬ ∀ (s : Nat → ℚ) (n : Nat) (thr : ℚ) (cutoff : Int), 0 ≤ thr →
    ∀ d ∈ dips s n thr cutoff,
      d.charge = ((List.range n).map fun u => if d.bin < u ∧ u ≤ d.stop ∧ s u < -thr then |s u| else 0).sum := by
  intro h
  have := h bipolar 11 3 20 (by norm_num) ⟨4, 2, 4, 1, 8, 6, 16⟩ (by decide +kernel)
  revert this
  decide +kernel

/-! ### C313 the time of an induction hit -/

/-- C313 (part): the time of an induction hit (`bin + num / den`) is that of the last crossing from a positive tick to ticks
that are not positive before its dip, by linear interpolation, unless there is no positive tick before; if no tick is exactly
zero, every hit ends at or before the tick where the next hit crosses zero. -/
theorem C313_time_partial (s : Nat → ℚ) (n : Nat) (thr : ℚ) (cutoff : Int) (hthr : 0 ≤ thr) :
    (∀ d ∈ dips s n thr cutoff, d.num = s d.bin ∧ d.den = s d.bin - s (d.bin + 1) ∧
      ((0 < d.num ∧ s (d.bin + 1) ≤ 0 ∧ 0 < d.num / d.den ∧ d.num / d.den ≤ 1) ∨
       (d.bin = 0 ∧ ∃ p, p < d.stop ∧ s p < -thr ∧ ∀ u, u ≤ p → s u ≤ 0))) ∧
    ((∀ t, t < n → s t ≠ 0) → (dips s n thr cutoff).Pairwise fun d d' => d.stop ≤ d'.bin) := by
  obtain ⟨h1, -, h3⟩ := indLoop_spec s n thr cutoff hthr n 1 (by omega) (le_refl _)
  refine ⟨?_, h3⟩
  intro d hd
  obtain ⟨p, hp, g⟩ := h1 d hd
  refine ⟨g.num, g.den, ?_⟩
  by_cases h0 : 0 < s d.bin
  · left
    have h1 := g.neg (d.bin + 1) (by omega) (by have := g.binlt; omega)
    have h2 : 0 < d.den := by rw [g.den]; linarith
    refine ⟨by rw [g.num]; exact h0, h1, div_pos (by rw [g.num]; exact h0) h2, ?_⟩
    rw [div_le_one h2, g.num, g.den]
    linarith
  · right
    have hb : d.bin = 0 := by
      rcases g.cross with h | h
      · exact h
      · exact absurd h h0
    refine ⟨hb, p, g.stop.1, g.first.1, ?_⟩
    intro u hu
    rcases Nat.eq_zero_or_pos u with e | e
    · rw [e, ← hb]; linarith
    · exact g.neg u (by omega) hu

/-- a waveform that begins in a dip -/
def begins (_ : Nat) : ℚ := -5

/-- two dips with a tick of zero between them -/
def zeroBetween (t : Nat) : ℚ := [5, -9, -9, 0, 0, -9, -9, 1, 1].getD t 0

/-- C313 (refuted): for a waveform that begins below zero the time is a division by zero; and two dips that are separated by
ticks that are exactly zero are given the same time. -/
theorem C313_refuted :
    (¬ ∀ (s : Nat → ℚ) (n : Nat) (thr : ℚ) (cutoff : Int), 0 ≤ thr → ∀ d ∈ dips s n thr cutoff, d.den ≠ 0) ∧
    (¬ ∀ (s : Nat → ℚ) (n : Nat) (thr : ℚ) (cutoff : Int), 0 ≤ thr →
      (dips s n thr cutoff).Pairwise fun d d' => (d.bin, d.num, d.den) ≠ (d'.bin, d'.num, d'.den)) := by
  constructor
  · intro h
    have := h begins 6 1 20 (by norm_num) ⟨0, -5, 0, 1, 5, 5, 25⟩ (by decide +kernel)
    exact this rfl
  · intro h
    have := h zeroBetween 9 1 20 (by norm_num)
    revert this
    decide +kernel

end Verif.RawHit

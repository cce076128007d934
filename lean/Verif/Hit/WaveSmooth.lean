import Verif.Hit.WaveProps
import Mathlib.Tactic.FieldSimp
/-!
# Smoothing filters and derivative (C37, C66)
-/
namespace Verif.Wave
open Verif

theorem get_eq {s : List ℚ} {k : Nat} {v : ℚ} (h : k < s.length) (h2 : at' s k = v) : s[k]? = some v := by
  rw [some_at h, h2]

theorem at_set (s : List ℚ) (a : Nat) (v : ℚ) (k : Nat) (hk : k < s.length) :
    at' (s.set a v) k = if k = a then v else at' s k := by
  unfold at'
  simp only [List.getD_eq_getElem?_getD, List.getElem?_set]
  by_cases h : a = k
  · subst h; simp [hk]
  · rw [if_neg h, if_neg (Ne.symm h)]

theorem copy_length (src dst : List ℚ) (a b c : Nat) : (copy src a b c dst).length = dst.length := by simp [copy]

theorem at_copy (src dst : List ℚ) (a b c k : Nat) (hk : k < dst.length) :
    at' (copy src a b c dst) k = if c ≤ k ∧ k < c + (b - a) then at' src (a + (k - c)) else at' dst k := by
  unfold copy
  conv_lhs => unfold at'
  rw [List.getD_eq_getElem?_getD]
  simp [List.getElem?_map, List.getElem?_range hk, at', List.getD_eq_getElem?_getD]

theorem resize_length (l : List ℚ) (n : Nat) : (resize l n).length = n := by
  simp [resize]; omega

theorem at_resize (l : List ℚ) (n k : Nat) (hk : k < n) : at' (resize l n) k = at' l k := by
  unfold at' resize
  simp only [List.getD_eq_getElem?_getD]
  by_cases h : k < l.length
  · rw [List.getElem?_append_left (by simp; omega)]
    simp [List.getElem?_take, hk]
  · rw [List.getElem?_append_right (by simp; omega), List.getElem?_replicate]
    have : l[k]? = none := List.getElem?_eq_none (by omega)
    rw [this]
    split <;> simp

theorem outSize (w old : List ℚ) : (if w.length ≠ old.length then resize old w.length else old).length = w.length := by
  by_cases h : w.length = old.length
  · rw [if_neg (by simpa using h), h]
  · rw [if_pos h, resize_length]

/-! ## Triangle -/

theorem triLoop_spec (w : List ℚ) (stop : Nat) (d : Nat) : ∀ fuel cur out s, cur + d = stop → d < fuel →
    ∃ s', triLoop w stop fuel cur out s = .ok s' ∧ s'.length = s.length ∧
      ∀ k, k < s.length → at' s' k = if out ≤ k ∧ k < out + d then tri w (cur + 1 + (k - out)) else at' s k := by
  induction d with
  | zero =>
    intro fuel cur out s hd hf
    obtain ⟨fuel, rfl⟩ : ∃ f, fuel = f + 1 := ⟨fuel - 1, by omega⟩
    unfold triLoop
    rw [if_pos (show cur = stop by omega)]
    exact ⟨s, rfl, rfl, fun k _ => by rw [if_neg (by omega)]⟩
  | succ d ih =>
    intro fuel cur out s hd hf
    obtain ⟨fuel, rfl⟩ : ∃ f, fuel = f + 1 := ⟨fuel - 1, by omega⟩
    unfold triLoop
    rw [if_neg (show ¬ cur = stop by omega), if_neg (show ¬ cur > stop by omega)]
    obtain ⟨s', h1, h2, h3⟩ := ih fuel (cur + 1) (out + 1) (s.set out (tri w (cur + 1))) (by omega) (by omega)
    refine ⟨s', h1, by simpa using h2, fun k hk => ?_⟩
    rw [h3 k (by simpa using hk), at_set _ _ _ _ hk]
    by_cases hko : k = out
    · subst hko
      rw [if_neg (show ¬ (k + 1 ≤ k ∧ k < k + 1 + d) by omega), if_pos rfl, if_pos (by omega)]
      simp
    · rw [if_neg hko]
      by_cases hc : out + 1 ≤ k ∧ k < out + 1 + d
      · rw [if_pos hc, if_pos (by omega), show cur + 1 + 1 + (k - (out + 1)) = cur + 1 + (k - out) by omega]
      · rw [if_neg hc, if_neg (by omega)]

/-- C37: on more than four samples, and with room for the unsmoothed bins, `triangleSmooth` gives every inner tick the weighted
mean 1-2-3-2-1 of the five samples around it and copies the others, whatever the output vector held before. -/
theorem C37_triangle (w old : List ℚ) (lowest : Nat) (hn : 4 < w.length) (hl : lowest + 4 ≤ w.length) :
    ∃ s, triangleSmooth w old lowest = .ok s ∧ s.length = w.length ∧
      (∀ i, i < w.length → (i < 2 + lowest ∨ w.length ≤ i + 2) → s[i]? = w[i]?) ∧
      (∀ i a b c d e, 2 + lowest ≤ i → w[i - 2]? = some a → w[i - 1]? = some b → w[i]? = some c → w[i + 1]? = some d →
        w[i + 2]? = some e → s[i]? = some ((1 * a + 2 * b + 3 * c + 2 * d + 1 * e) / (1 + 2 + 3 + 2 + 1))) := by
  unfold triangleSmooth
  simp only []
  have hs := outSize w old
  generalize (if w.length ≠ old.length then resize old w.length else old) = s0 at hs ⊢
  rw [if_pos (show w.length > 4 from hn), if_neg (show ¬ 2 + lowest > w.length by omega)]
  obtain ⟨s, h1, h2, h3⟩ := triLoop_spec w (w.length - 3) (w.length - 3 - (1 + lowest)) (w.length + 1) (1 + lowest) (2 + lowest)
    (copy w (w.length - 2) w.length (w.length - 2) (copy w 0 (2 + lowest) 0 s0)) (by omega) (by omega)
  rw [copy_length, copy_length] at h2 h3
  refine ⟨s, h1, by omega, ?_, ?_⟩
  · intro i hi hc
    rw [some_at hi, some_at (by omega), h3 i (by omega)]
    rw [if_neg (by omega), at_copy _ _ _ _ _ _ (by rw [copy_length]; omega)]
    by_cases hc2 : w.length - 2 ≤ i
    · rw [if_pos (by omega), show w.length - 2 + (i - (w.length - 2)) = i by omega]
    · rw [if_neg (by omega), at_copy _ _ _ _ _ _ (by omega), if_pos (by omega)]
      simp
  · intro i a b c d e hi ha hb hc hd he
    have hi2 : i + 2 < w.length := (List.getElem?_eq_some_iff.1 he).1
    rw [some_at (show i < s.length by omega), h3 i (by omega), if_pos (by omega),
      show 1 + lowest + 1 + (i - (2 + lowest)) = i by omega]
    unfold tri
    rw [at_some ha, at_some hb, at_some hc, at_some hd, at_some he]
    congr 1
    ring

/-- C37: up to four samples are copied. -/
theorem C37_triangle_short (w old : List ℚ) (lowest : Nat) (hn : w.length ≤ 4) : triangleSmooth w old lowest = .ok w := by
  unfold triangleSmooth
  simp only []
  have hs := outSize w old
  generalize (if w.length ≠ old.length then resize old w.length else old) = s0 at hs ⊢
  rw [if_neg (by omega)]
  congr 1
  apply List.ext_getElem?
  intro k
  by_cases hk : k < w.length
  · rw [some_at hk, some_at (by rw [copy_length]; omega), at_copy _ _ _ _ _ _ (by omega), if_pos (by omega)]
    simp
  · rw [List.getElem?_eq_none (show w.length ≤ k by omega), List.getElem?_eq_none (by rw [copy_length]; omega)]

/-- C37: the smoothed waveform stays within any bounds of the input. -/
theorem C37_triangle_range (w old s : List ℚ) (lowest : Nat) (hn : 4 < w.length) (hl : lowest + 4 ≤ w.length)
    (h : triangleSmooth w old lowest = .ok s) (lo hi : ℚ) (hw : ∀ v ∈ w, lo ≤ v ∧ v ≤ hi) : ∀ v ∈ s, lo ≤ v ∧ v ≤ hi := by
  obtain ⟨s', h', hlen, h1, h2⟩ := C37_triangle w old lowest hn hl
  rw [h] at h'
  cases h'
  intro v hv
  obtain ⟨i, hi1, hiv⟩ := List.getElem_of_mem hv
  have hsv : s[i]? = some v := by rw [List.getElem?_eq_getElem hi1, hiv]
  have hmem : ∀ k, k < w.length → lo ≤ at' w k ∧ at' w k ≤ hi := by
    intro k hk
    apply hw
    have := some_at hk
    exact List.mem_of_getElem? this
  by_cases hc : i < 2 + lowest ∨ w.length ≤ i + 2
  · rw [h1 i (by omega) hc, some_at (by omega)] at hsv
    injection hsv with hsv
    rw [← hsv]; exact hmem i (by omega)
  · have := h2 i _ _ _ _ _ (by omega) (some_at (by omega)) (some_at (by omega)) (some_at (by omega)) (some_at (by omega))
      (some_at (by omega))
    rw [this] at hsv
    injection hsv with hsv
    rw [← hsv]
    have a := hmem (i - 2) (by omega)
    have b := hmem (i - 1) (by omega)
    have c := hmem i (by omega)
    have d := hmem (i + 1) (by omega)
    have e := hmem (i + 2) (by omega)
    constructor
    · rw [le_div_iff₀ (by norm_num)]; linarith [a.1, b.1, c.1, d.1, e.1]
    · rw [div_le_iff₀ (by norm_num)]; linarith [a.2, b.2, c.2, d.2, e.2]

/-- C37: constant waveforms are unchanged. -/
theorem C37_triangle_constant (x : ℚ) (n : Nat) (old : List ℚ) (lowest : Nat) (hl : lowest + 4 ≤ n) :
    triangleSmooth (List.replicate n x) old lowest = .ok (List.replicate n x) := by
  by_cases hn : 4 < n
  · obtain ⟨s, h1, hlen, _⟩ := C37_triangle (List.replicate n x) old lowest (by simpa) (by simpa)
    have := C37_triangle_range _ _ _ _ (by simpa) (by simpa) h1 x x (fun v hv => by
      rw [List.eq_of_mem_replicate hv]; exact ⟨le_refl _, le_refl _⟩)
    rw [h1]
    congr 1
    rw [List.eq_replicate_iff]
    exact ⟨by simpa using hlen, fun b hb => le_antisymm (this b hb).2 (this b hb).1⟩
  · exact C37_triangle_short _ _ _ (by simp; omega)

/-- C37, the excluded case: more unsmoothed bins than fit and the loop runs off the vectors. -/
theorem C37_triangle_no_room (w old : List ℚ) (lowest : Nat) (hn : 4 < w.length) (hl : w.length < lowest + 4) :
    triangleSmooth w old lowest = .ub := by
  unfold triangleSmooth
  simp only []
  rw [if_pos (show w.length > 4 from hn)]
  by_cases h : 2 + lowest > w.length
  · rw [if_pos h]
  · rw [if_neg h]
    unfold triLoop
    rw [if_neg (by omega), if_pos (by omega)]

example : triangleSmooth [0, 0, 9, 0, 0, 9] [7] 0 = .ok [0, 0, 3, 3, 0, 9] := by decide +kernel
example : triangleSmooth [0, 0, 9, 0, 0, 9] [] 2 = .ok [0, 0, 9, 0, 0, 9] ∧ triangleSmooth [0, 0, 9, 0, 0, 9] [] 3 = .ub := by
  decide +kernel

/-! ## Median -/

/-- `v` is a median of `l`: one of its elements, with at most half of the elements below and at most half above it -/
def IsMedian (l : List ℚ) (v : ℚ) : Prop :=
  v ∈ l ∧ 2 * l.countP (fun x => decide (x < v)) ≤ l.length ∧ 2 * l.countP (fun x => decide (v < x)) ≤ l.length

theorem sorted_perm (l : List ℚ) : (sorted l).Perm l := List.perm_insertionSort _ _

theorem sorted_pairwise (l : List ℚ) : (sorted l).Pairwise (· ≤ ·) := by
  exact List.pairwise_insertionSort _ l

theorem sorted_median (l : List ℚ) (m : Nat) (h : l.length = 2 * m + 1) : IsMedian l ((sorted l).getD m 0) := by
  have hl : (sorted l).length = 2 * m + 1 := by rw [(sorted_perm l).length_eq, h]
  have hm : m < (sorted l).length := by omega
  have hv : (sorted l).getD m 0 = (sorted l)[m] := by simp [List.getD_eq_getElem?_getD, List.getElem?_eq_getElem hm]
  rw [hv]
  have hp := sorted_pairwise l
  have split : sorted l = (sorted l).take m ++ (sorted l)[m] :: (sorted l).drop (m + 1) := by
    rw [← List.drop_eq_getElem_cons hm, List.take_append_drop]
  generalize (sorted l)[m] = v at split ⊢
  rw [split] at hp
  rw [List.pairwise_append] at hp
  obtain ⟨_, h2, h3⟩ := hp
  rw [List.pairwise_cons] at h2
  have hperm := sorted_perm l
  rw [split] at hperm
  refine ⟨hperm.mem_iff.1 (by simp), ?_, ?_⟩
  · rw [← hperm.countP_eq, List.countP_append, List.countP_cons]
    have : ((sorted l).drop (m + 1)).countP (fun x => decide (x < v)) = 0 := by
      rw [List.countP_eq_zero]; intro x hx; simpa using h2.1 x hx
    rw [this]
    have := List.countP_le_length (p := fun x => decide (x < v)) (l := (sorted l).take m)
    simp at this ⊢; omega
  · rw [← hperm.countP_eq, List.countP_append, List.countP_cons]
    have : ((sorted l).take m).countP (fun x => decide (v < x)) = 0 := by
      rw [List.countP_eq_zero]; intro x hx; simpa using h3 x hx v (by simp)
    rw [this]
    have := List.countP_le_length (p := fun x => decide (v < x)) (l := (sorted l).drop (m + 1))
    simp at this ⊢; omega

theorem medLoop_spec (w : List ℚ) (nb : Nat) (cnt : Nat) : ∀ start s,
    (medLoop w nb cnt start s).length = s.length ∧
    ∀ k, k < s.length → at' (medLoop w nb cnt start s) k =
      if start + nb / 2 ≤ k ∧ k < start + nb / 2 + cnt then (sorted ((w.drop (k - nb / 2)).take nb)).getD (nb / 2) 0 else at' s k := by
  induction cnt with
  | zero => intro start s; exact ⟨rfl, fun k hk => by rw [if_neg (by omega)]; rfl⟩
  | succ cnt ih =>
    intro start s
    unfold medLoop
    obtain ⟨h1, h2⟩ := ih (start + 1) (s.set (start + nb / 2) ((sorted ((w.drop start).take nb)).getD (nb / 2) 0))
    refine ⟨by simpa using h1, fun k hk => ?_⟩
    rw [h2 k (by simpa using hk), at_set _ _ _ _ hk]
    by_cases hks : k = start + nb / 2
    · rw [if_neg (by omega), if_pos hks, if_pos (by omega), show k - nb / 2 = start by omega]
    · rw [if_neg hks]
      by_cases hc : start + 1 + nb / 2 ≤ k ∧ k < start + 1 + nb / 2 + cnt
      · rw [if_pos hc, if_pos (by omega)]
      · rw [if_neg hc, if_neg (by omega)]

/-- the window actually used: `nBins`, or one more if it is even -/
def oddWindow (nBins : Nat) : Nat := 2 * (nBins / 2) + 1

/-- C37 (part): every tick with a full window around it, except the last such tick, becomes a median of that window; the others
keep the input. Missing: the last tick with a full window (see `C37_last_window_skipped`). -/
theorem C37_median_partial (w old : List ℚ) (nBins : Nat) (hn : oddWindow nBins ≤ w.length) :
    ∃ s, medianSmooth w old nBins = .ok s ∧ s.length = w.length ∧
      (∀ i v, nBins / 2 ≤ i → i + nBins / 2 + 1 < w.length → s[i]? = some v →
        IsMedian ((w.drop (i - nBins / 2)).take (oddWindow nBins)) v) ∧
      (∀ i, (i < nBins / 2 ∨ w.length ≤ i + nBins / 2 + 1) → s[i]? = w[i]?) := by
  unfold medianSmooth
  simp only []
  have hs := outSize w old
  generalize (if w.length ≠ old.length then resize old w.length else old) = s0 at hs ⊢
  have hnb : (if nBins % 2 = 0 then nBins + 1 else nBins) = oddWindow nBins := by
    unfold oddWindow; split <;> omega
  rw [hnb, if_neg (by omega)]
  have hh : oddWindow nBins / 2 = nBins / 2 := by unfold oddWindow; omega
  rw [hh]
  obtain ⟨m1, m2⟩ := medLoop_spec w (oddWindow nBins) (w.length - oddWindow nBins) 0 (copy w 0 (nBins / 2) 0 s0)
  rw [hh, copy_length] at m2
  rw [copy_length] at m1
  have hb : oddWindow nBins = 2 * (nBins / 2) + 1 := rfl
  refine ⟨_, rfl, by rw [copy_length, m1, hs], ?_, ?_⟩
  · intro i v h1 h2 hv
    have hval := at_some hv
    rw [at_copy _ _ _ _ _ _ (by omega), if_neg (by omega), m2 i (by omega), if_pos (by omega)] at hval
    rw [← hval]
    refine sorted_median _ _ ?_
    rw [List.length_take, List.length_drop]
    omega
  · intro i hi
    by_cases hiw : i < w.length
    · rw [some_at hiw, some_at (by rw [copy_length, m1]; omega), at_copy _ _ _ _ _ _ (by omega)]
      by_cases hc : w.length ≤ i + nBins / 2 + 1
      · rw [if_pos (by omega), show w.length - oddWindow nBins + nBins / 2 +
          (i - (w.length - oddWindow nBins + nBins / 2)) = i by omega]
      · rw [if_neg (by omega), m2 i (by omega), if_neg (by omega), at_copy _ _ _ _ _ _ (by omega), if_pos (by omega)]
        simp
    · rw [List.getElem?_eq_none (show w.length ≤ i by omega), List.getElem?_eq_none (by rw [copy_length, m1]; omega)]

/-- C37, refuted: the last tick with a full window is not smoothed; a spike in the middle of three samples survives, although
9 is not a median of 0, 9, 0. -/
theorem C37_last_window_skipped : medianSmooth [0, 9, 0] [] 3 = .ok [0, 9, 0] ∧ ¬ IsMedian [0, 9, 0] 9 := by
  refine ⟨by decide +kernel, ?_⟩
  unfold IsMedian
  decide +kernel

/-- C37, the excluded case: a waveform shorter than the window moves an iterator before its beginning. -/
theorem C37_median_short (w old : List ℚ) (nBins : Nat) (hn : w.length < oddWindow nBins) : medianSmooth w old nBins = .ub := by
  unfold medianSmooth
  simp only []
  have hnb : (if nBins % 2 = 0 then nBins + 1 else nBins) = oddWindow nBins := by
    unfold oddWindow; split <;> omega
  rw [hnb, if_pos hn]

example : medianSmooth [5, 1, 4, 2, 8, 3] [] 2 = .ok [5, 4, 2, 4, 8, 3] := by decide +kernel
example : oddWindow 2 ≤ [(5 : ℚ), 1, 4, 2, 8, 3].length := by decide
example : medianSmooth [1, 2] [] 3 = .ub := by decide +kernel

/-! ## Derivative -/

theorem derivLoop_spec (w : List ℚ) (cnt : Nat) : ∀ idx s, (derivLoop w cnt idx s).length = s.length ∧
    ∀ k, k < s.length → at' (derivLoop w cnt idx s) k =
      if idx ≤ k ∧ k < idx + cnt then 1 / 2 * (at' w (k + 1) - at' w (k - 1)) else at' s k := by
  induction cnt with
  | zero => intro idx s; exact ⟨rfl, fun k hk => by rw [if_neg (by omega)]; rfl⟩
  | succ cnt ih =>
    intro idx s
    unfold derivLoop
    obtain ⟨h1, h2⟩ := ih (idx + 1) (s.set idx (1 / 2 * (at' w (idx + 1) - at' w (idx - 1))))
    refine ⟨by simpa using h1, fun k hk => ?_⟩
    rw [h2 k (by simpa using hk), at_set _ _ _ _ hk]
    by_cases hks : k = idx
    · rw [if_neg (by omega), if_pos hks, if_pos (by omega), hks]
    · rw [if_neg hks]
      by_cases hc : idx + 1 ≤ k ∧ k < idx + 1 + cnt
      · rw [if_pos hc, if_pos (by omega)]
      · rw [if_neg hc, if_neg (by omega)]

/-- C66 (part): on a non-empty waveform `firstDerivative` has the right length and gives every inner tick half the difference of
its neighbours. Missing: the end points, which keep the old content of the output vector (`C66_stale_ends`). -/
theorem C66_derivative_partial (w old : List ℚ) (hw : w ≠ []) :
    ∃ s, firstDerivative w old = .ok s ∧ s.length = w.length ∧
      (∀ i a b, 0 < i → w[i - 1]? = some a → w[i + 1]? = some b → s[i]? = some ((b - a) / 2)) ∧
      (∀ i, i < w.length → (i = 0 ∨ i + 1 = w.length) → s[i]? = some (old.getD i 0)) := by
  have hn : 0 < w.length := List.length_pos_iff.2 hw
  unfold firstDerivative
  rw [if_neg (by omega)]
  obtain ⟨h1, h2⟩ := derivLoop_spec w (w.length - 2) 1 (resize old w.length)
  rw [resize_length] at h1 h2
  refine ⟨_, rfl, h1, ?_, ?_⟩
  · intro i a b hi ha hb
    have hib : i + 1 < w.length := (List.getElem?_eq_some_iff.1 hb).1
    rw [some_at (by omega), h2 i (by omega), if_pos (by omega), at_some ha, at_some hb]
    congr 1; ring
  · intro i hi hc
    rw [some_at (by omega), h2 i hi, if_neg (by omega), at_resize _ _ _ hi]
    rfl

/-- C66: a fresh output vector gets zeros at both ends. -/
theorem C66_fresh_output (w s : List ℚ) (hw : w ≠ []) (h : firstDerivative w [] = .ok s) :
    s[0]? = some 0 ∧ s[w.length - 1]? = some 0 := by
  have hn : 0 < w.length := List.length_pos_iff.2 hw
  obtain ⟨s', h', _, _, h3⟩ := C66_derivative_partial w [] hw
  rw [h] at h'; cases h'
  exact ⟨by simpa using h3 0 hn (Or.inl rfl), by simpa using h3 (w.length - 1) (by omega) (Or.inr (by omega))⟩

/-- C66, refuted: the end points depend on what the output vector held before. -/
theorem C66_stale_ends : firstDerivative [1, 2, 3] [9, 9, 9] = .ok [9, 1, 9] ∧ firstDerivative [1, 2, 3] [] = .ok [0, 1, 0] := by
  decide +kernel

/-- C66, the excluded case: an empty waveform throws `std::out_of_range`. -/
theorem C66_empty_throws (old : List ℚ) : firstDerivative [] old = .throw := rfl

end Verif.Wave

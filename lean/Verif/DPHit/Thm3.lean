import Verif.DPHit.Thm2

/-!
# Theorems about the hit finder of the dual phase detector: hits, cuts, fit function, averages
-/

namespace Verif.DPHit

/-! ## C355: groups that are not fitted -/

/-- The intervals divide the ticks from `a` to `b`: none is empty, each begins after the end of the one before, the first at `a`, the last ends at `b`. -/
inductive Divides : Int → Int → List (Int × Int) → Prop
  | one (a b : Int) (h : a ≤ b) : Divides a b [(a, b)]
  | cons (a m b : Int) (l : List (Int × Int)) (h : a ≤ m) (hl : Divides (m + 1) b l) : Divides a b ((a, m) :: l)

theorem longLoop_divides (w endT : Int) (hw : 0 < w) (k : Nat) (first : Int) (h3 : (k : Int) * w < endT - first + 1) :
    Divides first (min endT (first + (k + 1 : Nat) * w - 1)) (longLoop w endT (k + 1) first (min endT (first + w - 1))) := by
  induction k generalizing first with
  | zero =>
    simp only [Nat.cast_zero, zero_mul] at h3
    unfold longLoop
    unfold longLoop
    simp only [Nat.zero_add, Nat.cast_one, one_mul]
    exact Divides.one _ _ (by omega)
  | succ k ih =>
    have hkw : 0 ≤ (k : Int) * w := mul_nonneg (by omega) hw.le
    have e3 : ((k + 1 : Nat) : Int) * w = k * w + w := by push_cast; ring
    rw [e3] at h3
    have e : min endT (first + w - 1) = first + w - 1 := by
      apply min_eq_right
      omega
    unfold longLoop
    rw [e]
    refine Divides.cons _ _ _ _ (by omega) ?_
    rw [min_comm (first + w - 1 + 1 + w - 1)]
    have := ih (first + w - 1 + 1) (by omega)
    have e4 : first + w - 1 + 1 + ((k + 1 : Nat) : Int) * w - 1 = first + ((k + 1 + 1 : Nat) : Int) * w - 1 := by push_cast; ring
    rw [e4] at this
    exact this

theorem longPlan_spec (width maxHits len : Int) (hw : 0 < width) (hm : 0 < maxHits) (hl : 0 < len) :
    0 < (longPlan width maxHits len).2 ∧ 0 < (longPlan width maxHits len).1 ∧ (longPlan width maxHits len).1 ≤ maxHits + 1 ∧
    ((longPlan width maxHits len).1 - 1) * (longPlan width maxHits len).2 < len ∧
    ((len / width ≤ maxHits ∨ len ≤ (maxHits + 1) * (len / maxHits)) → len ≤ (longPlan width maxHits len).1 * (longPlan width maxHits len).2) := by
  have hdiv := Int.mul_ediv_add_emod len width
  have hmod := Int.emod_nonneg len (ne_of_gt hw)
  have hmod2 := Int.emod_lt_of_pos len hw
  unfold longPlan
  dsimp only
  by_cases h : len / width > maxHits
  · rw [if_pos h]
    dsimp only
    have hdiv' := Int.mul_ediv_add_emod len maxHits
    have hmod' := Int.emod_nonneg len (ne_of_gt hm)
    have hmod2' := Int.emod_lt_of_pos len hm
    have hgt : maxHits < len := lt_of_lt_of_le h (Int.ediv_le_self _ hl.le)
    have hq : 1 ≤ len / maxHits := by
      by_contra hn
      have : len / maxHits ≤ 0 := by omega
      have h2 : maxHits * (len / maxHits) ≤ 0 := mul_nonpos_of_nonneg_of_nonpos hm.le this
      omega
    generalize len / maxHits = q at *
    by_cases h2 : maxHits * q < len
    · rw [if_pos h2]
      refine ⟨by omega, by omega, by omega, by rw [add_sub_cancel_right]; exact h2, ?_⟩
      rintro (h3 | h3)
      · omega
      · exact h3
    · rw [if_neg h2]
      refine ⟨by omega, hm, by omega, ?_, fun _ => by omega⟩
      have : (maxHits - 1) * q = maxHits * q - q := by ring
      rw [this]; omega
  · rw [if_neg h]
    dsimp only
    have hn : 0 ≤ len / width := Int.ediv_nonneg hl.le hw.le
    generalize len / width = n at *
    have hc : width * n = n * width := mul_comm _ _
    rw [hc] at hdiv
    by_cases h2 : n * width < len
    · rw [if_pos h2]
      refine ⟨hw, by omega, by omega, by rw [add_sub_cancel_right]; exact h2, fun _ => ?_⟩
      have : (n + 1) * width = n * width + width := by ring
      rw [this]; omega
    · rw [if_neg h2]
      have hn0 : n ≠ 0 := by rintro rfl; simp at h2; omega
      refine ⟨hw, by omega, by omega, ?_, fun _ => by omega⟩
      have : (n - 1) * width = n * width - width := by ring
      rw [this]; omega

theorem longLoop_length (w e : Int) (k : Nat) (a b : Int) : (longLoop w e k a b).length = k := by
  induction k generalizing a b with
  | zero => rfl
  | succ k ih => simp [longLoop, ih]

theorem longHits_divides (width maxHits a b : Int) (hw : 0 < width) (hm : 0 < maxHits) (hab : a ≤ b) :
    0 < (longHits width maxHits a b).2 ∧ ((longHits width maxHits a b).1.length : Int) ≤ maxHits + 1 ∧
    (∃ e, e ≤ b ∧ Divides a e (longHits width maxHits a b).1) ∧
    (((b - a + 1) / width ≤ maxHits ∨ b - a + 1 ≤ (maxHits + 1) * ((b - a + 1) / maxHits)) → Divides a b (longHits width maxHits a b).1) := by
  obtain ⟨h1, h2, h3, h4, h5⟩ := longPlan_spec width maxHits (b - a + 1) hw hm (by omega)
  unfold longHits
  dsimp only
  generalize longPlan width maxHits (b - a + 1) = p at *
  obtain ⟨k, hk⟩ : ∃ k : Nat, p.1 = k + 1 := ⟨(p.1 - 1).toNat, by omega⟩
  have ht : p.1.toNat = k + 1 := by omega
  rw [ht]
  have hd := longLoop_divides p.2 b h1 k a (by rw [hk] at h4; simpa using h4)
  refine ⟨h1, by rw [longLoop_length]; push_cast; omega, ⟨_, min_le_left _ _, hd⟩, fun h => ?_⟩
  have h6 := h5 h
  rw [hk] at h6
  have e : min b (a + ((k + 1 : Nat) : Int) * p.2 - 1) = b := by
    apply min_eq_left
    push_cast
    omega
  rw [e] at hd
  exact hd

/-- **C355.** The hits of a group that is not fitted follow each other from the first tick of the group, without gap or overlap, and do not go beyond its end; there
are at most one more than the maximum. They reach the end of the group if its length is at most the maximum times the width, or the remainder fits into one more hit. -/
theorem C355_long_partial (width maxHits a b : Int) (hw : 0 < width) (hm : 0 < maxHits) (hab : a ≤ b) :
    ((longHits width maxHits a b).1.length : Int) ≤ maxHits + 1 ∧ (∃ e, e ≤ b ∧ Divides a e (longHits width maxHits a b).1) ∧
    (((b - a + 1) / width ≤ maxHits ∨ b - a + 1 ≤ (maxHits + 1) * ((b - a + 1) / maxHits)) → Divides a b (longHits width maxHits a b).1) :=
  (longHits_divides width maxHits a b hw hm hab).2

/-- **C355 refuted.** With at most 10 hits of width 1, a group of 19 ticks gives 11 hits, and the last 8 ticks are in none. -/
theorem C355_refuted : (longHits 1 10 0 18).1 = [(0, 0), (1, 1), (2, 2), (3, 3), (4, 4), (5, 5), (6, 6), (7, 7), (8, 8), (9, 9), (10, 10)] := by decide +kernel

/-- **C355 refuted** for the history: a long group changes the width that is used for all later groups and events. A group of 40 ticks gives four hits of 10 ticks, but one hit after
a group of 1000 ticks. -/
theorem C355_history_refuted : (longHits 10 4 0 39).1 = [(0, 9), (10, 19), (20, 29), (30, 39)] ∧ (longHits (longHits 10 4 0 999).2 4 0 39).1 = [(0, 39)] := by
  decide +kernel

example : (longHits 4 5 10 20).1 = [(10, 13), (14, 17), (18, 20)] := by decide +kernel

/-! ## C356: the cut on noise -/

theorem trunc_le (x : ℚ) (h : 0 ≤ x) : (trunc x : ℚ) ≤ x ∧ 0 ≤ trunc x ∧ x < trunc x + 1 := by
  unfold trunc
  rw [if_pos h]
  exact ⟨Int.floor_le x, Int.floor_nonneg.2 h, Int.lt_floor_add_one x⟩

theorem ratSum_succ (s : Int → ℚ) (a : Int) (k : Nat) : ratSum s a (k + 1) = ratSum s a k + s (a + (k : Nat)) := by
  unfold ratSum
  rw [List.range_succ, List.map_append, List.sum_append]
  simp

theorem trunc_int (z : Int) : trunc (z : ℚ) = z := by
  unfold trunc
  split
  · exact Int.floor_intCast z
  · exact Int.ceil_intCast z

/-- **C356.** The sum used for the cut on noise is exact for whole ADC counts; for signals that are not negative it is not larger than the sum of the signal and less than one per tick
below it. -/
theorem C356_sum (s : Int → ℚ) (a : Int) (k : Nat) :
    ((∀ i : Nat, i < k → ∃ z : Int, s (a + i) = z) → (intSum s a k : ℚ) = ratSum s a k) ∧
    ((∀ i : Nat, i < k → 0 ≤ s (a + i)) → 0 ≤ intSum s a k ∧ (intSum s a k : ℚ) ≤ ratSum s a k ∧ ratSum s a k ≤ intSum s a k + k) := by
  constructor
  · induction k with
    | zero => intro _; simp [intSum, ratSum]
    | succ k ih =>
      intro h
      obtain ⟨z, hz⟩ := h k (by omega)
      have e := ih fun i hi => h i (by omega)
      rw [ratSum_succ, ← e]
      rw [show intSum s a (k + 1) = trunc (intSum s a k + s (a + k)) from rfl, hz, ← Int.cast_add, trunc_int]
  · induction k with
    | zero => intro _; simp [intSum, ratSum]
    | succ k ih =>
      intro h
      obtain ⟨h1, h2, h3⟩ := ih fun i hi => h i (by omega)
      have hs := h k (by omega)
      have h1' : (0 : ℚ) ≤ intSum s a k := by exact_mod_cast h1
      rw [ratSum_succ]
      unfold intSum
      obtain ⟨t1, t2, t3⟩ := trunc_le (intSum s a k + s (a + k)) (by linarith)
      push_cast
      exact ⟨t2, by linarith, by linarith⟩

/-- **C356.** A group of whole ADC counts is dropped as noise if and only if it is too short, its sum or its mean is too small. -/
theorem C356_noise_partial (c : PCfg) (s : Int → ℚ) (g : Grp) (hi : ∀ t, ∃ z : Int, s t = z) : noise c s g = true ↔
    g.stop + 1 - g.start < c.minWidth ∨ ratSum s g.start (g.stop + 1 - g.start).toNat < c.minSum ∨
    ratSum s g.start (g.stop + 1 - g.start).toNat / (g.stop + 1 - g.start : Int) < c.minMean := by
  unfold noise
  dsimp only
  rw [decide_eq_true_eq, (C356_sum s g.start _).1 fun i _ => hi _]

/-- **C356 refuted** for signals that are not whole numbers: ten ticks of 9/10 have the sum 9, but 0 is used, and the group is dropped. -/
theorem C356_refuted : noise ⟨1, 5, 0, 3, 100, 3, 3, false, 1, 1⟩ (fun _ => 9/10) ⟨0, 9, [], 0⟩ = true ∧ ratSum (fun _ => 9/10) 0 10 = 9 := by decide +kernel

example : noise ⟨1, 5, 0, 3, 100, 3, 3, false, 1, 1⟩ (fun _ => 2) ⟨0, 9, [], 0⟩ = false := by decide +kernel

/-! ## C357: the function of the fit -/

/-- **C357.** With a common shape the term of each peak uses the amplitude, the time (twice) and the time constants from which its hit is made; with different
shapes this holds for the first peak. -/
theorem C357_terms_partial (i : Nat) :
    terms true i = ((hitParams true i).1, (hitParams true i).2.1, (hitParams true i).2.2.1, (hitParams true i).2.1, (hitParams true i).2.2.2) ∧
    terms false 0 = ((hitParams false 0).1, (hitParams false 0).2.1, (hitParams false 0).2.2.1, (hitParams false 0).2.1, (hitParams false 0).2.2.2) := by
  constructor <;> rfl

/-- **C357 refuted** for different shapes: in every further peak the denominator uses a parameter of another meaning or of another peak as its time (for the second
peak its own second time constant). -/
theorem C357_refuted : (∀ i, 0 < i → (terms false i).2.2.2.1 ≠ (hitParams false i).2.1) ∧ (terms false 1).2.2.2.1 = (hitParams false 1).2.2.2 := by
  refine ⟨fun i hi => ?_, rfl⟩
  unfold terms hitParams
  simp only [Bool.false_eq_true, if_false]
  omega

/-- **C357.** Different peaks are fitted with different amplitudes and times, and none of them is a time constant. -/
theorem C357_distinct (same : Bool) (i j : Nat) (h : i ≠ j) :
    (hitParams same i).1 ≠ (hitParams same j).1 ∧ (hitParams same i).2.1 ≠ (hitParams same j).2.1 ∧ (hitParams same i).1 ≠ (hitParams same j).2.1 ∧
    (hitParams same i).1 ≠ (hitParams same j).2.2.1 ∧ (hitParams same i).1 ≠ (hitParams same j).2.2.2 ∧
    (hitParams same i).2.1 ≠ (hitParams same j).2.2.1 ∧ (hitParams same i).2.1 ≠ (hitParams same j).2.2.2 := by
  unfold hitParams
  cases same
  · simp only [Bool.false_eq_true, if_false]
    refine ⟨?_, ?_, ?_, ?_, ?_, ?_, ?_⟩ <;> omega
  · simp only [if_true]
    refine ⟨?_, ?_, ?_, ?_, ?_, ?_, ?_⟩ <;> omega

example : terms true 1 = (4, 5, 0, 5, 1) ∧ terms false 1 = (6, 7, 4, 5, 5) := by decide

/-! ## C358: seeds and limits of the times -/

/-- **C358.** For peaks in order, the seed of each time is within its limits, and the upper limit of a time is at most the lower limit of the next one: the fitted times stay
in order. -/
theorem C358_limits (range : ℚ) (hr : 0 ≤ range) (l : List Pk) (h : Tiles l) (i : Nat) (lo seed hi : ℚ) (hl : timeLimits range l i = some (lo, seed, hi)) :
    lo ≤ seed ∧ seed ≤ hi ∧ ∀ lo' seed' hi', timeLimits range l (i + 1) = some (lo', seed', hi') → hi ≤ lo' := by
  have mono : ∀ (a b : Nat) (p q : Pk), a < b → l[a]? = some p → l[b]? = some q → p.max ≤ q.max := by
    intro a b p q hab ha hb
    have hlb : b < l.length := by
      by_contra hn; rw [List.getElem?_eq_none (by omega)] at hb; cases hb
    have hla : a < l.length := by omega
    rw [List.getElem?_eq_getElem hla] at ha
    rw [List.getElem?_eq_getElem hlb] at hb
    have := List.pairwise_iff_getElem.1 h.order a b hla hlb hab
    cases ha; cases hb
    have h1 := h.inside _ (List.getElem_mem hla)
    have h2 := h.inside _ (List.getElem_mem hlb)
    omega
  cases hp : l[i]? with
  | none => unfold timeLimits at hl; rw [hp] at hl; cases hl
  | some p =>
    have hin := h.inside p (List.mem_of_getElem? hp)
    have hin1 : (p.start : ℚ) ≤ p.max := by exact_mod_cast hin.1
    have hin2 : (p.max : ℚ) ≤ p.stop := by exact_mod_cast hin.2
    unfold timeLimits at hl
    rw [hp] at hl
    dsimp only at hl
    cases hl
    refine ⟨?_, ?_, ?_⟩
    · have base : max ((p.start : ℚ) - 2) (p.max - 2 - range) ≤ p.max - 2 := max_le (by linarith) (by linarith)
      cases i with
      | zero => exact base
      | succ j =>
        dsimp only
        cases hq : l[j]? with
        | none => exact base
        | some q =>
          have hm := mono j (j + 1) q p (by omega) hq hp
          have hm' : (q.max : ℚ) ≤ p.max := by exact_mod_cast hm
          exact max_le base (by linarith)
    · have base : (p.max : ℚ) - 2 ≤ min (p.stop : ℚ) (p.max - 2 + range) := le_min (by linarith) (by linarith)
      cases hq : l[i + 1]? with
      | none => exact base
      | some q =>
        have hm := mono i (i + 1) p q (by omega) hp hq
        have hm' : (p.max : ℚ) ≤ q.max := by exact_mod_cast hm
        exact le_min base (by linarith)
    · intro lo' seed' hi' hl'
      cases hq : l[i + 1]? with
      | none => unfold timeLimits at hl'; rw [hq] at hl'; cases hl'
      | some q =>
        unfold timeLimits at hl'
        rw [hq] at hl'
        dsimp only at hl'
        rw [hp] at hl'
        dsimp only at hl'
        cases hl'
        apply le_trans (min_le_right _ _)
        apply le_trans _ (le_max_right _ _)
        linarith

example : timeLimits 10 [⟨5, 0, 2, 9⟩, ⟨12, 0, 10, 20⟩] 0 = some (0, 3, 13/2) ∧ timeLimits 10 [⟨5, 0, 2, 9⟩, ⟨12, 0, 10, 20⟩] 1 = some (8, 10, 20) := by
  decide +kernel

/-! ## C359: averages -/

theorem ratSum_split (s : Int → ℚ) (a : Int) (j k : Nat) : ratSum s a (j + k) = ratSum s a j + ratSum s (a + j) k := by
  induction k with
  | zero => simp [ratSum]
  | succ k ih =>
    rw [← Nat.add_assoc, ratSum_succ, ih, ratSum_succ]
    push_cast
    rw [add_assoc, ← Int.add_assoc]

/-- The running sum at `k` is over the ticks from `k - h + 1` to `k + h` of the region. -/
theorem avRun_eq (s : Int → ℚ) (n h : Nat) (h1 : 1 ≤ h) (hn : h ≤ n) (k : Nat) (hk : k < n) :
    avRun s n h k = ratSum s ((k + 1 - h : Nat) : Int) (min (k + h + 1) n - (k + 1 - h)) := by
  have enter : ∀ (k lo : Nat), k < n → lo ≤ k → (if n - k > h then ratSum s (lo : Int) (min (k + h) n - lo) + s ((k : Int) + h) else ratSum s (lo : Int) (min (k + h) n - lo)) =
      ratSum s (lo : Int) (min (k + h + 1) n - lo) := by
    intro k lo hk hlo
    by_cases hs : n - k > h
    · rw [if_pos hs]
      have e : min (k + h + 1) n - lo = (min (k + h) n - lo) + 1 := by omega
      rw [e, ratSum_succ]
      congr 2
      omega
    · rw [if_neg hs]
      congr 1
      omega
  induction k with
  | zero =>
    unfold avRun avStep
    dsimp only
    rw [if_neg (show ¬ 0 ≥ h by omega)]
    have := enter 0 0 hk (le_refl _)
    have e1 : 0 + 1 - h = 0 := by omega
    have e2 : min (0 + h) n - 0 = h := by omega
    rw [e2] at this
    rw [e1]
    exact this
  | succ k ih =>
    have ih := ih (by omega)
    unfold avRun avStep
    dsimp only
    rw [ih]
    have leave : (if k + 1 ≥ h then ratSum s ((k + 1 - h : Nat) : Int) (min (k + h + 1) n - (k + 1 - h)) - s (((k + 1 : Nat) : Int) - h)
        else ratSum s ((k + 1 - h : Nat) : Int) (min (k + h + 1) n - (k + 1 - h))) =
        ratSum s ((k + 2 - h : Nat) : Int) (min (k + 1 + h) n - (k + 2 - h)) := by
      by_cases hh : k + 1 ≥ h
      · rw [if_pos hh]
        have e1 : min (k + h + 1) n - (k + 1 - h) = 1 + (min (k + 1 + h) n - (k + 2 - h)) := by omega
        rw [e1, ratSum_split]
        have e2 : ((k + 1 - h : Nat) : Int) + (1 : Nat) = ((k + 2 - h : Nat) : Int) := by omega
        rw [e2]
        have e3 : ratSum s ((k + 1 - h : Nat) : Int) 1 = s (((k + 1 : Nat) : Int) - h) := by
          unfold ratSum
          simp
          congr 1
          omega
        rw [e3]; ring
      · rw [if_neg hh]
        have e1 : k + 1 - h = 0 := by omega
        have e2 : k + 2 - h = 0 := by omega
        rw [e1, e2]
        congr 1
        omega
    rw [leave]
    exact enter (k + 1) (k + 2 - h) hk (by omega)

/-- **C359.** In a region of at least as many ticks as are averaged, the average at tick `k` is the mean of the ticks of the region after `k - h` up to `k + h`, where `h` is
half the number of ticks to average. -/
theorem C359_average_partial (s : Int → ℚ) (n bins : Nat) (hb : 2 ≤ bins) (hn : bins ≤ n) (k : Nat) (hk : k < n) :
    average s n bins k = ratSum s ((k + 1 - bins / 2 : Nat) : Int) (min (k + bins / 2 + 1) n - (k + 1 - bins / 2)) /
      ((min (k + bins / 2 + 1) n - (k + 1 - bins / 2) : Nat) : ℚ) := by
  unfold average
  dsimp only
  rw [avRun_eq s n (bins / 2) (by omega) (by omega) k hk]
  have : (avStep s n (bins / 2) k 0).2 = min (k + bins / 2 + 1) n - (k + 1 - bins / 2) := by
    unfold avStep
    dsimp only
    omega
  rw [this]

/-- **C359.** The average of a constant signal is that constant. -/
theorem C359_constant_partial (c : ℚ) (n bins : Nat) (hb : 2 ≤ bins) (hn : bins ≤ n) (k : Nat) (hk : k < n) : average (fun _ => c) n bins k = c := by
  rw [C359_average_partial _ n bins hb hn k hk]
  have hpos : 0 < min (k + bins / 2 + 1) n - (k + 1 - bins / 2) := by omega
  generalize min (k + bins / 2 + 1) n - (k + 1 - bins / 2) = m at *
  have : ratSum (fun _ => c) ((k + 1 - bins / 2 : Nat) : Int) m = m * c := by
    unfold ratSum
    simp
  rw [this]
  have hm : (m : ℚ) ≠ 0 := by exact_mod_cast hpos.ne'
  field_simp

/-- **C359 refuted** for short regions: three ticks of 1 have the average 3/4 over six ticks. -/
theorem C359_refuted : average (fun _ => 1) 3 6 0 = 3 / 4 := by decide +kernel

example : average (sig [1, 2, 3, 4, 5, 6]) 6 4 2 = 7 / 2 ∧ average (sig [1, 2, 3, 4, 5, 6]) 6 4 5 = 11 / 2 := by decide +kernel

/-! ## C360: the hits of a region -/

/-- What `produce` needs of the groups: in order, apart, not empty, with peaks in order. -/
structure GroupsOk (l : List Grp) : Prop where
  order : l.Pairwise fun g h => g.stop < h.start
  ok : ∀ g ∈ l, g.start ≤ g.stop ∧ Tiles g.peaks ∧ ∀ p ∈ g.peaks, g.start ≤ p.start ∧ p.stop ≤ g.stop

theorem divides_spec (a b : Int) (l : List (Int × Int)) (h : Divides a b l) :
    (l.Pairwise fun p q => p.2 < q.1) ∧ (∀ p ∈ l, a ≤ p.1 ∧ p.1 ≤ p.2 ∧ p.2 ≤ b) := by
  induction h with
  | one a b h => exact ⟨by simp, by simp [h]⟩
  | cons a m b l h hl ih =>
    refine ⟨List.pairwise_cons.2 ⟨fun q hq => ?_, ih.1⟩, ?_⟩
    · have := (ih.2 q hq).1; dsimp only; omega
    · intro p hp
      rcases List.mem_cons.1 hp with rfl | hp
      · refine ⟨le_refl _, h, ?_⟩
        cases hl with
        | one => dsimp only; omega
        | cons _ m' _ l' h' hl' =>
          have := (ih.2 (m + 1, m') List.mem_cons_self)
          dsimp only at this ⊢; omega
      · have := ih.2 p hp; omega

/-- The hits of a list of intervals: in order, apart, within the limits; multiplicity and number as required. -/
def HitsOk (s : Int → ℚ) (a b : Int) (l : List Hit) : Prop :=
  (l.Pairwise fun p q => p.stop < q.start) ∧ (∀ p ∈ l, a ≤ p.start ∧ p.start ≤ p.stop ∧ p.stop ≤ b ∧ p.idx < p.mult ∧
    p.sumADC = ratSum s p.start (p.stop + 1 - p.start).toNat)

theorem number_ok (s : Int → ℚ) (a b : Int) (l : List (Int × Int)) (h1 : l.Pairwise fun p q => p.2 < q.1) (h2 : ∀ p ∈ l, a ≤ p.1 ∧ p.1 ≤ p.2 ∧ p.2 ≤ b) :
    HitsOk s a b (number s l) ∧ (∀ h ∈ number s l, h.mult = (number s l).length) ∧ (number s l).map Hit.idx = List.range (number s l).length := by
  have hlen : (number s l).length = l.length := by unfold number; simp
  refine ⟨⟨?_, ?_⟩, ?_, ?_⟩
  · rw [List.pairwise_iff_getElem] at h1 ⊢
    intro i j hi hj hij
    have := h1 i j (by omega) (by omega) hij
    simp only [number, List.getElem_mapIdx]
    exact this
  · intro p hp
    unfold number at hp
    obtain ⟨i, hi, rfl⟩ := List.mem_mapIdx.1 hp
    have := h2 _ (List.getElem_mem hi)
    exact ⟨this.1, this.2.1, this.2.2, hi, rfl⟩
  · intro h hh
    rw [hlen]
    unfold number at hh
    obtain ⟨i, hi, rfl⟩ := List.mem_mapIdx.1 hh
    rfl
  · apply List.ext_getElem
    · simp
    · intro i h1 h2
      simp [number]

theorem groupHits_ok (c : PCfg) (hm : 0 < c.maxHits) (fit : List Pk → Fit) (ok : List Pk → Bool) (s : Int → ℚ) (width : Int) (hw : 0 < width) (g : Grp)
    (hg : g.start ≤ g.stop ∧ Tiles g.peaks ∧ ∀ p ∈ g.peaks, g.start ≤ p.start ∧ p.stop ≤ g.stop) :
    0 < (groupHits c fit ok s width g).2 ∧ HitsOk s g.start g.stop (groupHits c fit ok s width g).1 ∧
    (∀ h ∈ (groupHits c fit ok s width g).1, h.mult = (groupHits c fit ok s width g).1.length) ∧
    (groupHits c fit ok s width g).1.map Hit.idx = List.range (groupHits c fit ok s width g).1.length := by
  have nil : HitsOk s g.start g.stop [] ∧ (∀ h ∈ ([] : List Hit), h.mult = ([] : List Hit).length) ∧ ([] : List Hit).map Hit.idx = List.range ([] : List Hit).length :=
    ⟨⟨List.Pairwise.nil, by simp⟩, by simp, rfl⟩
  have tiles : ∀ l, Tiles l → (∀ t, Covered l t → Covered g.peaks t) → HitsOk s g.start g.stop (number s (l.map fun p => (p.start, p.stop))) ∧
      (∀ h ∈ number s (l.map fun p => (p.start, p.stop)), h.mult = (number s (l.map fun p => (p.start, p.stop))).length) ∧
      (number s (l.map fun p => (p.start, p.stop))).map Hit.idx = List.range (number s (l.map fun p => (p.start, p.stop))).length := by
    intro l hl hc
    apply number_ok
    · rw [List.pairwise_map]; exact hl.order
    · intro q hq
      obtain ⟨p, hp, rfl⟩ := List.mem_map.1 hq
      have hi := hl.inside p hp
      obtain ⟨u, hu, u1, _⟩ := hc p.start ⟨p, hp, le_refl _, by omega⟩
      obtain ⟨v, hv, _, v2⟩ := hc p.stop ⟨p, hp, by omega, le_refl _⟩
      have := hg.2.2 u hu
      have := hg.2.2 v hv
      dsimp only
      omega
  unfold groupHits
  split
  · exact ⟨hw, nil⟩
  · split
    · split
      · dsimp only
        refine ⟨hw, ?_⟩
        split
        · have hr := C354_refit fit c.retry c.factor g.peaks hg.2.1
          dsimp only at hr
          exact tiles _ hr.1 fun t => (hr.2.1 t).1
        · exact tiles _ hg.2.1 fun t h => h
      · exact ⟨hw, nil⟩
    · obtain ⟨h1, h2, ⟨e, he, h3⟩, h4⟩ := longHits_divides width c.maxHits g.start g.stop hw hm hg.1
      dsimp only
      refine ⟨h1, ?_⟩
      obtain ⟨d1, d2⟩ := divides_spec _ _ _ h3
      exact number_ok s g.start g.stop _ d1 fun p hp => by have := d2 p hp; omega

/-- **C360.** The hits of a region of interest are in order and do not overlap, none is empty, each is within a group; its summed ADC is the sum of the signal over
its ticks, and its number in the group is less than its multiplicity. -/
theorem C360_hits (c : PCfg) (hm : 0 < c.maxHits) (fit : List Pk → Fit) (ok : List Pk → Bool) (s : Int → ℚ) (width : Int) (hw : 0 < width) (l : List Grp) (h : GroupsOk l) :
    ((roiHits c fit ok s width l).Pairwise fun p q => p.stop < q.start) ∧
    ∀ p ∈ roiHits c fit ok s width l, p.start ≤ p.stop ∧ (∃ g ∈ l, g.start ≤ p.start ∧ p.stop ≤ g.stop) ∧ p.idx < p.mult ∧
      p.sumADC = ratSum s p.start (p.stop + 1 - p.start).toNat := by
  induction l generalizing width with
  | nil => exact ⟨List.Pairwise.nil, by simp [roiHits]⟩
  | cons g rest ih =>
    unfold roiHits
    dsimp only
    obtain ⟨h1, h2, _, _⟩ := groupHits_ok c hm fit ok s width hw g (h.ok g List.mem_cons_self)
    have ho := List.pairwise_cons.1 h.order
    obtain ⟨i1, i2⟩ := ih _ h1 ⟨ho.2, fun g' hg' => h.ok g' (List.mem_cons_of_mem _ hg')⟩
    refine ⟨List.pairwise_append.2 ⟨h2.1, i1, fun p hp q hq => ?_⟩, fun p hp => ?_⟩
    · have := h2.2 p hp
      obtain ⟨-, ⟨g', hg', a, b⟩, -⟩ := i2 q hq
      have := ho.1 g' hg'
      omega
    · rcases List.mem_append.1 hp with hp | hp
      · obtain ⟨a, b, c, d, e⟩ := h2.2 p hp
        exact ⟨b, ⟨g, List.mem_cons_self, a, c⟩, d, e⟩
      · obtain ⟨a, ⟨g', hg', b⟩, c⟩ := i2 p hp
        exact ⟨a, ⟨g', List.mem_cons_of_mem _ hg', b⟩, c⟩

/-- **C360.** The hits of one group have the number of hits of the group as multiplicity, and the numbers 0, 1, 2, ... -/
theorem C360_numbers (c : PCfg) (hm : 0 < c.maxHits) (fit : List Pk → Fit) (ok : List Pk → Bool) (s : Int → ℚ) (width : Int) (hw : 0 < width) (l : List Grp) (h : GroupsOk l)
    (g : Grp) (hg : g ∈ l) :
    (∀ h ∈ (groupHits c fit ok s width g).1, h.mult = (groupHits c fit ok s width g).1.length) ∧
    (groupHits c fit ok s width g).1.map Hit.idx = List.range (groupHits c fit ok s width g).1.length :=
  (groupHits_ok c hm fit ok s width hw g (h.ok g hg)).2.2

end Verif.DPHit

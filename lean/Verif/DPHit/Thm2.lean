import Verif.DPHit.Thm
import Mathlib.Algebra.BigOperators.Intervals
import Mathlib.Algebra.BigOperators.Group.List.Basic
import Mathlib.Tactic.FieldSimp

/-!
# Theorems about the hit finder of the dual phase detector: peaks, hits and fit
-/

namespace Verif.DPHit

/-! ## C352: fluctuations -/

theorem flLeft_count (s : Int → ℚ) (f : Nat) (j : Int) (h : ∀ i : Nat, i < f → 5 ≤ s (j - i)) :
    flLeft s f j = (List.range f).countP fun i => decide (s (j - (i : Nat)) > s (j - (i : Nat) + 1)) := by
  induction f generalizing j with
  | zero => rfl
  | succ f ih =>
    have h0 := h 0 (by omega)
    simp only [Nat.cast_zero, sub_zero] at h0
    unfold flLeft
    rw [if_neg (not_lt.2 h0), ih (j - 1), List.range_succ_eq_map, List.countP_cons, List.countP_map]
    · rw [Nat.add_comm]
      congr 1
      · apply List.countP_congr
        intro i _
        simp only [Function.comp, decide_eq_true_eq]
        have : j - 1 - (i : Int) = j - ((i + 1 : Nat) : Int) := by push_cast; ring
        rw [this]
      · simp
    · intro i hi
      have := h (i + 1) (by omega)
      rw [show j - 1 - (i : Int) = j - ((i + 1 : Nat) : Int) by push_cast; ring]
      exact this

theorem flRight_count (s : Int → ℚ) (f : Nat) (j : Int) (h : ∀ i : Nat, i < f → 5 ≤ s (j + i)) :
    flRight s f j = (List.range f).countP fun i => decide (s (j + (i : Nat)) > s (j + (i : Nat) - 1)) := by
  induction f generalizing j with
  | zero => rfl
  | succ f ih =>
    have h0 := h 0 (by omega)
    simp only [Nat.cast_zero, add_zero] at h0
    unfold flRight
    rw [if_neg (not_lt.2 h0), ih (j + 1), List.range_succ_eq_map, List.countP_cons, List.countP_map]
    · rw [Nat.add_comm]
      congr 1
      · apply List.countP_congr
        intro i _
        simp only [Function.comp, decide_eq_true_eq]
        have : j + 1 + (i : Int) = j + ((i + 1 : Nat) : Int) := by push_cast; ring
        rw [this]
      · simp
    · intro i hi
      have := h (i + 1) (by omega)
      rw [show j + 1 + (i : Int) = j + ((i + 1 : Nat) : Int) by push_cast; ring]
      exact this

theorem flLeft_zero (s : Int → ℚ) (f : Nat) (j : Int) (h : ∀ i : Nat, i < f → s (j - i) ≤ s (j - i + 1)) : flLeft s f j = 0 := by
  induction f generalizing j with
  | zero => rfl
  | succ f ih =>
    have h0 := h 0 (by omega)
    simp only [Nat.cast_zero, sub_zero] at h0
    unfold flLeft
    rw [if_neg (not_lt.2 h0), ih (j - 1)]
    · simp
    · intro i hi
      have := h (i + 1) (by omega)
      rw [show j - 1 - (i : Int) = j - ((i + 1 : Nat) : Int) by push_cast; ring]
      exact this

theorem flRight_zero (s : Int → ℚ) (f : Nat) (j : Int) (h : ∀ i : Nat, i < f → s (j + i) ≤ s (j + i - 1)) : flRight s f j = 0 := by
  induction f generalizing j with
  | zero => rfl
  | succ f ih =>
    have h0 := h 0 (by omega)
    simp only [Nat.cast_zero, add_zero] at h0
    unfold flRight
    rw [if_neg (not_lt.2 h0), ih (j + 1)]
    · simp
    · intro i hi
      have := h (i + 1) (by omega)
      rw [show j + 1 + (i : Int) = j + ((i + 1 : Nat) : Int) by push_cast; ring]
      exact this

theorem flLeft_cut (s : Int → ℚ) (k f : Nat) (j : Int) (hk : k ≤ f) (h : ∀ i : Nat, i < k → 5 ≤ s (j - i)) (hl : k = f ∨ s (j - k) < 5) :
    flLeft s f j = flLeft s k j := by
  induction k generalizing f j with
  | zero =>
    cases f with
    | zero => rfl
    | succ f =>
      rcases hl with hl | hl
      · omega
      · simp only [Nat.cast_zero, sub_zero] at hl
        unfold flLeft
        rw [if_pos hl]
  | succ k ih =>
    cases f with
    | zero => omega
    | succ f =>
      unfold flLeft
      rw [ih f (j - 1) (by omega)]
      · intro i hi
        rw [show j - 1 - (i : Int) = j - ((i + 1 : Nat) : Int) by push_cast; ring]
        exact h (i + 1) (by omega)
      · rcases hl with hl | hl
        · left; omega
        · right; rw [show j - 1 - (k : Int) = j - ((k + 1 : Nat) : Int) by push_cast; ring]; exact hl

theorem flRight_cut (s : Int → ℚ) (k f : Nat) (j : Int) (hk : k ≤ f) (h : ∀ i : Nat, i < k → 5 ≤ s (j + i)) (hl : k = f ∨ s (j + k) < 5) :
    flRight s f j = flRight s k j := by
  induction k generalizing f j with
  | zero =>
    cases f with
    | zero => rfl
    | succ f =>
      rcases hl with hl | hl
      · omega
      · simp only [Nat.cast_zero, add_zero] at hl
        unfold flRight
        rw [if_pos hl]
  | succ k ih =>
    cases f with
    | zero => omega
    | succ f =>
      unfold flRight
      rw [ih f (j + 1) (by omega)]
      · intro i hi
        rw [show j + 1 + (i : Int) = j + ((i + 1 : Nat) : Int) by push_cast; ring]
        exact h (i + 1) (by omega)
      · rcases hl with hl | hl
        · left; omega
        · right; rw [show j + 1 + (k : Int) = j + ((k + 1 : Nat) : Int) by push_cast; ring]; exact hl

/-- **C352.** Let the `u` ticks before the maximum `m` and the `v` ticks after it be at 5 or above, up to the start and end of the pulse or a tick below 5 on the respective side.
The number of fluctuations is the number of these ticks that are above their neighbour on the side of the maximum.
A pulse that rises to its maximum and falls from there has none. -/
theorem C352_fluctuations (s : Int → ℚ) (a m b : Int) (h1 : a ≤ m) (h2 : m ≤ b) :
    ((∀ t, a ≤ t → t < m → s t ≤ s (t + 1)) → (∀ t, m < t → t ≤ b → s t ≤ s (t - 1)) → fluct s a m b = 0) ∧
    ∀ u v : Nat, a ≤ m - u → m + v ≤ b → (∀ t, m - u ≤ t → t < m → 5 ≤ s t) → (∀ t, m < t → t ≤ m + v → 5 ≤ s t) →
      (a = m - u ∨ s (m - u - 1) < 5) → (m + v = b ∨ s (m + v + 1) < 5) → fluct s a m b =
      ((List.range u).countP fun i => decide (s (m - 1 - (i : Nat)) > s (m - 1 - (i : Nat) + 1))) +
      ((List.range v).countP fun i => decide (s (m + 1 + (i : Nat)) > s (m + 1 + (i : Nat) - 1))) := by
  unfold fluct
  constructor
  · intro h3 h4
    rw [flLeft_zero, flRight_zero]
    · intro i hi; exact h4 _ (by omega) (by omega)
    · intro i hi; exact h3 _ (by omega) (by omega)
  · intro u v hu hv h3 h4 h5 h6
    rw [flLeft_cut s u _ _ (by omega), flRight_cut s v _ _ (by omega), flLeft_count, flRight_count]
    · intro i hi; exact h4 _ (by omega) (by omega)
    · intro i hi; exact h3 _ (by omega) (by omega)
    · intro i hi; exact h4 _ (by omega) (by omega)
    · rcases h6 with h | h
      · left; omega
      · right; rw [show m + 1 + (v : Int) = m + v + 1 by ring]; exact h
    · intro i hi; exact h3 _ (by omega) (by omega)
    · rcases h5 with h | h
      · left; omega
      · right; rw [show m - 1 - (u : Int) = m - u - 1 by ring]; exact h

example : fluct (sig [9, 4, 6, 8, 7, 9, 8, 8, 9, 6, 1, 9]) 0 5 11 = 2 := by decide +kernel

example : fluct (sig [6, 8, 7, 9, 8, 8, 9, 6]) 0 3 7 = 2 ∧ fluct (sig [6, 7, 8, 9, 8, 7]) 0 3 5 = 0 := by decide +kernel

/-! ## C353: more peaks -/

/-- Peaks that do not overlap. -/
def Apart (p q : Pk) : Prop := p.stop < q.start ∨ q.stop < p.start

/-- The list of the peaks of a group: in order, apart, each maximum in its peak. -/
structure Tiles (l : List Pk) : Prop where
  order : l.Pairwise fun p q => p.stop < q.start
  inside : ∀ p ∈ l, p.start ≤ p.max ∧ p.max ≤ p.stop

/-- The tick belongs to one of the peaks. -/
def Covered (l : List Pk) (t : Int) : Prop := ∃ p ∈ l, p.start ≤ t ∧ t ≤ p.stop

theorem sort_tiles (l : List Pk) (h1 : l.Pairwise Apart) (h2 : ∀ p ∈ l, p.start ≤ p.max ∧ p.max ≤ p.stop) : Tiles (sortPk l) := by
  have hp : (sortPk l).Perm l := List.perm_insertionSort _ l
  have hm : ∀ p ∈ sortPk l, p.start ≤ p.max ∧ p.max ≤ p.stop := fun p h => h2 p (hp.subset h)
  refine ⟨?_, hm⟩
  have hs : (sortPk l).Pairwise fun a b => a.max ≤ b.max :=
    haveI : IsTotal Pk (fun a b => a.max ≤ b.max) := ⟨fun a b => le_total a.max b.max⟩
    haveI : IsTrans Pk (fun a b => a.max ≤ b.max) := ⟨fun a b c h1 h2 => le_trans h1 h2⟩
    List.pairwise_insertionSort _ l
  have ha : (sortPk l).Pairwise Apart := hp.symm.pairwise h1 (fun {x y} h => by unfold Apart at *; tauto)
  have := List.Pairwise.and hs ha
  apply List.Pairwise.imp_of_mem _ this
  intro a b hma hmb h
  have h3 := hm a hma
  have h4 := hm b hmb
  rcases h.2 with h5 | h5
  · exact h5
  · have := h.1; omega

/-- Replacing a peak by two that divide it. -/
theorem split_tiles (l : List Pk) (i : Nat) (p u v : Pk) (h : Tiles l) (hi : l[i]? = some p)
    (hu : u.start ≤ u.max ∧ u.max ≤ u.stop) (hv : v.start ≤ v.max ∧ v.max ≤ v.stop)
    (hd : u.start = p.start ∧ u.stop + 1 = v.start ∧ v.stop = p.stop ∨ v.start = p.start ∧ v.stop + 1 = u.start ∧ u.stop = p.stop) :
    Tiles (sortPk (l.set i u ++ [v])) ∧ (sortPk (l.set i u ++ [v])).length = l.length + 1 ∧ ∀ t, Covered (sortPk (l.set i u ++ [v])) t ↔ Covered l t := by
  have hlt : i < l.length := by
    by_contra hn
    rw [List.getElem?_eq_none (by omega)] at hi
    cases hi
  have hget : l[i] = p := by rw [List.getElem?_eq_getElem hlt] at hi; exact Option.some.inj hi
  have hperm : (sortPk (l.set i u ++ [v])).Perm (l.set i u ++ [v]) := List.perm_insertionSort _ _
  -- peaks other than number i are apart from p
  have hother : ∀ (j : Nat) (hj : j < l.length), j ≠ i → Apart l[j] p := by
    intro j hj hne
    have hpw := List.pairwise_iff_getElem.1 h.order
    rcases Nat.lt_or_gt_of_ne hne with hlt' | hgt
    · have := hpw j i hj hlt hlt'
      rw [hget] at this
      exact Or.inl this
    · have := hpw i j hlt hj hgt
      rw [hget] at this
      exact Or.inr this
  have hpu : ∀ q : Pk, Apart q p → Apart q u ∧ Apart q v := by
    intro q hq
    unfold Apart at *
    omega
  have hmem : ∀ q, q ∈ l.set i u ↔ q = u ∨ ∃ (j : Nat) (hj : j < l.length), j ≠ i ∧ l[j] = q := by
    intro q
    constructor
    · intro hq
      obtain ⟨j, hj, e⟩ := List.getElem_of_mem hq
      rw [List.length_set] at hj
      by_cases hji : i = j
      · left
        rw [← e, List.getElem_set, if_pos hji]
      · right
        refine ⟨j, hj, Ne.symm hji, ?_⟩
        rw [← e, List.getElem_set, if_neg hji]
    · rintro (rfl | ⟨j, hj, hne, rfl⟩)
      · exact List.mem_set hlt _
      · have : (l.set i u)[j]'(by rw [List.length_set]; exact hj) = l[j] := by
          rw [List.getElem_set, if_neg (Ne.symm hne)]
        rw [← this]
        exact List.getElem_mem _
  refine ⟨?_, ?_, ?_⟩
  · apply sort_tiles
    · rw [List.pairwise_append]
      refine ⟨?_, by simp, ?_⟩
      · rw [List.pairwise_iff_getElem]
        intro a b ha hb hab
        rw [List.length_set] at ha hb
        rw [List.getElem_set, List.getElem_set]
        have hpw := List.pairwise_iff_getElem.1 h.order
        by_cases ea : i = a
        · rw [if_pos ea, if_neg (by omega)]
          have := (hpu _ (hother b hb (by omega))).1
          unfold Apart at *; omega
        · rw [if_neg ea]
          by_cases eb : i = b
          · rw [if_pos eb]
            exact (hpu _ (hother a ha (by omega))).1
          · rw [if_neg eb]
            exact Or.inl (hpw a b ha hb hab)
      · intro q hq r hr
        simp at hr
        subst hr
        rcases (hmem q).1 hq with rfl | ⟨j, hj, hne, rfl⟩
        · unfold Apart; omega
        · exact (hpu _ (hother j hj hne)).2
    · intro q hq
      rcases List.mem_append.1 hq with hq | hq
      · rcases (hmem q).1 hq with rfl | ⟨j, hj, hne, rfl⟩
        · exact hu
        · exact h.inside _ (List.getElem_mem _)
      · simp at hq; subst hq; exact hv
  · rw [hperm.length_eq]; simp
  · intro t
    unfold Covered
    have hpl : p ∈ l := by rw [← hget]; exact List.getElem_mem _
    constructor
    · rintro ⟨q, hq, h1, h2⟩
      rcases List.mem_append.1 (hperm.subset hq) with hq | hq
      · rcases (hmem q).1 hq with rfl | ⟨j, hj, hne, rfl⟩
        · exact ⟨p, hpl, by omega, by omega⟩
        · exact ⟨_, List.getElem_mem _, h1, h2⟩
      · simp at hq; subst hq
        exact ⟨p, hpl, by omega, by omega⟩
    · rintro ⟨q, hq, h1, h2⟩
      obtain ⟨j, hj, rfl⟩ := List.getElem_of_mem hq
      by_cases hji : j = i
      · subst hji
        rw [hget] at h1 h2
        by_cases hut : u.start ≤ t ∧ t ≤ u.stop
        · exact ⟨u, hperm.symm.subset (List.mem_append_left _ ((hmem u).2 (Or.inl rfl))), hut.1, hut.2⟩
        · exact ⟨v, hperm.symm.subset (List.mem_append_right _ (by simp)), by omega, by omega⟩
      · exact ⟨l[j], hperm.symm.subset (List.mem_append_left _ ((hmem _).2 (Or.inr ⟨j, hj, hji, rfl⟩))), h1, h2⟩

theorem addPeak_spec (l : List Pk) (h : Tiles l) (i : Nat) (p : Pk) (hi : l[i]? = some p) (x : Int) (hx : p.start ≤ x ∧ x ≤ p.stop) (hne : x ≠ p.max) :
    Tiles (addPeak i x l) ∧ (addPeak i x l).length = l.length + 1 ∧ (∀ t, Covered (addPeak i x l) t ↔ Covered l t) ∧
      (∃ q ∈ addPeak i x l, q.max = x) ∧ ∃ q ∈ addPeak i x l, q.max = p.max := by
  have hp := h.inside p (List.mem_of_getElem? hi)
  have hlt : i < l.length := by
    by_contra hn
    rw [List.getElem?_eq_none (by omega)] at hi
    cases hi
  have memS : ∀ (u v : Pk), u ∈ sortPk (l.set i u ++ [v]) ∧ v ∈ sortPk (l.set i u ++ [v]) := by
    intro u v
    have hperm : (sortPk (l.set i u ++ [v])).Perm (l.set i u ++ [v]) := List.perm_insertionSort _ _
    exact ⟨hperm.symm.subset (List.mem_append_left _ (List.mem_set hlt _)), hperm.symm.subset (List.mem_append_right _ (by simp))⟩
  unfold addPeak
  rw [hi]
  dsimp only
  by_cases h1 : x < p.max
  · rw [if_pos h1]
    generalize hE : (if (p.max - x) % 2 = 0 then x + ((p.max - x) - (p.max - x) % 2) / 2 - 1 else x + ((p.max - x) - (p.max - x) % 2) / 2) = e
    have he : x ≤ e ∧ e < p.max := by
      split at hE <;> omega
    have := split_tiles l i p ⟨p.max, 0, e + 1, p.stop⟩ ⟨x, 0, p.start, e⟩ h hi (by dsimp only; omega) (by dsimp only; omega) (by dsimp only; omega)
    exact ⟨this.1, this.2.1, this.2.2, ⟨_, (memS _ _).2, rfl⟩, ⟨_, (memS _ _).1, rfl⟩⟩
  · rw [if_neg h1, if_pos (by omega)]
    generalize hE : (if (x - p.max) % 2 = 0 then p.max + ((x - p.max) - (x - p.max) % 2) / 2 - 1 else p.max + ((x - p.max) - (x - p.max) % 2) / 2) = e
    have he : p.max ≤ e ∧ e < x := by
      split at hE <;> omega
    have := split_tiles l i p ⟨p.max, 0, p.start, e⟩ ⟨x, 0, e + 1, p.stop⟩ h hi (by dsimp only; omega) (by dsimp only; omega) (by dsimp only; omega)
    exact ⟨this.1, this.2.1, this.2.2, ⟨_, (memS _ _).2, rfl⟩, ⟨_, (memS _ _).1, rfl⟩⟩

theorem splitPeak_spec (l : List Pk) (h : Tiles l) (i : Nat) (p : Pk) (hi : l[i]? = some p) :
    (p.stop - p.start < 3 → splitPeak i l = l) ∧ (3 ≤ p.stop - p.start →
      Tiles (splitPeak i l) ∧ (splitPeak i l).length = l.length + 1 ∧ ∀ t, Covered (splitPeak i l) t ↔ Covered l t) := by
  unfold splitPeak
  rw [hi]
  dsimp only
  constructor
  · intro h1; rw [if_pos h1]
  · intro h1
    rw [if_neg (by omega)]
    generalize hE : p.start + ((p.stop - p.start) + (p.stop - p.start) % 2) / 2 = e
    have he : p.start + 2 ≤ e ∧ e + 1 ≤ p.stop := by omega
    generalize hA : p.start + ((e - p.start) - (e - p.start) % 2) / 2 = a
    have ha : p.start ≤ a ∧ a ≤ e := by omega
    generalize hB : e + 1 + ((p.stop - (e + 1)) - (p.stop - (e + 1)) % 2) / 2 = b
    have hb : e + 1 ≤ b ∧ b ≤ p.stop := by omega
    exact split_tiles l i p ⟨a, 0, p.start, e⟩ ⟨b, 0, e + 1, p.stop⟩ h hi (by dsimp only; omega) (by dsimp only; omega) (by dsimp only; omega)

/-- **C353.** Adding a peak at a tick of a peak, other than its maximum, or splitting a peak of at least four ticks, gives one peak more; the peaks stay in
order and apart, each with its maximum, and cover the same ticks as before. The maxima of the old and the new peak are kept by the first. A peak at the maximum of a
peak changes nothing. -/
theorem C353_more (l : List Pk) (h : Tiles l) (i : Nat) (p : Pk) (hi : l[i]? = some p) :
    (∀ x, p.start ≤ x → x ≤ p.stop → x ≠ p.max → Tiles (addPeak i x l) ∧ (addPeak i x l).length = l.length + 1 ∧
      (∀ t, Covered (addPeak i x l) t ↔ Covered l t) ∧ (∃ q ∈ addPeak i x l, q.max = x) ∧ ∃ q ∈ addPeak i x l, q.max = p.max) ∧
    (3 ≤ p.stop - p.start → Tiles (splitPeak i l) ∧ (splitPeak i l).length = l.length + 1 ∧ ∀ t, Covered (splitPeak i l) t ↔ Covered l t) ∧
    (p.stop - p.start < 3 → splitPeak i l = l) ∧ addPeak i p.max l = l :=
  ⟨fun x h1 h2 h3 => addPeak_spec l h i p hi x ⟨h1, h2⟩ h3, (splitPeak_spec l h i p hi).2, (splitPeak_spec l h i p hi).1, by
    unfold addPeak
    rw [hi]
    dsimp only
    rw [if_neg (lt_irrefl _), if_neg (lt_irrefl _)]⟩

example : addPeak 0 6 [⟨2, 0, 0, 9⟩, ⟨12, 0, 11, 14⟩] = [⟨2, 0, 0, 3⟩, ⟨6, 0, 4, 9⟩, ⟨12, 0, 11, 14⟩] ∧
    splitPeak 1 [⟨2, 0, 0, 9⟩, ⟨12, 0, 11, 14⟩] = [⟨2, 0, 0, 9⟩, ⟨12, 0, 11, 13⟩, ⟨14, 0, 14, 14⟩] ∧ Tiles [⟨2, 0, 0, 9⟩, ⟨12, 0, 11, 14⟩] :=
  ⟨by decide +kernel, by decide +kernel, ⟨by simp, by simp⟩⟩

/-! ## C354: the refit -/

theorem worst_spec (g : Int → ℚ) (p : Pk) (k : Nat) :
    (worst g p k).2 = 0 ∨ p.start ≤ (worst g p k).2 ∧ (worst g p k).2 < p.start + k ∧ (worst g p k).2 ≠ p.max := by
  induction k with
  | zero => exact Or.inl rfl
  | succ k ih =>
    unfold worst
    dsimp only
    split
    · rename_i h
      right
      dsimp only
      exact ⟨by omega, by push_cast; omega, h.2⟩
    · rcases ih with h | h
      · exact Or.inl h
      · right; push_cast; omega

theorem peakDev_spec (rank : Pk → ℚ) (g : Int → ℚ) (l : List Pk) (q : Nat × Int) (h : q ∈ peakDev rank g l) :
    ∃ p, l[q.1]? = some p ∧ p.start ≤ q.2 ∧ q.2 ≤ p.stop ∧ q.2 ≠ p.max := by
  unfold peakDev at h
  obtain ⟨r, hr, rfl⟩ := List.mem_map.1 h
  have hr' := (List.perm_insertionSort _ _).subset hr
  obtain ⟨⟨p, i⟩, hp, he⟩ := List.mem_filterMap.1 hr'
  have hpi := List.mem_zipIdx_iff_getElem?.1 hp
  dsimp only at he hpi
  split at he
  · rename_i hne
    cases he
    dsimp only
    rcases worst_spec g p (p.stop + 1 - p.start).toNat with h0 | ⟨h1, h2, h3⟩
    · exact absurd h0 hne
    · exact ⟨p, hpi, h1, by omega, h3⟩
  · cases he

theorem tryAll_spec (fit : List Pk → Fit) (l : List Pk) (alt : Nat × Int → List Pk) (qs : List (Nat × Int)) (l' : List Pk)
    (h : tryAll fit l alt qs = some l') : (∃ q ∈ qs, l' = alt q) ∧ (fit l').chi2 < (fit l).chi2 := by
  induction qs with
  | nil => cases h
  | cons q rest ih =>
    unfold tryAll at h
    split at h
    · cases h; exact ⟨⟨q, List.mem_cons_self, rfl⟩, ‹_›⟩
    · obtain ⟨⟨q', hq', e⟩, h2⟩ := ih h
      exact ⟨⟨q', List.mem_cons_of_mem _ hq', e⟩, h2⟩

theorem refit_spec (fit : List Pk → Fit) (retry factor : ℚ) (b f a : Nat) (l : List Pk) (h : Tiles l) (ha : a = l.length) (hb : a ≤ 3 * b) :
    Tiles (refit fit retry factor b f a l) ∧ (∀ t, Covered (refit fit retry factor b f a l) t ↔ Covered l t) ∧
    (fit (refit fit retry factor b f a l)).chi2 ≤ (fit l).chi2 ∧ (refit fit retry factor b f a l).length ≤ 3 * b ∧
    l.length ≤ (refit fit retry factor b f a l).length ∧
    (3 * b - a ≤ f → again retry factor b (refit fit retry factor b f a l).length (refit fit retry factor b f a l).length (fit (refit fit retry factor b f a l)).chi2 = true →
      ∀ q ∈ peakDev (fit (refit fit retry factor b f a l)).rank (fit (refit fit retry factor b f a l)).dev (refit fit retry factor b f a l),
        (fit (refit fit retry factor b f a l)).chi2 ≤ (fit (addPeak q.1 q.2 (refit fit retry factor b f a l))).chi2 ∧
        (fit (refit fit retry factor b f a l)).chi2 ≤ (fit (splitPeak q.1 (refit fit retry factor b f a l))).chi2) := by
  have tryNone : ∀ (l : List Pk) (alt : Nat × Int → List Pk) (qs : List (Nat × Int)), tryAll fit l alt qs = none → ∀ q ∈ qs, (fit l).chi2 ≤ (fit (alt q)).chi2 := by
    intro l alt qs hn
    induction qs with
    | nil => simp
    | cons q rest ih =>
      unfold tryAll at hn
      split at hn
      · cases hn
      · intro q' hq'
        rcases List.mem_cons.1 hq' with rfl | hq'
        · exact not_lt.1 ‹_›
        · exact ih hn q' hq'
  induction f generalizing a l with
  | zero =>
    unfold refit
    refine ⟨h, fun t => Iff.rfl, le_refl _, by omega, le_refl _, fun hf hag => ?_⟩
    unfold again at hag
    rw [decide_eq_true_eq] at hag
    omega
  | succ f ih =>
    unfold refit
    by_cases hag : again retry factor b a l.length (fit l).chi2 = true
    · rw [if_pos hag]
      have hab : a < 3 * b := by
        unfold again at hag
        rw [decide_eq_true_eq] at hag
        omega
      dsimp only
      cases h1 : tryAll fit l (fun q => addPeak q.1 q.2 l) (peakDev (fit l).rank (fit l).dev l) with
      | some l' =>
        dsimp only
        obtain ⟨⟨q, hq, e⟩, hc⟩ := tryAll_spec _ _ _ _ _ h1
        obtain ⟨p, hp1, hp2, hp3, hp4⟩ := peakDev_spec _ _ _ _ hq
        have hs := addPeak_spec l h q.1 p hp1 q.2 ⟨hp2, hp3⟩ hp4
        subst e
        obtain ⟨r1, r2, r3, r4, r5, r6⟩ := ih (a + 1) _ hs.1 (by rw [hs.2.1]; omega) (by omega)
        exact ⟨r1, fun t => (r2 t).trans (hs.2.2.1 t), le_trans r3 (le_of_lt hc), r4, by have := hs.2.1; omega, fun hf => r6 (by omega)⟩
      | none =>
        dsimp only
        cases h2 : tryAll fit l (fun q => splitPeak q.1 l) (peakDev (fit l).rank (fit l).dev l) with
        | some l' =>
          dsimp only
          obtain ⟨⟨q, hq, e⟩, hc⟩ := tryAll_spec _ _ _ _ _ h2
          obtain ⟨p, hp1, hp2, hp3, hp4⟩ := peakDev_spec _ _ _ _ hq
          have hs := splitPeak_spec l h q.1 p hp1
          by_cases hw : 3 ≤ p.stop - p.start
          · have hs := hs.2 hw
            subst e
            obtain ⟨r1, r2, r3, r4, r5, r6⟩ := ih (a + 1) _ hs.1 (by rw [hs.2.1]; omega) (by omega)
            exact ⟨r1, fun t => (r2 t).trans (hs.2.2 t), le_trans r3 (le_of_lt hc), r4, by have := hs.2.1; omega, fun hf => r6 (by omega)⟩
          · have e' := hs.1 (by omega)
            rw [e, e'] at hc
            exact absurd hc (lt_irrefl _)
        | none =>
          dsimp only
          exact ⟨h, fun t => Iff.rfl, le_refl _, by omega, le_refl _, fun _ _ q hq => ⟨tryNone _ _ _ h1 q hq, tryNone _ _ _ h2 q hq⟩⟩
    · rw [if_neg hag]
      refine ⟨h, fun t => Iff.rfl, le_refl _, by omega, le_refl _, fun _ hag' => ?_⟩
      rw [ha] at hag
      exact absurd hag' hag

/-- **C354.** For every fit, the peaks after the refits are in order and apart, each with its maximum, and cover the same ticks as before; the chi2 is not
larger; there are at least as many and at most three times as many peaks; and if the chi2 is still too large and there are fewer than three times as many, no added peak and no split makes it smaller. -/
theorem C354_refit (fit : List Pk → Fit) (retry factor : ℚ) (l : List Pk) (h : Tiles l) :
    let r := refit fit retry factor l.length (2 * l.length) l.length l
    Tiles r ∧ (∀ t, Covered r t ↔ Covered l t) ∧ (fit r).chi2 ≤ (fit l).chi2 ∧ r.length ≤ 3 * l.length ∧ l.length ≤ r.length ∧
    (r.length < 3 * l.length → (r.length = 1 ∧ (fit r).chi2 > retry ∨ 1 < r.length ∧ (fit r).chi2 > factor * retry) →
      ∀ q ∈ peakDev (fit r).rank (fit r).dev r, (fit r).chi2 ≤ (fit (addPeak q.1 q.2 r)).chi2 ∧ (fit r).chi2 ≤ (fit (splitPeak q.1 r)).chi2) := by
  have := refit_spec fit retry factor l.length (2 * l.length) l.length l h rfl (by omega)
  dsimp only
  obtain ⟨r1, r2, r3, r4, r5, r6⟩ := this
  refine ⟨r1, r2, r3, r4, r5, fun h1 h2 => r6 (by omega) ?_⟩
  unfold again
  rw [decide_eq_true_eq]
  tauto

example : (refit (fun l => ⟨10 - l.length, fun t => -t, fun p => p.start⟩) 1 1 1 2 1 [⟨4, 0, 1, 9⟩]).length = 3 := by decide +kernel

end Verif.DPHit

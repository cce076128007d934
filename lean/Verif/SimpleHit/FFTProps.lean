import Verif.SimpleHit.FFTModel
import Mathlib.Data.List.Range
import Mathlib.Tactic.Linarith
import Mathlib.Tactic.NormNum

/-! Properties C298 - C303: `FFTHitFinder`. -/

namespace Verif.FFTHit

/-! ### C298 the peaks -/

/-- Specification: a tick inside the signal above the threshold and above both its neighbours. -/
def IsPeak (s : Nat → ℚ) (n : Nat) (thr : ℚ) (t : Nat) : Prop :=
  1 ≤ t ∧ t + 1 < n ∧ s (t - 1) < s t ∧ s (t + 1) < s t ∧ thr < s t

instance (s : Nat → ℚ) (n : Nat) (thr : ℚ) : DecidablePred (IsPeak s n thr) := fun t => by
  unfold IsPeak; infer_instance

/-- the state after the first `k` ticks -/
def after (s : Nat → ℚ) (thr : ℚ) (k : Nat) : Scan := (List.range k).foldl (scanStep s thr) scan0

theorem after_succ (s : Nat → ℚ) (thr : ℚ) (k : Nat) : after s thr (k + 1) = scanStep s thr (after s thr k) k := by
  unfold after
  rw [List.range_succ, List.foldl_append]
  rfl

theorem after_maxs (s : Nat → ℚ) (thr : ℚ) (n k : Nat) (hk : k + 2 ≤ n ∨ k = 0) :
    (after s thr k).maxs = (List.range (k + 1)).filter fun t => decide (IsPeak s n thr t) := by
  induction k with
  | zero =>
    simp [after, scan0, IsPeak, List.range_succ]
  | succ k ih =>
    rw [after_succ, List.range_succ, List.filter_append, ← ih (by omega)]
    unfold scanStep
    have hi : IsPeak s n thr (k + 1) ↔ s k < s (k + 1) ∧ s (k + 2) < s (k + 1) ∧ thr < s (k + 1) := by
      unfold IsPeak
      simp only [Nat.add_sub_cancel]
      constructor
      · rintro ⟨-, -, h1, h2, h3⟩; exact ⟨h1, h2, h3⟩
      · rintro ⟨h1, h2, h3⟩; exact ⟨by omega, by omega, h1, h2, h3⟩
    by_cases hmin : s k > s (k + 1) ∧ s (k + 1) < s (k + 2)
    · rw [if_pos hmin]
      have : ¬ IsPeak s n thr (k + 1) := by rw [hi]; rintro ⟨h1, -, -⟩; linarith [hmin.1]
      split_ifs <;> simp [this]
    · rw [if_neg hmin]
      by_cases hmax : s k < s (k + 1) ∧ s (k + 1) > s (k + 2) ∧ s (k + 1) > thr
      · rw [if_pos hmax]
        have : IsPeak s n thr (k + 1) := hi.2 hmax
        simp [this]
      · rw [if_neg hmax]
        have : ¬ IsPeak s n thr (k + 1) := fun h => hmax (hi.1 h)
        simp [this]

/-- C298: the pulses found on a wire are, in order and each once, the ticks inside the signal that are above the threshold
and above both neighbours. -/
theorem C298_peaks (s : Nat → ℚ) (n : Nat) (thr : ℚ) :
    (scan s n thr).maxs = (List.range n).filter fun t => decide (IsPeak s n thr t) := by
  have h := after_maxs s thr n (n - 2) (by omega)
  unfold after at h
  unfold scan
  rw [h]
  rcases n with _ | _ | n
  · simp [IsPeak, List.range_succ]
  · simp [IsPeak, List.range_succ]
  · have : (n + 2 - 2 + 1) = n + 1 := by omega
    rw [this, List.range_succ (n := n + 1), List.filter_append]
    simp [IsPeak]

/-! ### C299 the windows of the pulses -/

structure Inv (k : Nat) (st : Scan) : Prop where
  lenS : st.starts.length = st.maxs.length
  lenE : st.ends.length + (if st.found then 1 else 0) ≤ st.maxs.length
  hold : st.hold ≤ k + 1
  maxk : ∀ m ∈ st.maxs, m ≤ k
  endk : ∀ e ∈ st.ends, e ≤ k
  start : ∀ i a m : Nat, st.starts[i]? = some a → st.maxs[i]? = some m → a ≤ m
  stop : ∀ i e m : Nat, st.ends[i]? = some e → st.maxs[i]? = some m → m < e

theorem getElem?_snoc {α : Type} (l : List α) (x : α) (i : Nat) (a : α) (h : (l ++ [x])[i]? = some a) :
    (i < l.length ∧ l[i]? = some a) ∨ (i = l.length ∧ a = x) := by
  by_cases hi : i < l.length
  · rw [List.getElem?_append_left hi] at h
    exact Or.inl ⟨hi, h⟩
  · rw [List.getElem?_append_right (by omega)] at h
    right
    rcases hd : i - l.length with _ | j
    · rw [hd] at h
      simp at h
      exact ⟨by omega, h.symm⟩
    · rw [hd] at h
      simp at h

theorem inv_after (s : Nat → ℚ) (thr : ℚ) (k : Nat) : Inv k (after s thr k) := by
  induction k with
  | zero =>
    constructor <;> simp [after, scan0]
  | succ k ih =>
    rw [after_succ]
    generalize after s thr k = st at ih
    unfold scanStep
    split_ifs with h1 hf h2
    · obtain ⟨a1, a2, a3, a4, a5, a6, a7⟩ := ih
      rw [hf] at a2
      simp only [if_true] at a2
      refine ⟨a1, by simpa using a2, by simp, fun m hm => by have := a4 m hm; omega, ?_, a6, ?_⟩
      · intro e he
        rcases List.mem_append.1 he with he | he
        · have := a5 e he; omega
        · simp at he; omega
      · intro i e m he hm
        rcases getElem?_snoc _ _ _ _ he with ⟨-, he⟩ | ⟨-, rfl⟩
        · exact a7 i e m he hm
        · have := a4 m (List.mem_of_getElem? hm); omega
    · obtain ⟨a1, a2, a3, a4, a5, a6, a7⟩ := ih
      exact ⟨a1, a2, by simp, fun m hm => by have := a4 m hm; omega, fun m hm => by have := a5 m hm; omega, a6, a7⟩
    · obtain ⟨a1, a2, a3, a4, a5, a6, a7⟩ := ih
      refine ⟨by simp [a1], ?_, by simp only; omega, ?_, fun m hm => by have := a5 m hm; omega, ?_, ?_⟩
      · simp only [if_true, List.length_append, List.length_singleton]
        have : st.ends.length ≤ st.maxs.length := le_trans (Nat.le_add_right _ _) a2
        omega
      · intro m hm
        rcases List.mem_append.1 hm with hm | hm
        · have := a4 m hm; omega
        · simp at hm; omega
      · intro i a m ha hm
        rcases getElem?_snoc _ _ _ _ ha with ⟨hi, ha⟩ | ⟨hi, rfl⟩ <;>
          rcases getElem?_snoc _ _ _ _ hm with ⟨hi', hm⟩ | ⟨hi', rfl⟩
        · exact a6 i a m ha hm
        · omega
        · omega
        · omega
      · intro i e m he hm
        have : st.ends.length ≤ st.maxs.length := le_trans (Nat.le_add_right _ _) a2
        have hi : i < st.ends.length := (List.getElem?_eq_some_iff.1 he).1
        rcases getElem?_snoc _ _ _ _ hm with ⟨hi', hm⟩ | ⟨hi', rfl⟩
        · exact a7 i e m he hm
        · omega
    · obtain ⟨a1, a2, a3, a4, a5, a6, a7⟩ := ih
      exact ⟨a1, a2, by omega, fun m hm => by have := a4 m hm; omega, fun m hm => by have := a5 m hm; omega, a6, a7⟩

theorem scan_eq (s : Nat → ℚ) (n : Nat) (thr : ℚ) : scan s n thr = after s thr (n - 2) := rfl

theorem ends_length (s : Nat → ℚ) (n : Nat) (thr : ℚ) :
    (ends n (scan s n thr)).length = (scan s n thr).maxs.length := by
  have h := (inv_after s thr (n - 2)).lenE
  rw [← scan_eq s n thr] at h
  unfold ends
  simp
  have : (scan s n thr).ends.length ≤ (scan s n thr).maxs.length := le_trans (Nat.le_add_right _ _) h
  omega

/-- C299: each pulse has one start and one end, inside the signal; its peak is not before the start and before the end. -/
theorem C299_windows (s : Nat → ℚ) (n : Nat) (thr : ℚ) :
    let st := scan s n thr
    st.starts.length = st.maxs.length ∧ (ends n st).length = st.maxs.length ∧
    ∀ i a m e : Nat, st.starts[i]? = some a → st.maxs[i]? = some m → (ends n st)[i]? = some e →
      a ≤ m ∧ m < e ∧ e < n := by
  intro st
  have h := inv_after s thr (n - 2)
  rw [← scan_eq s n thr] at h
  refine ⟨h.lenS, ends_length s n thr, ?_⟩
  intro i a m e ha hm he
  have hpk : IsPeak s n thr m := by
    have := List.mem_of_getElem? hm
    rw [show st.maxs = _ from C298_peaks s n thr] at this
    simpa using (List.mem_filter.1 this).2
  have hmn : m + 1 < n := hpk.2.1
  refine ⟨h.start i a m ha hm, ?_⟩
  unfold ends at he
  by_cases hi : i < st.ends.length
  · rw [List.getElem?_append_left hi] at he
    refine ⟨h.stop i e m he hm, ?_⟩
    have := h.endk e (List.mem_of_getElem? he)
    omega
  · rw [List.getElem?_append_right (by omega)] at he
    have := List.mem_of_getElem? he
    rw [List.mem_replicate] at this
    omega

/-! ### C300 the windows do not overlap -/

structure Inv2 (s : Nat → ℚ) (k : Nat) (st : Scan) : Prop where
  len : st.maxs.length = st.ends.length + if st.found then 1 else 0
  fall : st.found = true → s (k + 1) < s k
  hold : st.found = false → ∀ e ∈ st.ends, e < st.hold
  sep : ∀ i e a : Nat, st.ends[i]? = some e → st.starts[i + 1]? = some a → e < a

theorem inv2_after (s : Nat → ℚ) (thr : ℚ) (k : Nat) (hs : ∀ t, t ≤ k → s t ≠ s (t + 1)) :
    Inv2 s k (after s thr k) := by
  induction k with
  | zero => constructor <;> simp [after, scan0]
  | succ k ih =>
    have ih := ih (fun t ht => hs t (by omega))
    have hi := inv_after s thr k
    rw [after_succ]
    generalize after s thr k = st at ih hi
    have n1 := hs k (by omega)
    have n2 := hs (k + 1) (by omega)
    unfold scanStep
    split_ifs with h1 hf h2
    · obtain ⟨a1, a2, a3, a4⟩ := ih
      rw [hf] at a1
      simp only [if_true] at a1
      refine ⟨by simpa using a1, by simp, ?_, ?_⟩
      · intro _ e he
        rcases List.mem_append.1 he with he | he
        · have := hi.endk e he; simp only; omega
        · simp at he; simp only; omega
      · intro i e a he ha
        rcases getElem?_snoc _ _ _ _ he with ⟨-, he⟩ | ⟨hi', rfl⟩
        · exact a4 i e a he ha
        · have := (List.getElem?_eq_some_iff.1 ha).1
          have := hi.lenS
          simp only at *
          omega
    · obtain ⟨a1, a2, a3, a4⟩ := ih
      refine ⟨a1, fun h => absurd h hf, ?_, a4⟩
      intro _ e he
      have := hi.endk e he
      simp only; omega
    · obtain ⟨a1, a2, a3, a4⟩ := ih
      have hf : st.found = false := by
        cases hf : st.found with
        | false => rfl
        | true => exact absurd (a2 hf) (by linarith [h2.1])
      rw [hf] at a1
      refine ⟨by simpa using a1, fun _ => h2.2.1, by simp, ?_⟩
      intro i e a he ha
      rcases getElem?_snoc _ _ _ _ ha with ⟨-, ha⟩ | ⟨-, rfl⟩
      · exact a4 i e a he ha
      · exact a3 hf e (List.mem_of_getElem? he)
    · obtain ⟨a1, a2, a3, a4⟩ := ih
      refine ⟨a1, ?_, a3, a4⟩
      intro hf
      have := a2 hf
      rcases lt_or_gt_of_ne n2 with h | h
      · exact absurd ⟨this, h⟩ h1
      · exact h

/-- C300 (part): if no two neighbouring ticks are equal, the windows of the pulses do not overlap: each ends before the next
one starts. -/
theorem C300_disjoint_partial (s : Nat → ℚ) (n : Nat) (thr : ℚ) (hs : ∀ t, t + 1 < n → s t ≠ s (t + 1)) :
    let st := scan s n thr
    ∀ i e a : Nat, (ends n st)[i]? = some e → st.starts[i + 1]? = some a → e < a := by
  intro st i e a he ha
  by_cases hn : n < 3
  · have : st = scan0 := by
      show scan s n thr = scan0
      unfold scan
      rw [show n - 2 = 0 by omega]
      rfl
    rw [this] at ha
    simp [scan0] at ha
  have h1 := inv_after s thr (n - 2)
  have h2 := inv2_after s thr (n - 2) (fun t ht => hs t (by omega))
  have hlen : st.maxs.length ≤ st.ends.length + 1 := by
    have := h2.len
    rw [show st = after s thr (n - 2) from rfl, this]
    split <;> omega
  unfold ends at he
  have hi := (List.getElem?_eq_some_iff.1 ha).1
  have hls : st.starts.length = st.maxs.length := h1.lenS
  rw [List.getElem?_append_left (by omega)] at he
  exact h2.sep i e a he ha

/-- a signal with two pulses that have a flat dip between them, and a third pulse -/
def flat (t : Nat) : ℚ := [0, 5, 3, 3, 5, 0, 4, 0].getD t 0

/-- C300 (refuted): the windows of pulses may overlap: a flat dip between two pulses is not seen as a minimum; the ends of
all pulses that follow are then those of other pulses. -/
theorem C300_refuted : ¬ ∀ (s : Nat → ℚ) (n : Nat) (thr : ℚ),
    ∀ i e a : Nat, (ends n (scan s n thr))[i]? = some e → (scan s n thr).starts[i + 1]? = some a → e < a := by
  intro h
  have := h flat 8 1 0 5 0 (by decide +kernel) (by decide +kernel)
  omega

example : (scan flat 8 1).maxs = [1, 4, 6] ∧ (scan flat 8 1).starts = [0, 0, 6] ∧ ends 8 (scan flat 8 1) = [5, 7, 7] := by
  decide +kernel

/-! ### C301 groups of pulses -/

/-- Specification: pulse `i + 1` follows pulse `i` without a gap and the dip between them is above half the threshold. -/
def Linked (s : Nat → ℚ) (thr : ℚ) (starts ends : List Nat) (i : Nat) : Prop :=
  s (ends.getD i 0) > thr / 2 ∧ starts.getD (i + 1) 0 < ends.getD i 0 + 2

theorem groupLen_spec (s : Nat → ℚ) (thr : ℚ) (maxMulti : Int) (starts ends : List Nat) (h k : Nat) (hk : 1 ≤ k)
    (hkl : k + h ≤ ends.length) :
    let r := groupLen s thr maxMulti starts ends h k
    k ≤ r ∧ r + h ≤ ends.length ∧ ((r : Int) ≤ maxMulti ∨ r = k) ∧
    (∀ j, k ≤ j → j < r → Linked s thr starts ends (h + j - 1)) ∧
    (r + h < ends.length → (r : Int) < maxMulti → ¬ Linked s thr starts ends (h + r - 1)) := by
  have hlk : ∀ k, 1 ≤ k → (Linked s thr starts ends (h + k - 1) ↔ (s (ends.getD (h + k - 1) 0) > thr / 2 ∧
      ((starts.getD (h + k) 0 : Nat) : Int) - (ends.getD (h + k - 1) 0 : Nat) < 2)) := by
    intro k hk
    unfold Linked
    rw [show h + k - 1 + 1 = h + k by omega]
    constructor
    · rintro ⟨h1, h2⟩; exact ⟨h1, by omega⟩
    · rintro ⟨h1, h2⟩; exact ⟨h1, by omega⟩
  intro r
  have hr : r = groupLen s thr maxMulti starts ends h k := rfl
  clear_value r
  induction hd : ends.length - k generalizing k with
  | zero =>
    rw [groupLen, dif_neg (by omega)] at hr
    subst hr
    exact ⟨le_refl _, hkl, Or.inr rfl, by omega, by omega⟩
  | succ d ih =>
    rw [groupLen] at hr
    by_cases hc : (k : Int) < maxMulti ∧ k + h < ends.length ∧ s (ends.getD (h + k - 1) 0) > thr / 2 ∧
      ((starts.getD (h + k) 0 : Nat) : Int) - (ends.getD (h + k - 1) 0 : Nat) < 2
    · rw [dif_pos hc] at hr
      by_cases hd' : d = 0
      · subst hd'
        rw [groupLen, dif_neg (by omega)] at hr
        subst hr
        refine ⟨by omega, by omega, Or.inl (by omega), ?_, by omega⟩
        intro j h1 h2
        have : j = k := by omega
        subst this
        exact (hlk j hk).2 hc.2.2
      · obtain ⟨b1, b2, b3, b4, b5⟩ := ih (k + 1) (by omega) (by omega) hr (by omega)
        refine ⟨by omega, b2, Or.inl (by rcases b3 with b3 | b3 <;> omega), ?_, b5⟩
        intro j h1 h2
        by_cases hj : j = k
        · subst hj; exact (hlk j hk).2 hc.2.2
        · exact b4 j (by omega) h2
    · rw [dif_neg hc] at hr
      subst hr
      refine ⟨le_refl _, hkl, Or.inr rfl, by omega, ?_⟩
      intro h1 h2 h3
      exact hc ⟨h2, by omega, (hlk r hk).1 h3⟩

theorem groups_spec (s : Nat → ℚ) (thr : ℚ) (maxMulti : Int) (starts ends : List Nat)
    (hl : ends.length = starts.length) : ∀ (fuel h : Nat), starts.length ≤ h + fuel → h ≤ starts.length →
    let gs := groups s thr maxMulti starts ends fuel h
    gs.flatMap (fun g => List.range' g.1 g.2) = List.range' h (starts.length - h) ∧
    ∀ g ∈ gs, 1 ≤ g.2 ∧ g.1 + g.2 ≤ starts.length ∧ ((g.2 : Int) ≤ maxMulti ∨ g.2 = 1) ∧
      (∀ j, 1 ≤ j → j < g.2 → Linked s thr starts ends (g.1 + j - 1)) ∧
      (g.1 + g.2 < starts.length → (g.2 : Int) < maxMulti → ¬ Linked s thr starts ends (g.1 + g.2 - 1)) := by
  intro fuel
  induction fuel with
  | zero =>
    intro h hf hh
    have : starts.length - h = 0 := by omega
    simp [groups, this]
  | succ fuel ih =>
    intro h hf hh
    simp only [groups]
    by_cases hlt : h < starts.length
    · rw [if_pos hlt]
      obtain ⟨b1, b2, b3, b4, b5⟩ := groupLen_spec s thr maxMulti starts ends h 1 (le_refl _) (by omega)
      generalize groupLen s thr maxMulti starts ends h 1 = k at b1 b2 b3 b4 b5
      obtain ⟨c1, c2⟩ := ih (h + k) (by omega) (by omega)
      refine ⟨?_, ?_⟩
      · rw [List.flatMap_cons, c1]
        have := List.range'_append_1 (s := h) (m := k) (n := starts.length - (h + k))
        rw [this]
        congr 1
        omega
      · intro g hg
        rcases List.mem_cons.1 hg with rfl | hg
        · refine ⟨b1, by simp only; omega, b3, b4, ?_⟩
          intro h1 h2
          exact b5 (by simp only at h1; omega) h2
        · exact c2 g hg
    · rw [if_neg hlt]
      have : starts.length - h = 0 := by omega
      simp [this]

/-- C301: the pulses of a wire are split, in their order and each once, into groups of at least one and (unless it is
smaller than one) at most the asked-for number of pulses; neighbours in a group are linked, and a group ends only at the
last pulse, at the asked-for number, or at a pulse that is not linked to the next one. -/
theorem C301_groups (s : Nat → ℚ) (n : Nat) (thr : ℚ) (maxMulti : Int) :
    let st := scan s n thr
    let gs := groups s thr maxMulti st.starts (ends n st) st.starts.length 0
    gs.flatMap (fun g => List.range' g.1 g.2) = List.range st.maxs.length ∧
    ∀ g ∈ gs, 1 ≤ g.2 ∧ ((g.2 : Int) ≤ maxMulti ∨ g.2 = 1) ∧
      (∀ i, g.1 ≤ i → i + 1 < g.1 + g.2 → Linked s thr st.starts (ends n st) i) ∧
      (g.1 + g.2 < st.maxs.length → (g.2 : Int) < maxMulti → ¬ Linked s thr st.starts (ends n st) (g.1 + g.2 - 1)) := by
  intro st gs
  obtain ⟨w1, w2, -⟩ := C299_windows s n thr
  obtain ⟨h1, h2⟩ := groups_spec s thr maxMulti st.starts (ends n st) (by rw [w2, w1]) st.starts.length 0 (by omega)
    (by omega)
  refine ⟨?_, ?_⟩
  · rw [h1, List.range_eq_range', Nat.sub_zero]
    show List.range' 0 (scan s n thr).starts.length = _
    rw [w1]
  · intro g hg
    obtain ⟨b1, b2, b3, b4, b5⟩ := h2 g hg
    refine ⟨b1, b3, ?_, ?_⟩
    · intro i hi hj
      have := b4 (i + 1 - g.1) (by omega) (by omega)
      rwa [show g.1 + (i + 1 - g.1) - 1 = i by omega] at this
    · intro h1
      exact b5 (by rw [show st.starts.length = st.maxs.length from w1]; exact h1)

/-- two pulses with a high dip and one after a low dip -/
def three (t : Nat) : ℚ := [0, 9, 6, 8, 0, 7, 0].getD t 0

example : groups three 2 5 (scan three 7 2).starts (ends 7 (scan three 7 2)) 3 0 = [(0, 2), (2, 1)] := by
  decide +kernel

/-! ### C302 the window of a group -/

theorem trimUp_spec (s : Nat → ℚ) (n : Nat) (half : ℚ) (t m : Nat) (htm : t ≤ m) (hm : m < n) (hs : half ≤ s m) :
    ∃ a, trimUp s n half t = some a ∧ t ≤ a ∧ a ≤ m ∧ half ≤ s a ∧ ∀ u, t ≤ u → u < a → s u < half := by
  induction hd : m - t generalizing t with
  | zero =>
    have : t = m := by omega
    subst this
    rw [trimUp, if_pos hm, if_neg (by linarith)]
    exact ⟨t, rfl, le_refl _, le_refl _, hs, by omega⟩
  | succ d ih =>
    rw [trimUp, if_pos (by omega)]
    by_cases hc : s t < half
    · rw [if_pos hc]
      obtain ⟨a, h1, h2, h3, h4, h5⟩ := ih (t + 1) (by omega) (by omega)
      refine ⟨a, h1, by omega, h3, h4, ?_⟩
      intro u hu hua
      by_cases h : u = t
      · rw [h]; exact hc
      · exact h5 u (by omega) hua
    · rw [if_neg hc]
      exact ⟨t, rfl, le_refl _, htm, by linarith, by omega⟩

theorem trimDown_spec (s : Nat → ℚ) (half : ℚ) (m : Nat) (hs : half ≤ s m) : ∀ t, m ≤ t →
    ∃ b, trimDown s half t = some b ∧ m ≤ b ∧ b ≤ t ∧ half ≤ s b ∧ ∀ u, b < u → u ≤ t → s u < half := by
  intro t
  induction t with
  | zero =>
    intro hm
    have : m = 0 := by omega
    subst this
    rw [trimDown, if_neg (by linarith)]
    exact ⟨0, rfl, le_refl _, le_refl _, hs, by omega⟩
  | succ t ih =>
    intro hm
    rw [trimDown]
    by_cases hc : s (t + 1) < half
    · rw [if_pos hc]
      have : m ≠ t + 1 := by rintro rfl; linarith
      obtain ⟨b, h1, h2, h3, h4, h5⟩ := ih (by omega)
      refine ⟨b, h1, h2, by omega, h4, ?_⟩
      intro u hu hut
      by_cases h : u = t + 1
      · rw [h]; exact hc
      · exact h5 u hu (by omega)
    · rw [if_neg hc]
      exact ⟨t + 1, rfl, hm, le_refl _, by linarith, by omega⟩

theorem foldMin (l : List ℚ) : ∀ m : ℚ, l.foldl (fun m x => if x < m then x else m) m ≤ m ∧
    (∀ x ∈ l, l.foldl (fun m x => if x < m then x else m) m ≤ x) ∧
    (l.foldl (fun m x => if x < m then x else m) m = m ∨ l.foldl (fun m x => if x < m then x else m) m ∈ l) := by
  induction l with
  | nil => intro m; simp
  | cons a l ih =>
    intro m
    rw [List.foldl_cons]
    obtain ⟨h1, h2, h3⟩ := ih (if a < m then a else m)
    have ha : (if a < m then a else m) ≤ a := by split_ifs with h <;> linarith
    have hm : (if a < m then a else m) ≤ m := by split_ifs with h <;> linarith
    refine ⟨le_trans h1 hm, ?_, ?_⟩
    · intro x hx
      rcases List.mem_cons.1 hx with rfl | hx
      · exact le_trans h1 ha
      · exact h2 x hx
    · rcases h3 with h3 | h3
      · rw [h3]
        split_ifs
        · right; simp
        · left; rfl
      · right; exact List.mem_cons_of_mem _ h3

/-- the smallest peak of a group is one of its peaks and not above any of them -/
theorem minPeak_spec (s : Nat → ℚ) (maxs : List Nat) (h k : Nat) (hk : 1 ≤ k) :
    (∀ j, j < k → minPeak s maxs h k ≤ s (maxs.getD (h + j) 0)) ∧
    ∃ j, j < k ∧ minPeak s maxs h k = s (maxs.getD (h + j) 0) := by
  unfold minPeak
  obtain ⟨h1, h2, h3⟩ := foldMin ((List.range (k - 1)).map fun j => s (maxs.getD (h + (j + 1)) 0)) (s (maxs.getD h 0))
  refine ⟨?_, ?_⟩
  · intro j hj
    rcases j with _ | j
    · exact h1
    · exact h2 _ (List.mem_map.2 ⟨j, List.mem_range.2 (by omega), rfl⟩)
  · rcases h3 with h3 | h3
    · exact ⟨0, by omega, h3⟩
    · obtain ⟨j, hj, he⟩ := List.mem_map.1 h3
      exact ⟨j + 1, by have := List.mem_range.1 hj; omega, he.symm⟩

theorem maxs_sorted (s : Nat → ℚ) (n : Nat) (thr : ℚ) : (scan s n thr).maxs.Pairwise (· < ·) := by
  rw [C298_peaks]
  exact List.Pairwise.filter _ List.pairwise_lt_range

/-- C302 (part): with a threshold that is not negative, the window of a group exists and lies in the signal between the
start of its first and the end of its last pulse; it holds all peaks of the group, and it begins and ends with the first and
the last tick (between that start and that end) that is not below half the smallest peak of the group. -/
theorem C302_window_partial (s : Nat → ℚ) (n : Nat) (thr : ℚ) (maxMulti : Int) (hthr : 0 ≤ thr) :
    let st := scan s n thr
    ∀ g ∈ groups s thr maxMulti st.starts (ends n st) st.starts.length 0,
      ∃ a b small, window s n st g = some (a, b) ∧ b < n ∧
        st.starts.getD g.1 0 ≤ a ∧ b ≤ (ends n st).getD (g.1 + g.2 - 1) 0 ∧
        (∀ i, g.1 ≤ i → i < g.1 + g.2 → a ≤ st.maxs.getD i 0 ∧ st.maxs.getD i 0 ≤ b ∧ small ≤ s (st.maxs.getD i 0)) ∧
        (∃ i, g.1 ≤ i ∧ i < g.1 + g.2 ∧ small = s (st.maxs.getD i 0)) ∧
        small / 2 ≤ s a ∧ small / 2 ≤ s b ∧
        (∀ u, st.starts.getD g.1 0 ≤ u → u < a → s u < small / 2) ∧
        (∀ u, b < u → u ≤ (ends n st).getD (g.1 + g.2 - 1) 0 → s u < small / 2) := by
  intro st g hg
  obtain ⟨w1, w2, w3⟩ := C299_windows s n thr
  obtain ⟨-, h2⟩ := groups_spec s thr maxMulti st.starts (ends n st) (by rw [w2, w1]) st.starts.length 0 (by omega)
    (by omega)
  obtain ⟨b1, b2, -, -, -⟩ := h2 g hg
  have w1' : st.starts.length = st.maxs.length := w1
  have w2' : (ends n st).length = st.maxs.length := w2
  obtain ⟨p1, j0, p2, p3⟩ := minPeak_spec s st.maxs g.1 g.2 b1
  have hget : ∀ i, i < st.maxs.length → ∃ m, st.maxs[i]? = some m ∧ st.maxs.getD i 0 = m := by
    intro i hi
    refine ⟨st.maxs[i], List.getElem?_eq_getElem hi, ?_⟩
    simp [hi]
  have hpk : ∀ i, i < st.maxs.length → IsPeak s n thr (st.maxs.getD i 0) := by
    intro i hi
    obtain ⟨m, hm, he⟩ := hget i hi
    have := List.mem_of_getElem? hm
    rw [show st.maxs = _ from C298_peaks s n thr] at this
    rw [he]
    simpa using (List.mem_filter.1 this).2
  have hwin : ∀ i, i < st.maxs.length → st.starts.getD i 0 ≤ st.maxs.getD i 0 ∧
      st.maxs.getD i 0 < (ends n st).getD i 0 ∧ (ends n st).getD i 0 < n := by
    intro i hi
    have e1 : st.starts[i]? = some (st.starts.getD i 0) := by
      rw [List.getElem?_eq_getElem (by omega)]; simp [show i < st.starts.length by omega]
    have e2 : st.maxs[i]? = some (st.maxs.getD i 0) := by
      rw [List.getElem?_eq_getElem hi]; simp [hi]
    have e3 : (ends n st)[i]? = some ((ends n st).getD i 0) := by
      rw [List.getElem?_eq_getElem (by omega)]; simp [show i < (ends n st).length by omega]
    exact w3 i _ _ _ e1 e2 e3
  have hpos : 0 < minPeak s st.maxs g.1 g.2 := by
    rw [p3]
    exact lt_of_le_of_lt hthr (hpk (g.1 + j0) (by omega)).2.2.2.2
  have hhalf : ∀ j, j < g.2 → minPeak s st.maxs g.1 g.2 / 2 ≤ s (st.maxs.getD (g.1 + j) 0) := by
    intro j hj
    have := p1 j hj
    linarith
  obtain ⟨a, a1, a2, a3, a4, a5⟩ := trimUp_spec s n (minPeak s st.maxs g.1 g.2 / 2) (st.starts.getD g.1 0)
    (st.maxs.getD g.1 0) (hwin g.1 (by omega)).1 (by have := (hpk g.1 (by omega)).2.1; omega) (hhalf 0 (by omega))
  have hl := hwin (g.1 + g.2 - 1) (by omega)
  obtain ⟨b, c1, c2, c3, c4, c5⟩ := trimDown_spec s (minPeak s st.maxs g.1 g.2 / 2) (st.maxs.getD (g.1 + g.2 - 1) 0)
    (by have := hhalf (g.2 - 1) (by omega); rwa [show g.1 + (g.2 - 1) = g.1 + g.2 - 1 by omega] at this)
    ((ends n st).getD (g.1 + g.2 - 1) 0) (by omega)
  have hmono : ∀ i j, i ≤ j → j < st.maxs.length → st.maxs.getD i 0 ≤ st.maxs.getD j 0 := by
    intro i j hij hj
    rcases Nat.lt_or_ge i j with h | h
    · have := (List.pairwise_iff_getElem.1 (maxs_sorted s n thr)) i j (by show i < st.maxs.length; omega) hj h
      have e1 : st.maxs.getD i 0 = st.maxs[i]'(by omega) := by simp [show i < st.maxs.length by omega]
      have e2 : st.maxs.getD j 0 = st.maxs[j] := by simp [hj]
      rw [e1, e2]
      exact le_of_lt this
    · have : i = j := by omega
      rw [this]
  refine ⟨a, b, minPeak s st.maxs g.1 g.2, ?_, by omega, a2, c3, ?_, ⟨g.1 + j0, by omega, by omega, p3⟩, a4, c4, a5, c5⟩
  · unfold window
    rw [a1, c1]
  · intro i h1 h2
    refine ⟨le_trans a3 (hmono _ _ h1 (by omega)), le_trans (hmono _ _ (by omega) (by omega)) c2, ?_⟩
    have := p1 (i - g.1) (by omega)
    rwa [show g.1 + (i - g.1) = i by omega] at this

/-- C302 (refuted): with a negative threshold the search for the start of the window may leave the signal. -/
theorem C302_refuted : ¬ ∀ (s : Nat → ℚ) (n : Nat) (thr : ℚ) (maxMulti : Int),
    ∀ g ∈ groups s thr maxMulti (scan s n thr).starts (ends n (scan s n thr)) (scan s n thr).starts.length 0,
      (window s n (scan s n thr) g).isSome := by
  intro h
  have := h (fun t => [-4, -2, -4].getD t (-4)) 3 (-3) 1 (0, 1) (by decide +kernel)
  revert this
  decide +kernel

example : window three 7 (scan three 7 2) (0, 2) = some (1, 3) := by decide +kernel

/-! ### C303 the hits -/

/-- C303 (part): with a threshold that is not negative, whatever the fit gives, there are at most as many hits as peaks, and
each hit has an amplitude above half the threshold, a width above the smallest one, a window in the signal that holds a
peak, and as summed charge the sum of the signal from its first tick up to, without, its last; and its time, width and
amplitude are those of one and the same pulse of the fit of its window. -/
theorem C303_hits_partial (s : Nat → ℚ) (n : Nat) (thr minWidth : ℚ) (maxMulti : Int)
    (fit : Nat → Nat → Nat → Option (Nat → Pulse)) (hthr : 0 ≤ thr) :
    let hs := wireHits s n thr minWidth maxMulti fit
    hs.length ≤ ((List.range n).filter fun t => decide (IsPeak s n thr t)).length ∧
    ∀ h ∈ hs, thr / 2 < h.peakAmp ∧ minWidth < h.width ∧ h.startTick ≤ h.endTick ∧ h.endTick < n ∧
      (∃ t, IsPeak s n thr t ∧ h.startTick ≤ t ∧ t ≤ h.endTick) ∧
      h.summedADC = ((List.range' h.startTick (h.endTick - h.startTick)).map s).sum ∧
      ∃ k i p, fit h.startTick h.endTick k = some p ∧ i < k ∧ h.peakTime = (p i).pos ∧ h.width = (p i).width ∧
        h.peakAmp = (p i).amp := by
  intro hs
  have hgs := C301_groups s n thr maxMulti
  have hw := C302_window_partial s n thr maxMulti hthr
  dsimp only at hgs hw
  obtain ⟨g1, g2⟩ := hgs
  have hh : hs = (groups s thr maxMulti (scan s n thr).starts (ends n (scan s n thr)) (scan s n thr).starts.length 0).flatMap
    (groupHits s n thr minWidth fit (scan s n thr)) := rfl
  have hlen : (groups s thr maxMulti (scan s n thr).starts (ends n (scan s n thr)) (scan s n thr).starts.length 0).flatMap
      (fun g => List.range' g.1 g.2) = List.range (scan s n thr).maxs.length := g1
  generalize groups s thr maxMulti (scan s n thr).starts (ends n (scan s n thr)) (scan s n thr).starts.length 0 = gs at *
  constructor
  · rw [← C298_peaks, ← List.length_range (n := (scan s n thr).maxs.length), ← hlen, hh]
    clear hlen hh g1 g2 hw
    induction gs with
    | nil => simp
    | cons g gs ih =>
      rw [List.flatMap_cons, List.flatMap_cons, List.length_append, List.length_append, List.length_range']
      have : (groupHits s n thr minWidth fit (scan s n thr) g).length ≤ g.2 := by
        unfold groupHits
        split
        · simp
        · split
          · simp
          · rw [List.length_map]
            exact le_trans (List.length_filter_le _ _) (by simp)
      omega
  · intro h hm
    rw [hh] at hm
    obtain ⟨g, hg, hm⟩ := List.mem_flatMap.1 hm
    obtain ⟨a, b, small, w1, w2, w3, w4, w5, w6, -⟩ := hw g hg
    have hk := (g2 g hg).1
    unfold groupHits at hm
    rw [w1] at hm
    simp only at hm
    split at hm
    · simp at hm
    · rename_i p hfit
      obtain ⟨i, hi, rfl⟩ := List.mem_map.1 hm
      have hik := List.mem_range.1 (List.mem_filter.1 hi).1
      have hi := (List.mem_filter.1 hi).2
      simp only [decide_eq_true_eq] at hi
      have hp := w5 g.1 (le_refl _) (by omega)
      refine ⟨hi.1, hi.2, le_trans hp.1 hp.2.1, w2, ⟨(scan s n thr).maxs.getD g.1 0, ?_, hp.1, hp.2.1⟩, rfl, g.2, i, p, hfit, hik, rfl, rfl, rfl⟩
      have hmem : g.1 ∈ List.range (scan s n thr).maxs.length := by
        rw [← hlen]
        exact List.mem_flatMap.2 ⟨g, hg, List.mem_range'.2 ⟨0, by omega, by omega⟩⟩
      have hlt := List.mem_range.1 hmem
      have : (scan s n thr).maxs.getD g.1 0 ∈ (scan s n thr).maxs := by
        rw [show (scan s n thr).maxs.getD g.1 0 = (scan s n thr).maxs[g.1] by simp [hlt]]
        exact List.getElem_mem hlt
      rw [C298_peaks] at this ⊢
      simpa using (List.mem_filter.1 this).2

/-- a signal of one high tick -/
def spike (t : Nat) : ℚ := [0, 10, 0].getD t 0

/-- C303 (refuted): a hit does not always hold the signal it was found in: for a pulse of which only the peak is above half
its height the window is empty and the summed charge zero. -/
theorem C303_refuted : ¬ ∀ (s : Nat → ℚ) (n : Nat) (thr minWidth : ℚ) (maxMulti : Int)
    (fit : Nat → Nat → Nat → Option (Nat → Pulse)), 0 ≤ thr →
    ∀ h ∈ wireHits s n thr minWidth maxMulti fit, h.startTick < h.endTick ∧ 0 < h.summedADC := by
  intro h
  have := h spike 3 1 0 1 (fun _ _ _ => some fun _ => ⟨10, 1, 1⟩) (by norm_num) ⟨1, 1, 1, 1, 10, 0⟩ (by
    have e : wireHits spike 3 1 0 1 (fun _ _ _ => some fun _ => ⟨10, 1, 1⟩) = [⟨1, 1, 1, 1, 10, 0⟩] := by
      unfold wireHits
      dsimp only
      rw [show groups spike 1 1 (scan spike 3 1).starts (ends 3 (scan spike 3 1)) (scan spike 3 1).starts.length 0 =
        [(0, 1)] by decide +kernel]
      rw [List.flatMap_cons, List.flatMap_nil, List.append_nil]
      unfold groupHits
      rw [show window spike 3 (scan spike 3 1) (0, 1) = some (1, 1) by decide +kernel]
      simp [List.range_succ]
      norm_num
    rw [e]
    simp)
  exact absurd this.1 (by simp)

example : (wireHits three 7 2 0 5 fun _ _ _ => some fun i => ⟨8 - i, i, 1⟩).length = 3 := by decide +kernel

end Verif.FFTHit

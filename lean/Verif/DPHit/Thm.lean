import Verif.DPHit.Model
import Mathlib.Algebra.Order.AbsoluteValue.Basic
import Mathlib.Data.List.Perm.Basic
import Mathlib.Data.List.Forall2
import Mathlib.Data.List.Chain
import Mathlib.Tactic.Linarith
import Mathlib.Tactic.Ring
import Mathlib.Tactic.NormNum

/-!
# Theorems about the hit finder of the dual phase detector: candidates and groups
-/

namespace Verif.DPHit

/-! ## C347: candidates -/

theorem maxEl_spec (s : Int → ℚ) (a : Int) (k : Nat) :
    a ≤ maxEl s a k ∧ maxEl s a k ≤ a + k ∧ (∀ t, a ≤ t → t ≤ a + k → s t ≤ s (maxEl s a k)) := by
  induction k with
  | zero =>
    refine ⟨le_refl _, by simp [maxEl], fun t h1 h2 => ?_⟩
    have : t = a := by simp at h2; omega
    rw [this]; exact le_refl _
  | succ k ih =>
    obtain ⟨h1, h2, h3⟩ := ih
    unfold maxEl
    dsimp only
    split
    · rename_i h
      refine ⟨by omega, by push_cast; omega, fun t ha hb => ?_⟩
      by_cases ht : t ≤ a + k
      · exact le_of_lt (lt_of_le_of_lt (h3 t ha ht) h)
      · have : t = a + (k + 1) := by push_cast at hb; omega
        rw [this]
    · rename_i h
      refine ⟨h1, by push_cast; omega, fun t ha hb => ?_⟩
      by_cases ht : t ≤ a + k
      · exact h3 t ha ht
      · have : t = a + (k + 1) := by push_cast at hb; omega
        rw [this]; exact not_lt.1 h

theorem stepBack_spec (s : Int → ℚ) (T : Nat) (start : Int) (f : Nat) (i : Int) (hi : start ≤ i) (hf : (i - start).toNat ≤ f) :
    start ≤ stepBack s T start f i ∧ stepBack s T start f i ≤ i ∧ ∀ t, stepBack s T start f i < t → t ≤ i → 0 < s t := by
  induction f generalizing i with
  | zero => exact ⟨hi, le_refl _, fun t h1 h2 => absurd h1 (not_lt.2 h2)⟩
  | succ f ih =>
    unfold stepBack
    split
    · exact ⟨hi, le_refl _, fun t h1 h2 => absurd h1 (not_lt.2 h2)⟩
    · split
      · exact ⟨hi, le_refl _, fun t h1 h2 => absurd h1 (not_lt.2 h2)⟩
      · rename_i h0 h1
        obtain ⟨a, b, c⟩ := ih (i - 1) (by omega) (by omega)
        refine ⟨a, by omega, fun t h2 h3 => ?_⟩
        by_cases ht : t = i
        · rw [ht]
          by_contra hn
          apply h1
          unfold isStart
          rw [decide_eq_true (not_lt.1 hn), Bool.true_or]
        · exact c t h2 (by omega)

theorem stepFwd_spec (s : Int → ℚ) (T : Nat) (stop : Int) (f : Nat) (i : Int) (hi : i ≤ stop) (hf : (stop - i).toNat ≤ f) :
    i ≤ stepFwd s T stop f i ∧ stepFwd s T stop f i ≤ stop ∧ ∀ t, i ≤ t → t < stepFwd s T stop f i → 0 < s t := by
  induction f generalizing i with
  | zero => exact ⟨le_refl _, hi, fun t h1 h2 => absurd h1 (not_le.2 h2)⟩
  | succ f ih =>
    unfold stepFwd
    split
    · exact ⟨le_refl _, hi, fun t h1 h2 => absurd h1 (not_le.2 h2)⟩
    · split
      · exact ⟨le_refl _, hi, fun t h1 h2 => absurd h1 (not_le.2 h2)⟩
      · rename_i h0 h1
        obtain ⟨a, b, c⟩ := ih (i + 1) (by omega) (by omega)
        refine ⟨by omega, b, fun t h2 h3 => ?_⟩
        by_cases ht : t = i
        · rw [ht]
          by_contra hn
          apply h1
          unfold isEnd
          rw [decide_eq_true (not_lt.1 hn), Bool.true_or]
        · exact c t (by omega) h3

/-- What a search of the ticks from `a` to before `b` has to give. -/
structure Good (s : Int → ℚ) (minSig : ℚ) (a b : Int) (l : List Cand) : Prop where
  /-- in order, without overlap -/
  order : l.Pairwise fun p q => p.stop < q.start
  inside : ∀ p ∈ l, a ≤ p.start ∧ p.start ≤ p.max ∧ p.max ≤ p.stop ∧ p.max < b ∧ p.stop ≤ b
  high : ∀ p ∈ l, minSig ≤ s p.max ∧ ∀ t, p.start ≤ t → t < p.stop → s t ≤ s p.max
  shape : ∀ p ∈ l, (p.max - p.start ≤ 2 ∨ ∀ t, p.start < t → t < p.max → 0 < s t) ∧ (p.stop - p.max ≤ 2 ∨ ∀ t, p.max < t → t < p.stop → 0 < s t)
  /-- five ticks before a sixth, all outside of the candidates, are below the threshold -/
  complete : ∀ x, a ≤ x → x + 5 ≤ b → (∀ p ∈ l, x + 5 < p.start ∨ p.stop < x) → ∀ t, x ≤ t → t < x + 5 → s t < minSig
  top : b - a > 4 → ∀ t, a ≤ t → t < b → minSig ≤ s t → ∃ p ∈ l, ∀ t, a ≤ t → t < b → s t ≤ s p.max

theorem find_good (s : Int → ℚ) (T : Nat) (minSig : ℚ) (f : Nat) (a b : Int) (hf : (b - a).toNat ≤ f) : Good s minSig a b (find s T minSig f a b a) := by
  induction f generalizing a b with
  | zero =>
    refine ⟨by simp [find], by simp [find], by simp [find], by simp [find], fun x h1 h2 => by omega, fun h => by omega⟩
  | succ f ih =>
    unfold find
    by_cases h4 : b - a > 4
    · rw [if_pos h4]
      dsimp only
      have hM := maxEl_spec s a (b - a - 1).toNat
      generalize maxEl s a (b - a - 1).toNat = m at *
      obtain ⟨m1, m2, m3⟩ := hM
      have m2' : m < b := by omega
      have m3' : ∀ t, a ≤ t → t < b → s t ≤ s m := fun t h1 h2 => m3 t h1 (by omega)
      by_cases hs : s m ≥ minSig
      · rw [if_pos hs]
        have hF := stepBack_spec s T a ((if m - a > 2 then m - 1 else a) - a).toNat (if m - a > 2 then m - 1 else a) (by split <;> omega) (le_refl _)
        have hL := stepFwd_spec s T b (b - (if b - m > 2 then m + 1 else b - 1)).toNat (if b - m > 2 then m + 1 else b - 1) (by split <;> omega) (le_refl _)
        generalize stepBack s T a ((if m - a > 2 then m - 1 else a) - a).toNat (if m - a > 2 then m - 1 else a) = first at *
        generalize stepFwd s T b (b - (if b - m > 2 then m + 1 else b - 1)).toNat (if b - m > 2 then m + 1 else b - 1) = last at *
        obtain ⟨f1, f2, f3⟩ := hF
        obtain ⟨l1, l2, l3⟩ := hL
        have fm : first ≤ m := by
          by_cases h : m - a > 2
          · rw [if_pos h] at f2; omega
          · rw [if_neg h] at f2; omega
        have ml : m ≤ last := by
          by_cases h : b - m > 2
          · rw [if_pos h] at l1; omega
          · rw [if_neg h] at l1; omega
        have e1 : a + (first - a) = first := by ring
        have e2 : a + (m - a) = m := by ring
        have e3 : a + (last - a) = last := by ring
        have e4 : a + (last + 1 - a) = last + 1 := by ring
        rw [e1, e2, e3, e4]
        have A := ih a (first - 1) (by omega)
        have B := ih (last + 1) b (by omega)
        generalize find s T minSig f a (first - 1) a = LA at *
        generalize find s T minSig f (last + 1) b (last + 1) = LB at *
        refine ⟨?_, ?_, ?_, ?_, ?_, ?_⟩
        · rw [List.pairwise_append, List.pairwise_cons]
          refine ⟨A.order, ⟨fun q hq => ?_, B.order⟩, fun p hp q hq => ?_⟩
          · have := (B.inside q hq).1; dsimp only; omega
          · have h1 := (A.inside p hp).2.2.2.2
            rcases List.mem_cons.1 hq with rfl | hq
            · dsimp only; omega
            · have := (B.inside q hq).1; omega
        · intro p hp
          rcases List.mem_append.1 hp with hp | hp
          · have := A.inside p hp; omega
          · rcases List.mem_cons.1 hp with rfl | hp
            · exact ⟨f1, fm, ml, m2', l2⟩
            · have := B.inside p hp; omega
        · intro p hp
          rcases List.mem_append.1 hp with hp | hp
          · exact A.high p hp
          · rcases List.mem_cons.1 hp with rfl | hp
            · exact ⟨hs, fun t h1 h2 => m3' t (by dsimp only at h1; omega) (by dsimp only at h2; omega)⟩
            · exact B.high p hp
        · intro p hp
          rcases List.mem_append.1 hp with hp | hp
          · exact A.shape p hp
          · rcases List.mem_cons.1 hp with rfl | hp
            · constructor
              · by_cases h : m - a > 2
                · rw [if_pos h] at f3
                  exact Or.inr fun t h1 h2 => f3 t h1 (by dsimp only at h2; omega)
                · exact Or.inl (by dsimp only; omega)
              · by_cases h : b - m > 2
                · rw [if_pos h] at l3
                  exact Or.inr fun t h1 h2 => l3 t (by dsimp only at h1; omega) h2
                · exact Or.inl (by dsimp only; omega)
            · exact B.shape p hp
        · intro x hx1 hx2 hout t ht1 ht2
          have hself := hout ⟨first, m, last⟩ (List.mem_append_right _ List.mem_cons_self)
          dsimp only at hself
          rcases hself with h | h
          · exact A.complete x hx1 (by omega) (fun p hp => hout p (List.mem_append_left _ hp)) t ht1 ht2
          · exact B.complete x (by omega) hx2 (fun p hp => hout p (List.mem_append_right _ (List.mem_cons_of_mem _ hp))) t ht1 ht2
        · intro _ t _ _ _
          exact ⟨⟨first, m, last⟩, List.mem_append_right _ List.mem_cons_self, m3'⟩
      · rw [if_neg hs]
        refine ⟨List.Pairwise.nil, by simp, by simp, by simp, ?_, ?_⟩
        · intro x hx1 hx2 _ t ht1 ht2
          exact lt_of_le_of_lt (m3' t (by omega) (by omega)) (not_le.1 hs)
        · intro _ t h1 h2 h3
          exact absurd (h3.trans (m3' t h1 h2)) hs
    · rw [if_neg h4]
      exact ⟨List.Pairwise.nil, by simp, by simp, by simp, fun x h1 h2 => by omega, fun h => by omega⟩

theorem candidates_good (s : Int → ℚ) (T : Nat) (minSig : ℚ) (n : Nat) : Good s minSig 0 n (candidates s T minSig n) :=
  find_good s T minSig n 0 n (by omega)

/-- **C347.** The candidates of a region of `n` ticks are in order and do not overlap; each starts in the region, its maximum is a tick of the region between
its start and its end with a signal of at least the threshold, and no tick before its end is higher.  The end is at most `n`. -/
theorem C347_candidates_partial (s : Int → ℚ) (T : Nat) (minSig : ℚ) (n : Nat) :
    ((candidates s T minSig n).Pairwise fun p q => p.stop < q.start) ∧
    ∀ p ∈ candidates s T minSig n, 0 ≤ p.start ∧ p.start ≤ p.max ∧ p.max ≤ p.stop ∧ p.max < n ∧ p.stop ≤ n ∧ minSig ≤ s p.max ∧
      ∀ t, p.start ≤ t → t < p.stop → s t ≤ s p.max := by
  have G := candidates_good s T minSig n
  refine ⟨G.order, fun p hp => ?_⟩
  have h := G.inside p hp
  exact ⟨h.1, h.2.1, h.2.2.1, h.2.2.2.1, h.2.2.2.2, G.high p hp⟩

/-- A signal given by a list; 0 outside. -/
def sig (l : List ℚ) : Int → ℚ := fun t => if 0 ≤ t then (l[t.toNat]?).getD 0 else 0

/-- **C347 refuted** for the last tick: a falling signal has a candidate that ends at the first tick after the region. -/
theorem C347_refuted : candidates (sig [9, 8, 7, 6, 5]) 1 5 5 = [⟨0, 0, 5⟩] := by decide +kernel

/-- **C347 refuted** for the maximum: the last tick of a candidate can be higher than its maximum (the tick before the start of the next candidate is left out
of the search, but taken as the end). -/
theorem C347_max_refuted : ⟨0, 0, 5⟩ ∈ candidates (sig [6, 6, 6, 6, 6, 8, 1, 9, 8, 7, 1, 0, 0]) 2 2 13 ∧
    sig [6, 6, 6, 6, 6, 8, 1, 9, 8, 7, 1, 0, 0] 0 < sig [6, 6, 6, 6, 6, 8, 1, 9, 8, 7, 1, 0, 0] 5 := by
  decide +kernel

example : candidates (sig [0, 1, 6, 9, 6, 1, 0, 0, 0, 2, 7, 8, 3, 0, 0]) 2 5 15 = [⟨0, 3, 6⟩, ⟨8, 11, 13⟩] := by decide +kernel

/-! ## C348, C349: shape and completeness -/

/-- **C348.** Between the start and the maximum of a candidate, and between its maximum and its end, the signal is positive, but for parts of two ticks at most. -/
theorem C348_positive_partial (s : Int → ℚ) (T : Nat) (minSig : ℚ) (n : Nat) : ∀ p ∈ candidates s T minSig n,
    (p.max - p.start ≤ 2 ∨ ∀ t, p.start < t → t < p.max → 0 < s t) ∧ (p.stop - p.max ≤ 2 ∨ ∀ t, p.max < t → t < p.stop → 0 < s t) :=
  (candidates_good s T minSig n).shape

/-- **C348 refuted** for the short parts: a candidate whose maximum is in the first three ticks begins with the region, although the signal between is negative. -/
theorem C348_refuted : candidates (sig [0, -3, 9, 1, 0, 0, 0]) 1 5 7 = [⟨0, 2, 4⟩] := by decide +kernel

/-- **C349.** The highest tick of a region of five ticks or more is the maximum of a candidate if it is at the threshold or above; and if six ticks in a row are
outside all candidates, the first five are below the threshold. -/
theorem C349_complete_partial (s : Int → ℚ) (T : Nat) (minSig : ℚ) (n : Nat) :
    (4 < n → ∀ t : Int, 0 ≤ t → t < n → minSig ≤ s t → ∃ p ∈ candidates s T minSig n, ∀ t : Int, 0 ≤ t → t < n → s t ≤ s p.max) ∧
    ∀ x : Int, 0 ≤ x → x + 5 ≤ n → (∀ p ∈ candidates s T minSig n, x + 5 < p.start ∨ p.stop < x) → ∀ t, x ≤ t → t < x + 5 → s t < minSig := by
  have G := candidates_good s T minSig n
  exact ⟨fun h => G.top (by omega), G.complete⟩

/-- **C349 refuted** in general: four ticks above the threshold between two candidates are not found; neither is anything in a region of four ticks. -/
theorem C349_refuted : candidates (sig [9, 9, 9, 9]) 1 5 4 = [] ∧
    candidates (sig [0, 0, 0, 9, 0, 8, 8, 8, 8, 0, 0, 9, 0, 0]) 1 5 14 = [⟨2, 3, 4⟩, ⟨10, 11, 12⟩] := by decide +kernel

example : ∀ p ∈ candidates (sig [0, 1, 6, 9, 6, 1, 0, 0, 0, 0, 0, 0, 0, 0, 2, 7, 8, 3, 0, 0]) 2 5 20, (7 : Int) + 5 < p.start ∨ p.stop < 7 := by decide +kernel

/-! ## C350, C351: groups -/

/-- The two candidates are near: the gap is small enough, and the signal does not go below the limit in it. -/
def Near (c : GCfg) (s : Int → ℚ) (a b : Cand) : Prop :=
  b.start - a.stop ≤ c.maxDist ∧ c.minADC ≤ s a.stop ∧ ∀ t, a.stop ≤ t → t ≤ b.start → c.minADC ≤ s t

/-- The peak stands for the candidates of the list: from the start of the first to the end of the last, with the highest of their maxima; all others have
maxima up to the limit for merging. -/
structure Rep (c : GCfg) (s : Int → ℚ) (p : Pk) (l : List Cand) : Prop where
  start : l.head?.map Cand.start = some p.start
  stop : l.getLast?.map Cand.stop = some p.stop
  wid : p.wid = p.stop - p.start
  max : ∃ x ∈ l, p.max = x.max ∧ (∀ d ∈ l, s d.max ≤ s x.max) ∧ ∀ d ∈ l, d = x ∨ s d.max ≤ c.limit
  single : c.merge = false → l.length = 1

/-- The group is made of the candidates of the list. -/
structure GroupOf (c : GCfg) (s : Int → ℚ) (g : Grp) (l : List Cand) : Prop where
  start : l.head?.map Cand.start = some g.start
  stop : l.getLast?.map Cand.stop = some g.stop
  fluct : g.fluct = (l.map fun a => fluct s a.start a.max a.stop).sum
  peaks : ∃ sub : List (List Cand), sub.flatten = l ∧ List.Forall₂ (Rep c s) g.peaks sub
  near : l.IsChain (Near c s)

theorem minSig_ge (s : Int → ℚ) (a : Int) (k : Nat) (x : ℚ) : minSig s a k ≥ x ↔ ∀ t, a ≤ t → t ≤ a + k → x ≤ s t := by
  induction k with
  | zero =>
    constructor
    · intro h t h1 h2
      have : t = a := by simp at h2; omega
      rw [this]; exact h
    · intro h; exact h a (le_refl _) (by simp)
  | succ k ih =>
    unfold minSig
    dsimp only
    constructor
    · intro h t h1 h2
      by_cases ht : t ≤ a + k
      · have hm : minSig s a k ≥ x := by
          split at h
          · exact le_trans h (le_of_lt ‹_›)
          · exact h
        exact ih.1 hm t h1 ht
      · have e : t = a + (k + 1) := by push_cast at h2; omega
        rw [e]
        split at h
        · exact h
        · exact le_trans h (not_lt.1 ‹_›)
    · intro h
      split
      · exact h _ (by omega) (by push_cast; omega)
      · exact ih.2 fun t h1 h2 => h t h1 (by push_cast; omega)

theorem near_iff (c : GCfg) (s : Int → ℚ) (a b : Cand) : near c s a.stop b.start = true ↔ Near c s a b := by
  unfold near Near
  rw [decide_eq_true_eq, minSig_ge]
  constructor
  · rintro ⟨h1, h2⟩
    exact ⟨h2, h1 _ (le_refl _) (by omega), fun t h3 h4 => h1 t h3 (by omega)⟩
  · rintro ⟨h1, h2, h3⟩
    refine ⟨fun t h4 h5 => ?_, h1⟩
    by_cases h : t ≤ b.start
    · exact h3 t h4 h
    · have : t = a.stop := by omega
      rw [this]; exact h2

/-- The invariant of the inner loop; `L` the candidates of the group so far, `z` the last of them. -/
structure Inv (c : GCfg) (s : Int → ℚ) (t : St) (final : Int) (fl : Nat) (L : List Cand) (z : Cand) : Prop where
  last : L.getLast? = some z
  stop : t.stop = z.stop
  final : final = z.stop
  fluct : fl = (L.map fun a => fluct s a.start a.max a.stop).sum
  near : L.IsChain (Near c s)
  peaks : ∃ P' S' l, t.peaks = P' ++ [⟨t.max, t.stop - t.start, t.start, t.stop⟩] ∧ List.Forall₂ (Rep c s) P' S' ∧
    Rep c s ⟨t.max, t.stop - t.start, t.start, t.stop⟩ l ∧ L = S'.flatten ++ l

theorem rep_single (c : GCfg) (s : Int → ℚ) (n : Cand) : Rep c s ⟨n.max, n.stop - n.start, n.start, n.stop⟩ [n] :=
  ⟨rfl, rfl, rfl, ⟨n, by simp, rfl, by simp, by simp⟩, fun _ => rfl⟩

theorem join_inv (c : GCfg) (s : Int → ℚ) (t : St) (final : Int) (fl : Nat) (L : List Cand) (z n : Cand) (h : Inv c s t final fl L z)
    (hn : near c s t.stop n.start = true) :
    Inv c s (join c s t n) n.stop (fl + fluct s n.start n.max n.stop) (L ++ [n]) n := by
  obtain ⟨h1, h2, h3, h4, h5, P', S', l, h6, h7, h8, h9⟩ := h
  have hlne : l ≠ [] := by
    rintro rfl
    have := h8.start
    simp at this
  have hsep : ∃ P'' S'' l', (t.peaks ++ [(⟨n.max, n.stop - n.start, n.start, n.stop⟩ : Pk)]) = P'' ++ [⟨n.max, n.stop - n.start, n.start, n.stop⟩] ∧
      List.Forall₂ (Rep c s) P'' S'' ∧ Rep c s ⟨n.max, n.stop - n.start, n.start, n.stop⟩ l' ∧ L ++ [n] = S''.flatten ++ l' := by
    refine ⟨t.peaks, S' ++ [l], [n], rfl, ?_, rep_single c s n, ?_⟩
    · rw [h6]
      exact List.rel_append h7 (List.Forall₂.cons h8 List.Forall₂.nil)
    · rw [h9]; simp
  have hmerged : ∀ m, c.merge = true → (∃ x ∈ l ++ [n], m = x.max ∧ (∀ d ∈ l ++ [n], s d.max ≤ s x.max) ∧ ∀ d ∈ l ++ [n], d = x ∨ s d.max ≤ c.limit) →
      Rep c s ⟨m, n.stop - t.start, t.start, n.stop⟩ (l ++ [n]) := by
    intro m hc hm
    refine ⟨?_, by simp, rfl, hm, fun h => by rw [hc] at h; cases h⟩
    have := h8.start
    rw [List.head?_append]
    cases l with
    | nil => exact absurd rfl hlne
    | cons a r => simpa using this
  have hchain : (L ++ [n]).IsChain (Near c s) := by
    rw [List.isChain_append]
    refine ⟨h5, by simp, ?_⟩
    intro x hx y hy
    rw [h1] at hx
    cases hx
    simp at hy
    subst hy
    rw [h2] at hn
    exact (near_iff c s z n).1 hn
  have hfl : fl + fluct s n.start n.max n.stop = ((L ++ [n]).map fun a => fluct s a.start a.max a.stop).sum := by
    rw [List.map_append, List.sum_append, h4]; simp
  have hlast : (L ++ [n]).getLast? = some n := by simp
  obtain ⟨x, hx, hxm, hxmax, hxlim⟩ := h8.max
  dsimp only at hxm
  unfold join
  by_cases hc : c.merge = true
  · rw [if_pos hc]
    by_cases ha : absorbNext c s t n = true
    · rw [if_pos ha]
      refine ⟨hlast, rfl, rfl, hfl, hchain, ?_⟩
      refine ⟨P', S', l ++ [n], ?_, h7, ?_, by rw [h9]; simp⟩
      · rw [h6]; simp
      · apply hmerged _ hc
        unfold absorbNext at ha
        simp only [decide_eq_true_eq] at ha
        refine ⟨x, List.mem_append_left _ hx, hxm, ?_, ?_⟩
        · intro d hd
          rcases List.mem_append.1 hd with hd | hd
          · exact hxmax d hd
          · simp at hd; subst hd; rw [← hxm]; exact ha.1
        · intro d hd
          rcases List.mem_append.1 hd with hd | hd
          · exact hxlim d hd
          · simp at hd; subst hd; exact Or.inr ha.2.2
    · rw [if_neg ha]
      by_cases hb : absorbCur c s t n = true
      · rw [if_pos hb]
        refine ⟨hlast, rfl, rfl, hfl, hchain, ?_⟩
        refine ⟨P', S', l ++ [n], ?_, h7, ?_, by rw [h9]; simp⟩
        · rw [h6]; simp
        · apply hmerged _ hc
          unfold absorbCur at hb
          simp only [decide_eq_true_eq] at hb
          refine ⟨n, by simp, rfl, ?_, ?_⟩
          · intro d hd
            rcases List.mem_append.1 hd with hd | hd
            · have := hxmax d hd
              rw [← hxm] at this
              exact le_of_lt (lt_of_le_of_lt this hb.1)
            · simp at hd; subst hd; exact le_refl _
          · intro d hd
            rcases List.mem_append.1 hd with hd | hd
            · right
              have := hxmax d hd
              rw [← hxm] at this
              exact le_trans this hb.2.2
            · simp at hd; subst hd; exact Or.inl rfl
      · rw [if_neg hb]
        exact ⟨hlast, rfl, rfl, hfl, hchain, hsep⟩
  · rw [if_neg hc]
    exact ⟨hlast, rfl, rfl, hfl, hchain, hsep⟩

theorem inner_spec (c : GCfg) (s : Int → ℚ) (rest : List Cand) (t : St) (final : Int) (fl : Nat) (L : List Cand) (z : Cand) (h : Inv c s t final fl L z) :
    ∃ more z' t', rest = more ++ (inner c s t final fl rest).2.2.2 ∧ (inner c s t final fl rest).1 = t'.peaks ∧
      Inv c s t' (inner c s t final fl rest).2.1 (inner c s t final fl rest).2.2.1 (L ++ more) z' ∧
      ∀ b ∈ (inner c s t final fl rest).2.2.2.head?, ¬ Near c s z' b := by
  induction rest generalizing t final fl L z with
  | nil => exact ⟨[], z, t, rfl, rfl, by simpa [inner] using h, by simp [inner]⟩
  | cons n rest ih =>
    unfold inner
    by_cases hn : near c s t.stop n.start = true
    · rw [if_pos hn]
      obtain ⟨more, z', t', a1, a2, a3, a4⟩ := ih _ _ _ _ _ (join_inv c s t final fl L z n h hn)
      exact ⟨n :: more, z', t', by rw [List.cons_append, ← a1], a2, by simpa using a3, a4⟩
    · rw [if_neg hn]
      refine ⟨[], z, t, rfl, rfl, by simpa using h, ?_⟩
      intro b hb
      simp at hb
      subst hb
      rw [h.stop] at hn
      exact fun h' => hn ((near_iff c s z n).2 h')

theorem groups_spec (c : GCfg) (s : Int → ℚ) (f : Nat) (l : List Cand) (hf : l.length ≤ f) :
    ∃ blocks : List (List Cand), blocks.flatten = l ∧ List.Forall₂ (GroupOf c s) (groups c s f l) blocks ∧
      blocks.IsChain (fun A B => ∀ a ∈ A.getLast?, ∀ b ∈ B.head?, ¬ Near c s a b) ∧ ∀ B ∈ blocks, B ≠ [] := by
  induction f generalizing l with
  | zero =>
    have : l = [] := by simpa using hf
    subst this
    exact ⟨[], rfl, by simp [groups], by simp, by simp⟩
  | succ f ih =>
    cases l with
    | nil => exact ⟨[], rfl, by simp [groups], by simp, by simp⟩
    | cons a rest =>
      unfold groups
      dsimp only
      have h0 : Inv c s ⟨a.start, a.max, a.stop, [⟨a.max, a.stop - a.start, a.start, a.stop⟩]⟩ a.stop (fluct s a.start a.max a.stop) [a] a :=
        ⟨rfl, rfl, rfl, by simp, by simp, ⟨[], [], [a], rfl, List.Forall₂.nil, rep_single c s a, rfl⟩⟩
      obtain ⟨more, z', t', a1, a2, a3, a4⟩ := inner_spec c s rest _ _ _ _ _ h0
      generalize inner c s ⟨a.start, a.max, a.stop, [⟨a.max, a.stop - a.start, a.start, a.stop⟩]⟩ a.stop (fluct s a.start a.max a.stop) rest = r at *
      have hlen : r.2.2.2.length ≤ f := by
        have := congrArg List.length a1
        simp at this hf
        omega
      obtain ⟨blocks, b1, b2, b3, b4⟩ := ih r.2.2.2 hlen
      refine ⟨(a :: more) :: blocks, ?_, ?_, ?_, ?_⟩
      · rw [List.flatten_cons, b1, List.cons_append, ← a1]
      · refine List.Forall₂.cons ?_ b2
        obtain ⟨P', S', l, c1, c2, c3, c4⟩ := a3.peaks
        refine ⟨rfl, ?_, ?_, ⟨S' ++ [l], ?_, ?_⟩, ?_⟩
        · have := a3.last
          rw [List.singleton_append] at this
          rw [this, a3.final]; rfl
        · rw [a3.fluct]; rfl
        · rw [List.flatten_append]; simpa using c4.symm
        · dsimp only
          rw [a2, c1]
          exact List.rel_append c2 (List.Forall₂.cons c3 List.Forall₂.nil)
        · exact a3.near
      · cases blocks with
        | nil => simp
        | cons B bs =>
          rw [List.isChain_cons_cons]
          refine ⟨?_, b3⟩
          intro x hx y hy
          have hl := a3.last
          rw [List.singleton_append] at hl
          rw [hl] at hx
          cases hx
          apply a4
          rw [← b1, List.flatten_cons, List.head?_append]
          have hB := b4 B List.mem_cons_self
          cases B with
          | nil => exact absurd rfl hB
          | cons u us => simpa using hy
      · intro B hB
        rcases List.mem_cons.1 hB with rfl | hB
        · simp
        · exact b4 B hB

/-- The groups of a list of candidates, as called from `produce`. -/
def allGroups (c : GCfg) (s : Int → ℚ) (l : List Cand) : List Grp := groups c s l.length l

/-- **C350, C351.** The candidates, in their order, are divided into runs of neighbours that are near; each run is one group, from the start of its first to the
end of its last candidate, with the fluctuations of all of them; the last candidate of a run is not near the first of the next. Each group is divided again into runs, each of which is one
peak of the group with the highest maximum of the run; without merging each run is a single candidate, and with merging all other maxima of the run are at most the limit. -/
theorem C350_groups (c : GCfg) (s : Int → ℚ) (l : List Cand) :
    ∃ blocks : List (List Cand), blocks.flatten = l ∧ List.Forall₂ (GroupOf c s) (allGroups c s l) blocks ∧
      blocks.IsChain (fun A B => ∀ a ∈ A.getLast?, ∀ b ∈ B.head?, ¬ Near c s a b) ∧ ∀ B ∈ blocks, B ≠ [] :=
  groups_spec c s l.length l (le_refl _)

example : allGroups ⟨1, 3, true, 1/2, 1/2, 1/10, 1/10, 100⟩ (sig [0, 9, 5, 2, 3, 2, 0, 0, 9, 0]) [⟨0, 1, 3⟩, ⟨3, 4, 6⟩, ⟨7, 8, 9⟩] =
    [⟨0, 6, [⟨1, 6, 0, 6⟩], 0⟩, ⟨7, 9, [⟨8, 2, 7, 9⟩], 0⟩] := by decide +kernel

end Verif.DPHit

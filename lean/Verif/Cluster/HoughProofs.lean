import Verif.Cluster.HoughModel
import Mathlib.Data.List.Pairwise
import Mathlib.Data.List.Basic
import Mathlib.Data.List.Sort
/-! Range updates of the block map -/
namespace Verif.Hough
open Verif

/-- keys `b, b+1, …` -/
def keysFrom (b : Int) (n : Nat) : List Int := (List.range n).map (fun i : Nat => b + (i : Int))

theorem keysFrom_zero (b : Int) : keysFrom b 0 = [] := rfl
theorem keysFrom_succ (b : Int) (n : Nat) : keysFrom b (n + 1) = b :: keysFrom (b + 1) n := by
  unfold keysFrom
  rw [List.range_succ_eq_map, List.map_cons, List.map_map]
  simp only [Nat.cast_zero, add_zero, List.cons.injEq, true_and]
  apply List.map_congr_left
  intro i _
  simp; ring
theorem keysFrom_add (b : Int) (n m : Nat) : keysFrom b (n + m) = keysFrom b n ++ keysFrom (b + n) m := by
  induction n generalizing b with
  | zero => simp [keysFrom_zero]
  | succ n ih =>
    rw [show n + 1 + m = (n + m) + 1 by omega, keysFrom_succ, keysFrom_succ, ih, List.cons_append]
    congr 3
    push_cast; ring
theorem mem_keysFrom {b k : Int} {n : Nat} : k ∈ keysFrom b n ↔ b ≤ k ∧ k < b + n := by
  unfold keysFrom
  rw [List.mem_map]
  constructor
  · rintro ⟨i, hi, rfl⟩
    have := List.mem_range.1 hi
    omega
  · rintro ⟨h1, h2⟩
    exact ⟨(k - b).toNat, List.mem_range.2 (by omega), by omega⟩

/-- running maximum: the first entry with the largest value above the start value -/
def best (l : List (Int × Int)) (m : Max) : Max := l.foldl (fun m e => if e.2 > m.2 then (some e.1, e.2) else m) m

theorem best_append (l1 l2 : List (Int × Int)) (m : Max) : best (l1 ++ l2) m = best l2 (best l1 m) := by
  simp [best, List.foldl_append]

theorem addInner_spec (blk delta : Int) (n c : Nat) (B : Block) (mx : Max) :
    (∀ j, (addInner blk delta n c B mx).1 j = if c ≤ j ∧ j < c + n then wrap8 (B j + delta) else B j) ∧
    (addInner blk delta n c B mx).2 =
      best ((keysFrom (blk + c) n).map (fun k => (k, wrap8 (B (k - blk).toNat + delta)))) mx := by
  induction n generalizing c B mx with
  | zero =>
    refine ⟨fun j => ?_, rfl⟩
    rw [if_neg (by omega)]; rfl
  | succ n ih =>
    obtain ⟨h1, h2⟩ := ih (c + 1) (fun j => if j = c then wrap8 (B c + delta) else B j)
      (if wrap8 (B c + delta) > mx.2 then (some (blk + c), wrap8 (B c + delta)) else mx)
    constructor
    · intro j
      show (addInner blk delta n (c + 1) _ _).1 j = _
      rw [h1 j]
      by_cases hj : j = c
      · subst hj
        rw [if_neg (by omega), if_pos rfl, if_pos (by omega)]
      · rw [if_neg hj]
        by_cases hc : c + 1 ≤ j ∧ j < c + 1 + n
        · rw [if_pos hc, if_pos (by omega)]
        · rw [if_neg hc, if_neg (by omega)]
    · show (addInner blk delta n (c + 1) _ _).2 = _
      rw [h2, keysFrom_succ, List.map_cons]
      show _ = best _ (if _ then _ else _)
      have e0 : (blk + (c : Int) - blk).toNat = c := by omega
      rw [e0, show blk + ((c + 1 : Nat) : Int) = blk + c + 1 by push_cast; ring]
      congr 1
      apply List.map_congr_left
      intro k hk
      have := mem_keysFrom.1 hk
      rw [if_neg (by omega)]

/-- well-formed map: keys are multiples of the block size, in increasing order -/
def Good (m : CMap) : Prop := m.Pairwise (fun a b => a.1 < b.1) ∧ ∀ e ∈ m, e.1 % N = 0

theorem find_mid {pre t : CMap} {k : Int} {B : Block} (hp : ∀ e ∈ pre, e.1 < k) (q : Int) :
    (pre ++ (k, B) :: t).find? (fun e => e.1 == q) =
      if q = k then some (k, B) else (pre ++ t).find? (fun e => e.1 == q) := by
  rw [List.find?_append, List.find?_append, List.find?_cons]
  by_cases hq : q = k
  · subst hq
    rw [if_pos rfl, List.find?_eq_none.2 (by
      intro e he; have := hp e he; simp; omega)]
    simp
  · rw [if_neg hq]
    have : (k == q) = false := by simp; exact fun e => hq e.symm
    simp [this]

/-- reading a map with a block in the middle -/
theorem cnt_mid {pre t : CMap} {blk : Int} {B : Block} (hp : ∀ e ∈ pre, e.1 < blk) (hb : blk % N = 0) (k : Int) :
    cnt (pre ++ (blk, B) :: t) k = if blk ≤ k ∧ k < blk + N then B (k - blk).toNat else cnt (pre ++ t) k := by
  unfold cnt
  rw [find_mid hp]
  simp only [N] at *
  by_cases h : blk ≤ k ∧ k < blk + (64 : Nat)
  · have e1 : k - k % (64 : Nat) = blk := by omega
    rw [if_pos e1, if_pos h]
    show B _ = B _
    congr 1
    omega
  · have e1 : k - k % (64 : Nat) ≠ blk := by omega
    rw [if_neg e1, if_neg h]

/-- absent block reads zero -/
theorem cnt_absent {m : CMap} {blk : Int} (hm : ∀ e ∈ m, e.1 ≠ blk) (hb : blk % N = 0) (k : Int)
    (h : blk ≤ k ∧ k < blk + N) : cnt m k = 0 := by
  unfold cnt
  simp only [N] at *
  have e1 : k - k % (64 : Nat) = blk := by omega
  rw [e1, List.find?_eq_none.2 (by intro e he; simp; exact hm e he)]

/-- iterator invariant -/
structure Zip (pre suf : CMap) (blk : Int) : Prop where
  good : Good (pre ++ suf)
  blk0 : blk % N = 0
  before : ∀ e ∈ pre, e.1 < blk
  after : ∀ e ∈ suf, blk ≤ e.1

/-- making sure the block exists -/
theorem ensure_spec {pre suf : CMap} {blk : Int} (hz : Zip pre suf blk) :
    ∃ B t, ensure blk suf = (blk, B) :: t ∧ Good (pre ++ (blk, B) :: t) ∧ (∀ e ∈ t, blk + N ≤ e.1) ∧
      ∀ k, cnt (pre ++ (blk, B) :: t) k = cnt (pre ++ suf) k := by
  obtain ⟨⟨hs, hm⟩, hb, hpre, hsuf⟩ := hz
  have ins : ∀ t : CMap, suf = t → (∀ e ∈ t, blk < e.1) →
      Good (pre ++ (blk, zeroBlock) :: t) ∧ (∀ e ∈ t, blk + N ≤ e.1) ∧
      ∀ k, cnt (pre ++ (blk, zeroBlock) :: t) k = cnt (pre ++ t) k := by
    rintro t rfl ht
    have hne : ∀ e ∈ pre ++ suf, e.1 ≠ blk := by
      intro e he
      rcases List.mem_append.1 he with h | h
      · have := hpre e h; omega
      · have := ht e h; omega
    refine ⟨⟨?_, ?_⟩, ?_, ?_⟩
    · rw [List.pairwise_append] at hs ⊢
      refine ⟨hs.1, List.pairwise_cons.2 ⟨fun e he => ht e he, hs.2.1⟩, ?_⟩
      intro a ha b hb'
      rcases List.mem_cons.1 hb' with h | h
      · subst h; exact hpre a ha
      · exact hs.2.2 a ha b h
    · intro e he
      rcases List.mem_append.1 he with h | h
      · exact hm e (List.mem_append_left _ h)
      · rcases List.mem_cons.1 h with h' | h'
        · subst h'; exact hb
        · exact hm e (List.mem_append_right _ h')
    · intro e he
      have := ht e he
      have := hm e (List.mem_append_right _ he)
      simp only [N] at *
      omega
    · intro k
      rw [cnt_mid hpre hb]
      by_cases h : blk ≤ k ∧ k < blk + N
      · rw [if_pos h, cnt_absent hne hb k h]; rfl
      · rw [if_neg h]
  cases hsf : suf with
  | nil =>
    obtain ⟨a, b, c⟩ := ins [] hsf (by simp)
    exact ⟨zeroBlock, [], rfl, a, b, c⟩
  | cons hd t =>
    obtain ⟨k, B⟩ := hd
    have hens : ensure blk ((k, B) :: t) = if k ≠ blk then (blk, zeroBlock) :: (k, B) :: t else (k, B) :: t := rfl
    rw [hens]
    by_cases hk : k ≠ blk
    · rw [if_pos hk]
      have hlt : ∀ e ∈ (k, B) :: t, blk < e.1 := by
        intro e he
        have h1 := hsuf e (by rw [hsf]; exact he)
        rcases List.mem_cons.1 he with h | h
        · subst h; simp only at h1 ⊢; omega
        · have h2 : k < e.1 := by
            rw [hsf, List.pairwise_append] at hs
            exact (List.pairwise_cons.1 hs.2.1).1 e h
          have h3 := hsuf (k, B) (by rw [hsf]; simp)
          simp only at h3
          omega
      obtain ⟨a, b, c⟩ := ins _ hsf hlt
      exact ⟨zeroBlock, (k, B) :: t, rfl, a, b, c⟩
    · rw [if_neg hk]
      have hk : k = blk := by simpa using hk
      subst hk
      refine ⟨B, t, rfl, ⟨by rw [hsf] at hs; exact hs, by rw [hsf] at hm; exact hm⟩, ?_, fun _ => rfl⟩
      intro e he
      have h2 : k < e.1 := by
        rw [hsf, List.pairwise_append] at hs
        exact (List.pairwise_cons.1 hs.2.1).1 e he
      have := hm e (List.mem_append_right _ (by rw [hsf]; simp [he]))
      simp only [N] at *
      omega

/-- replacing the block's content -/
theorem good_replace {pre t : CMap} {blk : Int} {B B' : Block} (h : Good (pre ++ (blk, B) :: t)) :
    Good (pre ++ (blk, B') :: t) := by
  obtain ⟨h1, h2⟩ := h
  refine ⟨?_, ?_⟩
  · rw [List.pairwise_append, List.pairwise_cons] at h1 ⊢
    refine ⟨h1.1, ⟨h1.2.1.1, h1.2.1.2⟩, ?_⟩
    intro a ha b hb
    rcases List.mem_cons.1 hb with h | h
    · subst h; exact h1.2.2 a ha (blk, B) (by simp)
    · exact h1.2.2 a ha b (by simp [h])
  · intro e he
    rcases List.mem_append.1 he with h | h
    · exact h2 e (List.mem_append_left _ h)
    · rcases List.mem_cons.1 h with h' | h'
      · subst h'; exact h2 (blk, B) (by simp)
      · exact h2 e (by simp [h'])

theorem addLoop_spec (delta : Int) (fuel : Nat) (pre suf : CMap) (blk : Int) (ctr left : Nat) (mx : Max)
    (hz : Zip pre suf blk) (hc : ctr < N) (hf : left < fuel) :
    ∃ m' mx', addLoop delta fuel pre suf blk ctr left mx = some (m', mx') ∧ Good m' ∧
      (∀ k, cnt m' k = if blk + ctr ≤ k ∧ k < blk + ctr + left then wrap8 (cnt (pre ++ suf) k + delta)
        else cnt (pre ++ suf) k) ∧
      mx' = best ((keysFrom (blk + ctr) left).map (fun k => (k, wrap8 (cnt (pre ++ suf) k + delta)))) mx := by
  induction fuel generalizing pre suf blk ctr left mx with
  | zero => omega
  | succ fuel ih =>
    obtain ⟨B, t, e1, g1, g2, g3⟩ := ensure_spec hz
    unfold addLoop
    rw [e1]
    dsimp only
    obtain ⟨i1, i2⟩ := addInner_spec blk delta (min left (N - ctr)) ctr B mx
    generalize hr : addInner blk delta (min left (N - ctr)) ctr B mx = r at i1 i2
    generalize hn : min left (N - ctr) = n at i1 i2
    have hnN : ctr + n ≤ N := by omega
    have hB : ∀ k, blk ≤ k ∧ k < blk + N → B (k - blk).toNat = cnt (pre ++ suf) k := by
      intro k hk
      rw [← g3 k, cnt_mid hz.before hz.blk0, if_pos hk]
    have hcnt : ∀ k, cnt (pre ++ (blk, r.1) :: t) k =
        if blk + ctr ≤ k ∧ k < blk + ctr + n then wrap8 (cnt (pre ++ suf) k + delta) else cnt (pre ++ suf) k := by
      intro k
      rw [cnt_mid hz.before hz.blk0]
      by_cases hk : blk ≤ k ∧ k < blk + N
      · rw [if_pos hk, i1, hB k hk]
        by_cases hin : blk + ctr ≤ k ∧ k < blk + ctr + n
        · rw [if_pos hin, if_pos (by omega)]
        · rw [if_neg hin, if_neg (by omega)]
      · rw [if_neg hk, if_neg (by omega), ← g3 k, cnt_mid hz.before hz.blk0, if_neg hk]
    have hmx : r.2 = best ((keysFrom (blk + ctr) n).map (fun k => (k, wrap8 (cnt (pre ++ suf) k + delta)))) mx := by
      rw [i2]
      congr 1
      apply List.map_congr_left
      intro k hk
      have := mem_keysFrom.1 hk
      rw [hB k (by omega)]
    by_cases hl : left - n ≤ 0
    · rw [if_pos hl]
      have : left = n := by omega
      subst this
      exact ⟨_, _, rfl, good_replace g1, hcnt, hmx⟩
    · rw [if_neg hl]
      have hnn : ctr + n = N := by omega
      have hz' : Zip (pre ++ [(blk, r.1)]) t (blk + N) := by
        refine ⟨by rw [List.append_assoc]; exact good_replace g1, ?_, ?_, g2⟩
        · have := hz.blk0; simp only [N] at *; omega
        · intro e he
          rcases List.mem_append.1 he with h | h
          · have := hz.before e h; simp only [N]; omega
          · have : e = (blk, r.1) := by simpa using h
            subst this; simp only [N]; omega
      obtain ⟨m', mx', f1, f2, f3, f4⟩ := ih (pre ++ [(blk, r.1)]) t (blk + N) 0 (left - n) r.2 hz' (by simp [N]) (by
        simp only [N] at hc hnn; omega)
      have ea : pre ++ [(blk, r.1)] ++ t = pre ++ (blk, r.1) :: t := by simp
      rw [ea] at f3 f4
      have hblk : blk + (N : Int) + ((0 : Nat) : Int) = blk + ctr + n := by omega
      rw [hblk] at f3 f4
      refine ⟨m', mx', f1, f2, ?_, ?_⟩
      · intro k
        rw [f3, hcnt]
        by_cases hk1 : blk + ctr + n ≤ k ∧ k < blk + ctr + n + (left - n : Nat)
        · rw [if_pos hk1, if_neg (by omega), if_pos (by omega)]
        · rw [if_neg hk1]
          by_cases hk2 : blk + ctr ≤ k ∧ k < blk + ctr + n
          · rw [if_pos hk2, if_pos (by omega)]
          · rw [if_neg hk2, if_neg (by omega)]
      · have hsplit : keysFrom (blk + ctr) left = keysFrom (blk + ctr) n ++ keysFrom (blk + ctr + n) (left - n) := by
          rw [← keysFrom_add]; congr 1; omega
        rw [f4, hmx, ← best_append, hsplit, List.map_append]
        congr 2
        · apply List.map_congr_left
          intro k hk
          have := mem_keysFrom.1 hk
          rw [hcnt, if_neg (by omega)]

theorem zip_lower {m : CMap} (hg : Good m) (blk : Int) (hb : blk % N = 0) :
    Zip (m.takeWhile (fun x => decide (x.1 < blk))) (m.dropWhile (fun x => decide (x.1 < blk))) blk := by
  refine ⟨by rw [List.takeWhile_append_dropWhile]; exact hg, hb, ?_, ?_⟩
  · intro e he
    clear hg
    induction m with
    | nil => simp at he
    | cons a m ih =>
      rw [List.takeWhile_cons] at he
      split at he
      · rename_i ha
        rcases List.mem_cons.1 he with h | h
        · subst h; simpa using ha
        · exact ih h
      · simp at he
  · intro e he
    have hs := hg.1
    clear hg
    induction m with
    | nil => simp at he
    | cons a m ih =>
      obtain ⟨h1, h2⟩ := List.pairwise_cons.1 hs
      rw [List.dropWhile_cons] at he
      split at he
      · exact ih he h2
      · rename_i hna
        have hna : blk ≤ a.1 := by simpa using hna
        rcases List.mem_cons.1 he with h | h
        · subst h; exact hna
        · have := h1 e h; omega

theorem addRangeMax_spec (fuel : Nat) {m : CMap} (hg : Good m) (b e delta minMax : Int) (hbe : b ≤ e)
    (hf : (e - b).toNat < fuel) :
    ∃ m' mx', addRangeMax fuel m b e delta minMax = some (m', mx') ∧ Good m' ∧
      (∀ k, cnt m' k = if b ≤ k ∧ k < e then wrap8 (cnt m k + delta) else cnt m k) ∧
      mx' = best ((keysFrom b (e - b).toNat).map (fun k => (k, wrap8 (cnt m k + delta)))) (none, minMax) := by
  unfold addRangeMax
  rw [if_neg (by omega)]
  dsimp only
  have hb0 : (b - b % N) % N = 0 := by simp only [N]; omega
  have hz := zip_lower hg (b - b % N) hb0
  obtain ⟨m', mx', h1, h2, h3, h4⟩ := addLoop_spec delta fuel _ _ _ (b % N).toNat (e - b).toNat (none, minMax) hz
    (by simp only [N]; omega) hf
  rw [List.takeWhile_append_dropWhile] at h3 h4
  have hs : b - b % N + ((b % N).toNat : Int) = b := by simp only [N]; omega
  rw [hs] at h3 h4
  refine ⟨m', mx', h1, h2, fun k => ?_, h4⟩
  rw [h3]
  by_cases hk : b ≤ k ∧ k < e
  · rw [if_pos hk, if_pos (by omega)]
  · rw [if_neg hk, if_neg (by omega)]

/-- what the running maximum is -/
theorem best_spec (l : List (Int × Int)) (m : Max) :
    ((∀ e ∈ l, e.2 ≤ m.2) → best l m = m) ∧
    ((∃ e ∈ l, e.2 > m.2) → ∃ k, (best l m).1 = some k ∧ (k, (best l m).2) ∈ l ∧ (best l m).2 > m.2 ∧
      (∀ e ∈ l, e.2 ≤ (best l m).2)) := by
  induction l generalizing m with
  | nil => simp [best]
  | cons a l ih =>
    have hstep : best (a :: l) m = best l (if a.2 > m.2 then (some a.1, a.2) else m) := rfl
    rw [hstep]
    by_cases ha : a.2 > m.2
    · rw [if_pos ha]
      refine ⟨fun h => absurd (h a (by simp)) (by omega), fun _ => ?_⟩
      obtain ⟨h1, h2⟩ := ih (some a.1, a.2)
      by_cases hex : ∃ e ∈ l, e.2 > a.2
      · obtain ⟨k, k1, k2, k3, k4⟩ := h2 hex
        refine ⟨k, k1, List.mem_cons_of_mem _ k2, by simp only at k3; omega, ?_⟩
        intro e he
        rcases List.mem_cons.1 he with h | h
        · subst h; simp only at k3; omega
        · exact k4 e h
      · push Not at hex
        have := h1 hex
        rw [this]
        refine ⟨a.1, rfl, List.mem_cons_self .., ha, ?_⟩
        intro e he
        rcases List.mem_cons.1 he with h | h
        · subst h; exact le_refl _
        · exact hex e h
    · rw [if_neg ha]
      obtain ⟨h1, h2⟩ := ih m
      refine ⟨fun h => h1 (fun e he => h e (List.mem_cons_of_mem _ he)), fun hex => ?_⟩
      obtain ⟨e, he, hev⟩ := hex
      have he' : e ∈ l := by
        rcases List.mem_cons.1 he with h | h
        · subst h; exact absurd hev ha
        · exact h
      obtain ⟨k, k1, k2, k3, k4⟩ := h2 ⟨e, he', hev⟩
      refine ⟨k, k1, List.mem_cons_of_mem _ k2, k3, ?_⟩
      intro e' he2
      rcases List.mem_cons.1 he2 with h | h
      · subst h; omega
      · exact k4 e' h

/-- the first key with the best value, for increasing keys -/
theorem best_first (l : List (Int × Int)) (hl : l.Pairwise (fun a b => a.1 < b.1)) (m : Max) (k : Int)
    (hk : (best l m).1 = some k) (hm : m.1 = none) : ∀ e ∈ l, e.2 = (best l m).2 → k ≤ e.1 := by
  suffices h : ∀ (l : List (Int × Int)), l.Pairwise (fun a b => a.1 < b.1) → ∀ (m : Max) (k : Int),
      (best l m).1 = some k → (∀ k0, m.1 = some k0 → ∀ e ∈ l, k0 < e.1) →
      ∀ e ∈ l, e.2 = (best l m).2 → k ≤ e.1 from
    h l hl m k hk (by rw [hm]; simp)
  intro l
  induction l with
  | nil => simp
  | cons a l ih =>
    intro hl m k hk hm e he hev
    obtain ⟨ha, hl'⟩ := List.pairwise_cons.1 hl
    have hstep : best (a :: l) m = best l (if a.2 > m.2 then (some a.1, a.2) else m) := rfl
    rw [hstep] at hk hev
    by_cases hav : a.2 > m.2
    · rw [if_pos hav] at hk hev
      rcases List.mem_cons.1 he with h | h
      · subst h
        -- value at the head equals the best: so the best is the head itself
        by_cases hex : ∃ e' ∈ l, e'.2 > e.2
        · obtain ⟨k', _, _, k3, _⟩ := (best_spec l (some e.1, e.2)).2 hex
          simp only at k3
          omega
        · push Not at hex
          rw [(best_spec l (some e.1, e.2)).1 hex] at hk
          simp only at hk
          cases hk
          exact le_refl _
      · exact ih hl' _ k hk (by rintro k0 hk0 e' he'; cases hk0; exact ha e' he') e h hev
    · rw [if_neg hav] at hk hev
      rcases List.mem_cons.1 he with h | h
      · subst h
        -- then the best is not above m: best = m
        by_cases hex : ∃ e' ∈ l, e'.2 > m.2
        · obtain ⟨k', _, _, k3, _⟩ := (best_spec l m).2 hex
          omega
        · push Not at hex
          rw [(best_spec l m).1 hex] at hk
          have := hm k hk e (List.mem_cons_self ..)
          omega
      · exact ih hl' m k hk (fun k0 hk0 e' he' => hm k0 hk0 e' (List.mem_cons_of_mem _ he')) e h hev

theorem keysFrom_pairwise (b : Int) (n : Nat) (f : Int → Int) :
    ((keysFrom b n).map (fun k => (k, f k))).Pairwise (fun a b => a.1 < b.1) := by
  rw [List.pairwise_map]
  unfold keysFrom
  rw [List.pairwise_map]
  refine List.pairwise_lt_range.imp ?_
  intro a b h
  simpa using h

end Verif.Hough

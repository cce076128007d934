import Verif.CMTool.MatchModel
import Mathlib.Data.List.Zip
import Mathlib.Data.List.Basic
import Mathlib.Data.List.Enum
import Mathlib.Data.List.Induction
/-! # Properties C07, C08 (`CMatchBookKeeper`), C15 (`ComputePriority`), C16 (`CBAlgoArray`) -/
namespace Verif.CMTool
open Verif

/-! ## Specification -/

/-- two index sets share a cluster -/
def Shares (a b : List Nat) : Prop := ∃ i, i ∈ a ∧ i ∈ b
instance (a b : List Nat) : Decidable (Shares a b) :=
  decidable_of_iff (∃ i ∈ a, i ∈ b) (by simp [Shares])

/-- Greedy selection: going through `l` in order, a set is taken unless it shares a cluster with one
already taken. -/
def greedyFrom : List (List Nat) → List (List Nat) → List (List Nat)
  | acc, [] => acc
  | acc, s :: l => if ∃ t ∈ acc, Shares s t then greedyFrom acc l else greedyFrom (acc ++ [s]) l

def greedy (l : List (List Nat)) : List (List Nat) := greedyFrom [] l

/-- A register filled by a sequence of `Match` calls (set, score) after `Reset()`. -/
def registered {κ : Type} [LinearOrder κ] (calls : List (List Nat × κ)) : MatchBK.Register κ :=
  calls.foldl (fun r c => MatchBK.register r c.1 c.2) []

/-! ## Proofs -/
namespace MatchBK
variable {κ : Type} [LinearOrder κ]

def usedAt (u : List Bool) (i : Nat) : Bool := u[i]?.getD false

theorem checkLoop_spec (is : List Nat) (used : List Bool) (valid : Bool) :
    (∀ i, usedAt (checkLoop is used valid).1 i = usedAt used i) ∧
    (used.length ≤ (checkLoop is used valid).1.length) ∧
    (∀ i ∈ is, i < (checkLoop is used valid).1.length) ∧
    ((checkLoop is used valid).2 = true ↔ valid = true ∧ ∀ i ∈ is, usedAt used i = false) := by
  induction is generalizing used valid with
  | nil => simp [checkLoop]
  | cons a is ih =>
    unfold checkLoop
    split
    · rename_i h
      obtain ⟨h1, h2, h3, h4⟩ := ih (used ++ List.replicate (a + 1 - used.length) false) valid
      have hu : ∀ i, usedAt (used ++ List.replicate (a + 1 - used.length) false) i = usedAt used i := by
        intro i
        unfold usedAt
        by_cases hi : i < used.length
        · rw [List.getElem?_append_left hi]
        · rw [List.getElem?_append_right (by omega), List.getElem?_replicate,
            List.getElem?_eq_none (l := used) (by omega)]
          split <;> rfl
      have ha : usedAt used a = false := by
        unfold usedAt; rw [List.getElem?_eq_none (by omega)]; rfl
      refine ⟨fun i => by rw [h1, hu], ?_, ?_, ?_⟩
      · simp at h2; omega
      · intro i hi
        rcases List.mem_cons.1 hi with rfl | hi
        · simp at h2; omega
        · exact h3 i hi
      · rw [h4]
        simp only [hu, List.mem_cons, forall_eq_or_imp, ha, true_and]
    · rename_i h
      obtain ⟨h1, h2, h3, h4⟩ := ih used (if used[a]?.getD false then false else valid)
      refine ⟨h1, h2, ?_, ?_⟩
      · intro i hi
        rcases List.mem_cons.1 hi with rfl | hi
        · omega
        · exact h3 i hi
      · rw [h4]
        show _ ↔ _
        simp only [List.mem_cons, forall_eq_or_imp]
        have : usedAt used a = used[a]?.getD false := rfl
        rw [this]
        cases used[a]?.getD false <;> simp

theorem markLoop_spec (is : List Nat) (used : List Bool) (h : ∀ i ∈ is, i < used.length) :
    ∃ u, markLoop is used = .ok u ∧ ∀ i, usedAt u i = true ↔ usedAt used i = true ∨ i ∈ is := by
  induction is generalizing used with
  | nil => exact ⟨used, rfl, by simp⟩
  | cons a is ih =>
    have ha := h a (by simp)
    obtain ⟨u, e, hu⟩ := ih (used.set a true) (by
      intro i hi; rw [List.length_set]; exact h i (by simp [hi]))
    refine ⟨u, by simp [markLoop, ha, e], ?_⟩
    intro i
    rw [hu]
    have : usedAt (used.set a true) i = true ↔ i = a ∨ usedAt used i = true := by
      unfold usedAt
      by_cases hi : i = a
      · subst hi; simp [ha]
      · rw [List.getElem?_set_ne (Ne.symm hi)]; simp [hi]
    rw [this]
    simp only [List.mem_cons]
    tauto

theorem passLoop_spec (es : List (κ × List Nat)) (used : List Bool) (res : List (List Nat))
    (h : ∀ i, usedAt used i = true ↔ ∃ t ∈ res, i ∈ t) :
    passLoop es used res = .ok (greedyFrom res (es.map (·.2))) := by
  induction es generalizing used res with
  | nil => rfl
  | cons e es ih =>
    obtain ⟨h1, h2, h3, h4⟩ := checkLoop_spec e.2 used true
    unfold passLoop
    rcases hc : checkLoop e.2 used true with ⟨used', valid⟩
    rw [hc] at h1 h2 h3 h4
    simp only [List.map_cons, greedyFrom]
    have hv : valid = true ↔ ¬ ∃ t ∈ res, Shares e.2 t := by
      simp only at h4
      rw [h4]
      constructor
      · rintro ⟨_, hx⟩ ⟨t, ht, i, hi1, hi2⟩
        have := (h i).2 ⟨t, ht, hi2⟩
        rw [hx i hi1] at this
        simp at this
      · intro hx
        refine ⟨trivial, fun i hi => ?_⟩
        by_contra hne
        rw [Bool.not_eq_false] at hne
        obtain ⟨t, ht, hit⟩ := (h i).1 hne
        exact hx ⟨t, ht, i, hi, hit⟩
    cases valid with
    | true =>
      rw [if_neg (hv.1 rfl)]
      obtain ⟨u, e1, hu⟩ := markLoop_spec e.2 used' h3
      simp only [if_true, e1, Res.bind_ok]
      apply ih
      intro i
      rw [hu]
      simp only at h1
      rw [h1, h i]
      simp only [List.mem_append, List.mem_singleton]
      constructor
      · rintro (⟨t, ht, hi⟩ | hi)
        · exact ⟨t, .inl ht, hi⟩
        · exact ⟨e.2, .inr rfl, hi⟩
      · rintro ⟨t, ht | rfl, hi⟩
        · exact .inl ⟨t, ht, hi⟩
        · exact .inr hi
    | false =>
      have : ∃ t ∈ res, Shares e.2 t := by
        by_contra hx
        exact absurd (hv.2 hx) (by simp)
      rw [if_pos this]
      simp only [Bool.false_eq_true, if_false]
      apply ih
      intro i
      simp only at h1
      rw [h1, h i]

theorem minsert_map {β γ : Type} (f : β → γ) (k : κ) (v : β) (l : List (κ × β)) :
    (minsert k v l).map (fun e => (e.1, f e.2)) = minsert k (f v) (l.map (fun e => (e.1, f e.2))) := by
  induction l with
  | nil => rfl
  | cons a t ih =>
    obtain ⟨k', v'⟩ := a
    simp only [minsert, List.map_cons]
    split
    · simp
    · simp [ih]

/-- the register with registration positions attached -/
def tagged (calls : List (List Nat × κ)) : List (κ × (List Nat × Nat)) :=
  (calls.zipIdx).foldl (fun r c => minsert c.1.2 (c.1.1, c.2) r) []

theorem tagged_append (calls : List (List Nat × κ)) (c : List Nat × κ) :
    tagged (calls ++ [c]) = minsert c.2 (c.1, calls.length) (tagged calls) := by
  unfold tagged
  rw [List.zipIdx_append, List.foldl_append]
  simp

theorem tagged_spec (calls : List (List Nat × κ)) :
    registered calls = (tagged calls).map (fun e => (e.1, e.2.1)) ∧
    ((tagged calls).map (fun e => ((e.2.1, e.1), e.2.2))).Perm calls.zipIdx ∧
    (tagged calls).Pairwise (fun a b => a.1 ≤ b.1) ∧
    (tagged calls).Pairwise (fun a b => a.1 < b.1 ∨ (a.1 = b.1 ∧ a.2.2 < b.2.2)) := by
  induction calls using List.reverseRecOn with
  | nil => exact ⟨rfl, by simp [tagged], by simp [tagged], by simp [tagged]⟩
  | append_singleton calls c ih =>
    obtain ⟨h1, h2, h3, h4⟩ := ih
    have hpos : ∀ e ∈ tagged calls, e.2.2 < calls.length := by
      intro e he
      have : ((e.2.1, e.1), e.2.2) ∈ calls.zipIdx :=
        h2.subset (List.mem_map.2 ⟨e, he, rfl⟩)
      have := List.snd_lt_of_mem_zipIdx this
      simpa using this
    rw [tagged_append]
    refine ⟨?_, ?_, minsert_sorted h3, ?_⟩
    · rw [show registered (calls ++ [c]) = minsert c.2 c.1 (registered calls) by
        simp [registered, register]]
      rw [h1]
      exact (minsert_map (fun e : List Nat × Nat => e.1) c.2 (c.1, calls.length) (tagged calls)).symm
    · refine ((minsert_perm _ _ _).map _).trans ?_
      rw [List.zipIdx_append, List.map_cons]
      refine (List.Perm.cons _ h2).trans ?_
      simpa using (List.perm_append_singleton ((c.1, c.2), calls.length) calls.zipIdx).symm
    · apply minsert_pairwise h3 h4
      · intro e he hle
        rcases lt_or_eq_of_le hle with h | h
        · exact .inl h
        · exact .inr ⟨h, hpos e he⟩
      · intro e he hlt
        exact .inl hlt

end MatchBK

/-! ## Property theorems -/
section
variable {κ : Type} [LinearOrder κ]

/-- **C08** After any sequence of `Match` calls, `GetResult()` succeeds and is the greedy selection over the
registrations arranged from highest to lowest score, later registrations first among equal scores.
(`calls.zipIdx` pairs every call with its position.) -/
theorem C08_greedy_by_score (calls : List (List Nat × κ)) :
    ∃ order : List ((List Nat × κ) × Nat), order.Perm calls.zipIdx ∧
      order.Pairwise (fun a b => b.1.2 < a.1.2 ∨ (a.1.2 = b.1.2 ∧ b.2 < a.2)) ∧
      MatchBK.getResult (registered calls) = .ok (greedy (order.map (fun e => e.1.1))) := by
  obtain ⟨h1, h2, h3, h4⟩ := MatchBK.tagged_spec calls
  refine ⟨((MatchBK.tagged calls).reverse).map (fun e => ((e.2.1, e.1), e.2.2)), ?_, ?_, ?_⟩
  · rw [List.map_reverse]
    exact (List.reverse_perm _).trans h2
  · rw [List.pairwise_map, List.pairwise_reverse]
    refine h4.imp ?_
    intro a b h
    rcases h with h | h
    · exact .inl h
    · exact .inr ⟨h.1.symm, h.2⟩
  · unfold MatchBK.getResult
    rw [MatchBK.passLoop_spec _ _ _ (by simp [MatchBK.usedAt])]
    rw [h1]
    simp only [greedy, List.map_reverse, List.map_map]
    rfl

theorem greedyFrom_sub (acc l : List (List Nat)) : ∀ s ∈ greedyFrom acc l, s ∈ acc ∨ s ∈ l := by
  induction l generalizing acc with
  | nil => intro s hs; exact .inl hs
  | cons a l ih =>
    intro s hs
    unfold greedyFrom at hs
    split at hs
    · rcases ih _ s hs with h | h
      · exact .inl h
      · exact .inr (by simp [h])
    · rcases ih _ s hs with h | h
      · rcases List.mem_append.1 h with h | h
        · exact .inl h
        · exact .inr (by simp at h; simp [h])
      · exact .inr (by simp [h])

theorem greedyFrom_disjoint (acc l : List (List Nat)) (h : acc.Pairwise (fun a b => ¬ Shares a b)) :
    (greedyFrom acc l).Pairwise (fun a b => ¬ Shares a b) := by
  induction l generalizing acc with
  | nil => exact h
  | cons a l ih =>
    unfold greedyFrom
    split
    · exact ih _ h
    · rename_i hn
      apply ih
      rw [List.pairwise_append]
      refine ⟨h, by simp, ?_⟩
      intro t ht b hb
      simp at hb
      subst hb
      rintro ⟨i, h1, h2⟩
      exact hn ⟨t, ht, i, h2, h1⟩

theorem greedyFrom_prefix (acc l : List (List Nat)) : acc <+: greedyFrom acc l := by
  induction l generalizing acc with
  | nil => exact List.prefix_refl _
  | cons a l ih =>
    unfold greedyFrom
    split
    · exact ih _
    · exact (List.prefix_append _ _).trans (ih _)

/-- **C07** Only registered sets are returned and no two returned sets share a cluster index. -/
theorem C07_results_disjoint (calls : List (List Nat × κ)) :
    ∃ res, MatchBK.getResult (registered calls) = .ok res ∧
      (∀ s ∈ res, ∃ score, (s, score) ∈ calls) ∧
      res.Pairwise (fun a b => ¬ Shares a b) := by
  obtain ⟨order, h1, h2, h3⟩ := C08_greedy_by_score calls
  refine ⟨_, h3, ?_, greedyFrom_disjoint _ _ (by simp)⟩
  intro s hs
  rcases greedyFrom_sub _ _ s hs with h | h
  · simp at h
  · obtain ⟨e, he, rfl⟩ := List.mem_map.1 h
    have := h1.subset he
    have := List.fst_mem_of_mem_zipIdx this
    exact ⟨e.1.2, by simpa using this⟩

/-- **C08** (consequence) A registration whose score is at least every other score, registered last among the
equal ones, heads the result. -/
theorem C08_best_is_first (calls : List (List Nat × κ)) (pre post : List (List Nat × κ)) (s : List Nat)
    (x : κ) (hc : calls = pre ++ (s, x) :: post) (h1 : ∀ c ∈ pre, c.2 ≤ x) (h2 : ∀ c ∈ post, c.2 < x) :
    ∃ rest, MatchBK.getResult (registered calls) = .ok (s :: rest) := by
  obtain ⟨order, g1, g2, g3⟩ := C08_greedy_by_score calls
  rw [g3]
  have hmem : ((s, x), pre.length) ∈ order := by
    apply g1.symm.subset
    rw [hc, List.zipIdx_append]
    simp
  cases order with
  | nil => simp at hmem
  | cons e rest =>
    have : e = ((s, x), pre.length) := by
      rcases List.mem_cons.1 hmem with h | h
      · exact h.symm
      · exfalso
        have hlt := (List.pairwise_cons.1 g2).1 _ h
        have he : e ∈ calls.zipIdx := g1.subset (by simp)
        rw [hc, List.zipIdx_append] at he
        simp only [List.zipIdx_cons, List.mem_append, List.mem_cons] at he
        rcases he with he | rfl | he
        · have hb := h1 e.1 (by simpa using List.fst_mem_of_mem_zipIdx he)
          have hp := List.snd_lt_of_mem_zipIdx he
          simp only [] at hlt
          rcases hlt with hlt | ⟨_, hlt⟩
          · exact absurd hlt (not_lt.2 hb)
          · simp at hp; omega
        · rcases hlt with hlt | ⟨_, hlt⟩
          · exact absurd hlt (lt_irrefl _)
          · simp at hlt
        · have hb := h2 e.1 (by simpa using List.fst_mem_of_mem_zipIdx he)
          rcases hlt with hlt | ⟨hlt, _⟩
          · exact absurd hb (not_lt.2 (le_of_lt hlt))
          · simp only at hlt; rw [hlt] at hb; exact absurd hb (lt_irrefl _)
    subst this
    obtain ⟨r, hr⟩ := greedyFrom_prefix [s] (rest.map (fun e => e.1.1))
    refine ⟨r, ?_⟩
    simp only [greedy, List.map_cons, greedyFrom]
    rw [if_neg (by simp)]
    rw [List.nil_append, ← hr]
    simp

end

/-- Five registrations over integers with a tie (score 3) and conflicts. -/
example : MatchBK.getResult (registered (κ := Int)
    [([0, 5], 3), ([1, 2], 7), ([5, 7], 3), ([2, 9], 5), ([9, 9], 1)]) = .ok [[1, 2], [5, 7], [9, 9]] := by
  decide

/-! ### C15 -/
section
variable {κ : Type} [LinearOrder κ] [Zero κ]

theorem prioLoop_spec (prio : Nat → κ) (i n : Nat) (hi : i ≤ n) (m : List (κ × Nat))
    (h1 : m.Pairwise (fun a b => a.1 ≤ b.1))
    (h2 : m.Pairwise (fun a b => a.1 < b.1 ∨ (a.1 = b.1 ∧ b.2 < a.2)))
    (h3 : ∀ k v, (k, v) ∈ m ↔ i ≤ v ∧ v < n ∧ k = prio v ∧ k > 0) :
    (prioLoop prio i m).Pairwise (fun a b => a.1 < b.1 ∨ (a.1 = b.1 ∧ b.2 < a.2)) ∧
    (∀ k v, (k, v) ∈ prioLoop prio i m ↔ v < n ∧ k = prio v ∧ k > 0) := by
  induction i generalizing m with
  | zero => exact ⟨h2, fun k v => by simp [prioLoop, h3]⟩
  | succ i ih =>
    unfold prioLoop
    split
    · rename_i hp
      apply ih (by omega) _ (minsert_sorted h1)
      · apply minsert_pairwise h1 h2
        · rintro ⟨k, v⟩ he hle
          have := (h3 k v).1 he
          rcases lt_or_eq_of_le hle with h | h
          · exact .inl h
          · exact .inr ⟨h, by dsimp only; omega⟩
        · intro e he hlt; exact .inl hlt
      · intro k v
        rw [mem_minsert, h3]
        constructor
        · rintro (h | h)
          · simp only [Prod.mk.injEq] at h
            obtain ⟨rfl, rfl⟩ := h
            exact ⟨by omega, by omega, rfl, hp⟩
          · exact ⟨by omega, h.2⟩
        · rintro ⟨h, h'⟩
          by_cases hv : v = i
          · subst hv; left; rw [h'.2.1]
          · right; exact ⟨by omega, h'⟩
    · rename_i hp
      apply ih (by omega) _ h1 h2
      intro k v
      rw [h3]
      constructor
      · rintro ⟨h, h'⟩; exact ⟨by omega, h'⟩
      · rintro ⟨h, h'⟩
        by_cases hv : v = i
        · subst hv; exact absurd (h'.2.1 ▸ h'.2.2) hp
        · exact ⟨by omega, h'⟩

/-- **C15** The processing order of the clusters lists exactly those with positive priority, by decreasing
priority and, among equal priorities, by increasing index. -/
theorem C15_priority_order (prio : Nat → κ) (n : Nat) :
    (prioOrder prio n).Pairwise (fun i j => prio j < prio i ∨ (prio i = prio j ∧ i < j)) ∧
    (∀ i, i ∈ prioOrder prio n ↔ i < n ∧ prio i > 0) := by
  obtain ⟨h1, h2⟩ := prioLoop_spec prio n n (Nat.le_refl _) [] (by simp) (by simp) (by
    intro k v; simp; omega)
  constructor
  · unfold prioOrder computePriority
    rw [List.pairwise_map, List.pairwise_reverse]
    refine List.Pairwise.imp_of_mem ?_ h1
    rintro ⟨k, v⟩ ⟨k', v'⟩ ha hb h
    have e1 := ((h2 _ _).1 ha).2.1
    have e2 := ((h2 _ _).1 hb).2.1
    dsimp only at h ⊢
    subst e1 e2
    rcases h with h | h
    · exact .inl h
    · exact .inr ⟨h.1.symm, h.2⟩
  · intro i
    unfold prioOrder computePriority
    simp only [List.mem_map, List.mem_reverse, Prod.exists]
    constructor
    · rintro ⟨k, v, h, rfl⟩
      have := (h2 k v).1 h
      exact ⟨this.1, this.2.1 ▸ this.2.2⟩
    · rintro ⟨h, h'⟩
      exact ⟨prio i, i, (h2 _ _).2 ⟨h, rfl, h'⟩, rfl⟩

example : prioOrder (fun i => ([2, 5, 0, 5, -1, 2] : List Int)[i]?.getD 0) 6 = [1, 3, 0, 5] := by decide
end

/-! ### C16 -/
namespace AlgoArray

/-- A chain: the first answer, then (isAnd, answer) pairs. -/
def build (first : Bool × Bool) (rest : List (Bool × Bool)) : St :=
  (first :: rest).foldl (fun s p => addAlgo s p.2 p.1) {}

/-- the documented reading: each answer is combined "with the result of previous" (left to right) -/
def leftValue (b : Bool) : List (Bool × Bool) → Bool
  | [] => b
  | (true, x) :: l => leftValue (b && x) l
  | (false, x) :: l => leftValue (b || x) l

/-- the value grouped to the right: `b₀ op₁ (b₁ op₂ (b₂ …))` -/
def rightValue (b : Bool) : List (Bool × Bool) → Bool
  | [] => b
  | (true, x) :: l => b && rightValue x l
  | (false, x) :: l => b || rightValue x l

theorem build_fields (l : List (Bool × Bool)) (s : St) :
    (l.foldl (fun s p => addAlgo s p.2 p.1) s).answers = s.answers ++ l.map (·.2) ∧
    (l.foldl (fun s p => addAlgo s p.2 p.1) s).askAnd = s.askAnd ++ l.map (·.1) := by
  induction l generalizing s with
  | nil => simp
  | cons p l ih =>
    obtain ⟨h1, h2⟩ := ih (addAlgo s p.2 p.1)
    simp only [List.foldl_cons, h1, h2]
    simp [addAlgo]

/-- the recorded index is that of the last AND algorithm: later ones are all OR -/
theorem build_last (l : List (Bool × Bool)) (s : St) (hl : s.answers.length = s.askAnd.length)
    (h : ∀ k, s.lastAnd = some k → ∀ i : Nat, k < i → i < s.askAnd.length → s.askAnd[i]?.getD false = false)
    (h' : s.lastAnd = none → ∀ i : Nat, s.askAnd[i]?.getD false = false) :
    let t := l.foldl (fun s p => addAlgo s p.2 p.1) s
    (∀ k, t.lastAnd = some k → ∀ i : Nat, k < i → i < t.askAnd.length → t.askAnd[i]?.getD false = false) ∧
    (t.lastAnd = none → ∀ i : Nat, t.askAnd[i]?.getD false = false) := by
  induction l generalizing s with
  | nil => exact ⟨h, h'⟩
  | cons p l ih =>
    apply ih (addAlgo s p.2 p.1)
    · simp [addAlgo, hl]
    · intro k hk i hki hi
      simp only [addAlgo] at hk hi ⊢
      simp only [List.length_append, List.length_singleton] at hi
      by_cases hp : p.1 = true
      · rw [if_pos hp] at hk
        simp only [Option.some.injEq] at hk
        omega
      · rw [if_neg hp] at hk
        by_cases hlt : i < s.askAnd.length
        · rw [List.getElem?_append_left hlt]; exact h k hk i hki hlt
        · rw [List.getElem?_append_right (by omega), show i - s.askAnd.length = 0 by omega]
          simpa using hp
    · intro hn i
      simp only [addAlgo] at hn ⊢
      by_cases hp : p.1 = true
      · rw [if_pos hp] at hn; simp at hn
      · rw [if_neg hp] at hn
        by_cases hlt : i < s.askAnd.length
        · rw [List.getElem?_append_left hlt]; exact h' hn i
        · by_cases he : i = s.askAnd.length
          · rw [List.getElem?_append_right (by omega), show i - s.askAnd.length = 0 by omega]
            simpa using hp
          · rw [List.getElem?_append_right (by omega), List.getElem?_eq_none (by simp; omega)]; rfl

theorem boolLoop_spec (s : St) (last : Nat) (l pre : List (Bool × Bool))
    (h1 : s.answers = (pre ++ l).map (·.2)) (h2 : s.askAnd = (pre ++ l).map (·.1)) (hp : pre ≠ [])
    (h3 : ∀ i : Nat, s.askAnd[i]?.getD false = true → i ≤ last)
    (status : Bool) :
    boolLoop s last l.length pre.length status = rightValue status l := by
  induction l generalizing pre status with
  | nil => rfl
  | cons p l ih =>
    have hlen : pre.length ≠ 0 := by simpa using hp
    have e1 : s.answers[pre.length]?.getD false = p.2 := by rw [h1]; simp
    have e2 : s.askAnd[pre.length]?.getD false = p.1 := by rw [h2]; simp
    have e3 := h3 pre.length
    obtain ⟨isAnd, a⟩ := p
    have ih' := fun st => ih (pre ++ [(isAnd, a)]) (by simp [h1]) (by simp [h2]) (by simp) st
    simp only [List.length_append, List.length_singleton] at ih'
    rw [e2] at e3
    simp only [List.length_cons, boolLoop, e1, e2, if_neg hlen]
    cases isAnd <;> cases status <;> simp [rightValue, ih']
    intro h
    have := e3 rfl
    omega

/-- **C16** `Bool` evaluates the chain with the operators grouped to the *right*, i.e. it is
`b₀ op₁ (b₁ op₂ (b₂ …))`, whatever the uninitialised `_last_and_algo_index` contains; an empty array
answers `true`. -/
theorem C16_bool_is_right_grouped (junk : Nat) (first : Bool × Bool) (rest : List (Bool × Bool)) :
    bool (build first rest) junk = rightValue first.2 rest ∧ bool {} junk = true := by
  refine ⟨?_, rfl⟩
  obtain ⟨f1, f2⟩ := build_fields (first :: rest) {}
  have hl := build_last (first :: rest) {} rfl (by simp) (by simp)
  have hlast : ∀ i : Nat, (build first rest).askAnd[i]?.getD false = true →
      i ≤ (build first rest).lastAnd.getD junk := by
    intro i hi
    by_contra hn
    cases hx : (build first rest).lastAnd with
    | none => exact absurd (hi.symm.trans (hl.2 hx i)) (by simp)
    | some k =>
      rw [hx] at hn
      simp only [Option.getD_some, not_le] at hn
      have hlt : i < (build first rest).askAnd.length := by
        by_contra hge
        rw [List.getElem?_eq_none (by omega)] at hi
        simp at hi
      exact absurd (hi.symm.trans (hl.1 k hx i hn hlt)) (by simp)
  have h1 : (build first rest).answers = ([first] ++ rest).map (·.2) := by simpa [build] using f1
  have h2 : (build first rest).askAnd = ([first] ++ rest).map (·.1) := by simpa [build] using f2
  have := boolLoop_spec (build first rest) ((build first rest).lastAnd.getD junk) rest [first] h1 h2 (by simp)
    hlast first.2
  unfold bool
  have hlen : (build first rest).answers.length = rest.length + 1 := by rw [h1]; simp
  rw [hlen]
  unfold boolLoop
  have e0 : (build first rest).answers[0]?.getD false = first.2 := by rw [h1]; simp
  simpa [e0] using this

/-- **C16 (refuted)** The documented left-to-right value is *not* what `Bool` returns: a chain
`false AND true OR true` is answered `false`, `true OR false AND false` is answered `true`. -/
theorem C16_not_left_to_right :
    (∃ first rest junk, bool (build first rest) junk = false ∧ leftValue first.2 rest = true) ∧
    (∃ first rest junk, bool (build first rest) junk = true ∧ leftValue first.2 rest = false) :=
  ⟨⟨(true, false), [(true, true), (false, true)], 0, by decide, by decide⟩,
   ⟨(true, true), [(false, false), (true, false)], 0, by decide, by decide⟩⟩

theorem right_eq_left_and (b : Bool) (l : List (Bool × Bool)) (h : ∀ p ∈ l, p.1 = true) :
    rightValue b l = leftValue b l := by
  have gen : ∀ (l : List (Bool × Bool)) (b c : Bool), (∀ p ∈ l, p.1 = true) →
      leftValue (c && b) l = (c && leftValue b l) := by
    intro l
    induction l with
    | nil => intros; rfl
    | cons p l ih =>
      intro b c h
      obtain ⟨o, x⟩ := p
      have : o = true := h (_, _) (List.mem_cons_self ..)
      subst this
      simp only [leftValue]
      rw [Bool.and_assoc, ih _ _ (fun p hp => h p (by simp [hp]))]
  induction l generalizing b with
  | nil => rfl
  | cons p l ih =>
    obtain ⟨o, x⟩ := p
    have : o = true := h (_, _) (List.mem_cons_self ..)
    subst this
    simp only [rightValue, leftValue]
    rw [ih _ (fun p hp => h p (by simp [hp])), gen l x b (fun p hp => h p (by simp [hp]))]

theorem right_eq_left_or (b : Bool) (l : List (Bool × Bool)) (h : ∀ p ∈ l, p.1 = false) :
    rightValue b l = leftValue b l := by
  have gen : ∀ (l : List (Bool × Bool)) (b c : Bool), (∀ p ∈ l, p.1 = false) →
      leftValue (c || b) l = (c || leftValue b l) := by
    intro l
    induction l with
    | nil => intros; rfl
    | cons p l ih =>
      intro b c h
      obtain ⟨o, x⟩ := p
      have : o = false := h (_, _) (List.mem_cons_self ..)
      subst this
      simp only [leftValue]
      rw [Bool.or_assoc, ih _ _ (fun p hp => h p (by simp [hp]))]
  induction l generalizing b with
  | nil => rfl
  | cons p l ih =>
    obtain ⟨o, x⟩ := p
    have : o = false := h (_, _) (List.mem_cons_self ..)
    subst this
    simp only [rightValue, leftValue]
    rw [ih _ (fun p hp => h p (by simp [hp])), gen l x b (fun p hp => h p (by simp [hp]))]

/-- **C16 (partial)** For chains that use only AND or only OR (after the first algorithm) the answer is the
documented left-to-right value. Missing: mixed chains, for which the claim is false (see
`C16_not_left_to_right`). -/
theorem C16_left_to_right_partial (junk : Nat) (first : Bool × Bool) (rest : List (Bool × Bool))
    (h : (∀ p ∈ rest, p.1 = true) ∨ (∀ p ∈ rest, p.1 = false)) :
    bool (build first rest) junk = leftValue first.2 rest := by
  rw [(C16_bool_is_right_grouped junk first rest).1]
  rcases h with h | h
  · exact right_eq_left_and _ _ h
  · exact right_eq_left_or _ _ h

example : bool (build (true, true) [(true, true), (true, false), (true, true)]) 7 = false ∧
    bool (build (false, false) [(false, false), (false, true)]) 7 = true := by decide

end AlgoArray
end Verif.CMTool

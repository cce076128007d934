import Verif.Shower.EmHitModel
import Mathlib.Tactic.Ring
import Mathlib.Tactic.Linarith
import Mathlib.Tactic.NormNum
import Mathlib.Tactic.IntervalCases
import Mathlib.Tactic.FieldSimp
import Mathlib.Data.List.Induction
import Mathlib.Data.List.TakeWhile

/-!
Theorems on the order of the hits of a shower, the orientation of its planes and the hits at its start (C225-C229).
-/

namespace Verif.EmShower

/-! ### Maps keyed by numbers -/

/-- keys strictly increasing -/
def Sorted {α : Type} (m : List (ℚ × α)) : Prop := m.Pairwise fun a b => a.1 < b.1

theorem mem_put {α : Type} (m : List (ℚ × α)) (hm : Sorted m) (k : ℚ) (v : α) (q : ℚ × α) :
    q ∈ put m k v ↔ q = (k, v) ∨ (q.1 ≠ k ∧ q ∈ m) := by
  induction m with
  | nil => simp [put]
  | cons a m ih =>
    obtain ⟨k', v'⟩ := a
    have hm' := List.pairwise_cons.1 hm
    unfold put
    by_cases h1 : k < k'
    · rw [if_pos h1]
      constructor
      · intro h
        rcases List.mem_cons.1 h with h | h
        · exact Or.inl h
        · refine Or.inr ⟨?_, h⟩
          rcases List.mem_cons.1 h with h | h
          · rw [h]; exact ne_of_gt h1
          · exact ne_of_gt (lt_trans h1 (hm'.1 q h))
      · rintro (h | ⟨_, h⟩)
        · rw [h]; exact List.mem_cons_self
        · exact List.mem_cons_of_mem _ h
    · rw [if_neg h1]
      by_cases h2 : k = k'
      · rw [if_pos h2]
        subst h2
        constructor
        · intro h
          rcases List.mem_cons.1 h with h | h
          · exact Or.inl h
          · exact Or.inr ⟨ne_of_gt (hm'.1 q h), List.mem_cons_of_mem _ h⟩
        · rintro (h | ⟨h, h'⟩)
          · rw [h]; exact List.mem_cons_self
          · rcases List.mem_cons.1 h' with h' | h'
            · rw [h'] at h; exact absurd rfl h
            · exact List.mem_cons_of_mem _ h'
      · rw [if_neg h2, List.mem_cons, ih hm'.2, List.mem_cons]
        constructor
        · rintro (h | h | ⟨h, h'⟩)
          · refine Or.inr ⟨?_, Or.inl h⟩
            rw [h]; exact fun e => h2 e.symm
          · exact Or.inl h
          · exact Or.inr ⟨h, Or.inr h'⟩
        · rintro (h | ⟨h, h' | h'⟩)
          · exact Or.inr (Or.inl h)
          · exact Or.inl h'
          · exact Or.inr (Or.inr ⟨h, h'⟩)

theorem sorted_put {α : Type} (m : List (ℚ × α)) (hm : Sorted m) (k : ℚ) (v : α) : Sorted (put m k v) := by
  induction m with
  | nil => simp [put, Sorted]
  | cons a m ih =>
    obtain ⟨k', v'⟩ := a
    have hm' := List.pairwise_cons.1 hm
    unfold put
    by_cases h1 : k < k'
    · rw [if_pos h1]
      refine List.pairwise_cons.2 ⟨?_, hm⟩
      intro b hb
      rcases List.mem_cons.1 hb with hb | hb
      · rw [hb]; exact h1
      · exact lt_trans h1 (hm'.1 b hb)
    · rw [if_neg h1]
      by_cases h2 : k = k'
      · rw [if_pos h2]
        subst h2
        exact List.pairwise_cons.2 ⟨hm'.1, hm'.2⟩
      · rw [if_neg h2]
        refine List.pairwise_cons.2 ⟨?_, ih hm'.2⟩
        intro b hb
        rcases (mem_put m hm'.2 k v b).1 hb with h | ⟨_, h⟩
        · rw [h]; exact lt_of_le_of_ne (not_lt.1 h1) (fun e => h2 e.symm)
        · exact hm'.1 b h

/-- the map after a list of insertions holds, for every key, the last element with it -/
theorem fold_put {α : Type} (key : α → ℚ) (l : List α) :
    Sorted (l.foldl (fun m a => put m (key a) a) []) ∧
    ∀ q, q ∈ l.foldl (fun m a => put m (key a) a) [] ↔
      key q.2 = q.1 ∧ ∃ pre suf, l = pre ++ q.2 :: suf ∧ ∀ u ∈ suf, key u ≠ q.1 := by
  induction l using List.reverseRecOn with
  | nil => exact ⟨by simp [Sorted], by simp⟩
  | append_singleton l a ih =>
    obtain ⟨h1, h2⟩ := ih
    rw [List.foldl_append]
    simp only [List.foldl_cons, List.foldl_nil]
    refine ⟨sorted_put _ h1 _ _, fun q => ?_⟩
    rw [mem_put _ h1, h2]
    constructor
    · rintro (h | ⟨h, hk, pre, suf, e, hs⟩)
      · rw [h]
        exact ⟨rfl, l, [], rfl, by simp⟩
      · refine ⟨hk, pre, suf ++ [a], by rw [e]; simp, ?_⟩
        intro u hu
        rw [List.mem_append] at hu
        rcases hu with hu | hu
        · exact hs u hu
        · simp at hu
          subst hu
          exact fun e => h e.symm
    · rintro ⟨hk, pre, suf, e, hs⟩
      rcases List.eq_nil_or_concat suf with rfl | ⟨suf', b, rfl⟩
      · left
        have := List.append_inj_right' e rfl
        injection this with e1
        rw [← e1] at hk
        ext
        · exact hk.symm
        · exact e1.symm
      · right
        rw [show pre ++ q.2 :: suf'.concat b = (pre ++ q.2 :: suf') ++ [b] by simp] at e
        have e1 := List.append_inj_left' e rfl
        have e2 := List.append_inj_right' e rfl
        injection e2 with e2
        subst e2
        exact ⟨fun h => hs a (by simp) h.symm, hk, pre, suf', e1, fun u hu => hs u (by simp [hu])⟩

theorem ordered_spec {α : Type} (key : α → ℚ) (l : List α) :
    (ordered key l).Pairwise (fun a b => key a < key b) ∧
    ∀ a, a ∈ ordered key l ↔ ∃ pre suf, l = pre ++ a :: suf ∧ ∀ u ∈ suf, key u ≠ key a := by
  obtain ⟨h1, h2⟩ := fold_put key l
  unfold ordered
  constructor
  · rw [List.pairwise_map]
    refine List.Pairwise.imp_of_mem ?_ h1
    intro a b ha hb hab
    rw [((h2 a).1 ha).1, ((h2 b).1 hb).1]
    exact hab
  · intro a
    rw [List.mem_map]
    constructor
    · rintro ⟨q, hq, rfl⟩
      obtain ⟨hk, pre, suf, e, hs⟩ := (h2 q).1 hq
      rw [← hk] at hs
      exact ⟨pre, suf, e, hs⟩
    · rintro ⟨pre, suf, e, hs⟩
      exact ⟨(key a, a), (h2 _).2 ⟨rfl, pre, suf, e, hs⟩, rfl⟩

/-- with different keys everything is kept -/
theorem ordered_perm {α : Type} (key : α → ℚ) (l : List α) (h : (l.map key).Nodup) : (ordered key l).Perm l := by
  obtain ⟨h1, h2⟩ := ordered_spec key l
  have n1 : (ordered key l).Nodup := h1.imp (fun {a b} hab e => by rw [e] at hab; exact lt_irrefl _ hab)
  have n2 : l.Nodup := List.Nodup.of_map _ h
  rw [List.perm_ext_iff_of_nodup n1 n2]
  intro a
  rw [h2]
  constructor
  · rintro ⟨pre, suf, e, _⟩
    rw [e]; simp
  · intro ha
    obtain ⟨pre, suf, e⟩ := List.append_of_mem ha
    refine ⟨pre, suf, e, ?_⟩
    intro u hu he
    rw [e, List.map_append, List.map_cons, List.nodup_append] at h
    have := (List.nodup_cons.1 h.2.1).1
    exact this (List.mem_map.2 ⟨u, hu, he⟩)

/-- C225 (partial): the ordered hits are hits of the plane with strictly increasing projection; every hit given has one with
its projection among them, the last of those with that projection.  Missing: that all hits are kept, see the refutation. -/
theorem C225_order_partial (proj : H → ℚ) (hits : List H) :
    (orderHits proj hits).Pairwise (fun a b => proj a < proj b) ∧
    (∀ h ∈ orderHits proj hits, h ∈ hits) ∧
    (∀ h ∈ hits, ∃ g ∈ orderHits proj hits, proj g = proj h) ∧
    ((hits.map proj).Nodup → (orderHits proj hits).Perm hits) := by
  obtain ⟨h1, h2⟩ := ordered_spec proj hits
  refine ⟨h1, ?_, ?_, ordered_perm proj hits⟩
  · intro h hh
    obtain ⟨pre, suf, e, _⟩ := (h2 h).1 hh
    rw [e]; simp
  · intro h hh
    suffices hs : ∀ l : List H, h ∈ l → ∃ g pre suf, l = pre ++ g :: suf ∧ proj g = proj h ∧ ∀ u ∈ suf, proj u ≠ proj g by
      obtain ⟨g, pre, suf, e, hk, hn⟩ := hs hits hh
      exact ⟨g, (h2 g).2 ⟨pre, suf, e, hn⟩, hk⟩
    intro l
    induction l with
    | nil => simp
    | cons a l ih =>
      intro hl
      by_cases hex : ∃ u ∈ l, proj u = proj h
      · -- one with this projection comes later: take the last
        have : ∀ l' : List H, (∃ u ∈ l', proj u = proj h) →
            ∃ g pre suf, l' = pre ++ g :: suf ∧ proj g = proj h ∧ ∀ u ∈ suf, proj u ≠ proj g := by
          intro l'
          induction l' with
          | nil => simp
          | cons b l' ih' =>
            intro hb
            by_cases hb' : ∃ u ∈ l', proj u = proj h
            · obtain ⟨g, pre, suf, e, hk, hn⟩ := ih' hb'
              exact ⟨g, b :: pre, suf, by rw [e]; simp, hk, hn⟩
            · obtain ⟨u, hu, hk⟩ := hb
              rcases List.mem_cons.1 hu with rfl | hu
              · refine ⟨u, [], l', rfl, hk, ?_⟩
                intro w hw hwe
                exact hb' ⟨w, hw, hwe.trans hk⟩
              · exact absurd ⟨u, hu, hk⟩ hb'
        obtain ⟨g, pre, suf, e, hk, hn⟩ := this l hex
        exact ⟨g, a :: pre, suf, by rw [e]; simp, hk, hn⟩
      · rcases List.mem_cons.1 hl with rfl | hl
        · refine ⟨h, [], l, rfl, rfl, ?_⟩
          intro u hu he
          exact hex ⟨u, hu, he⟩
        · exact absurd ⟨h, hl, rfl⟩ hex

/-- hit number `i` at coordinate (x, y) in TPC `t` -/
def hit (i t : Nat) (x y : ℤ) : H := ⟨i, t, x, y, x, y⟩

/-- C225: of two hits with the same projection one is lost. -/
theorem C225_keeps_all_refuted :
    (orderHits (fun h => h.x) [hit 1 0 5 10, hit 2 0 7 10, hit 3 0 5 20]).map H.id = [3, 2] := by decide +kernel

example : (([hit 1 0 5 10, hit 2 0 7 10, hit 3 0 4 20].map fun h => h.x).Nodup) ∧
    (orderHits (fun h => h.x) [hit 1 0 5 10, hit 2 0 7 10, hit 3 0 4 20]).map H.id = [3, 1, 2] := by decide +kernel

/-! ### Hits in a wrong TPC -/

theorem takeOut_perm (n : Nat) (hs : List H) : ((takeOut n hs).1 ++ (takeOut n hs).2).Perm hs := by
  unfold takeOut
  have key : ∀ (l : List Nat) (s : List H × List H),
      ((l.foldl takeStep s).1 ++ (l.foldl takeStep s).2).Perm (s.1 ++ s.2) := by
    intro l
    induction l with
    | nil => intro s; exact List.Perm.refl _
    | cons i l ih =>
      intro s
      rw [List.foldl_cons]
      refine (ih _).trans ?_
      unfold takeStep
      match hi : s.1[i]? with
      | none => exact List.Perm.refl _
      | some h =>
        dsimp only
        obtain ⟨hl, he⟩ := List.getElem?_eq_some_iff.1 hi
        have h1 : (h :: s.1.eraseIdx i).Perm s.1 := by
          rw [← he]
          exact List.getElem_cons_eraseIdx_perm hl
        rw [← List.append_assoc]
        refine (List.perm_append_comm).trans ?_
        rw [List.singleton_append, ← List.cons_append]
        exact h1.append_right s.2
  have := key (List.range n) (hs, [])
  simpa using this

theorem find_plane (m : List (Nat × List H)) (hnd : (m.map Prod.fst).Nodup) (q : Nat × List H) (hq : q ∈ m) :
    hitsOf m q.1 = q.2 := by
  unfold hitsOf
  have : m.find? (fun r => r.1 = q.1) = some q := by
    induction m with
    | nil => simp at hq
    | cons a m ih =>
      rw [List.map_cons, List.nodup_cons] at hnd
      rcases List.mem_cons.1 hq with rfl | hq
      · simp
      · have hne : a.1 ≠ q.1 := by
          intro h
          exact hnd.1 (List.mem_map.2 ⟨q, hq, h.symm⟩)
        rw [List.find?_cons_of_neg (by simpa using hne)]
        exact ih hnd.2 hq
  rw [this]
  rfl

/-- C226: the check never loses a hit: the planes stay, each with a rearrangement of its hits, and at most one plane is
touched. -/
theorem C226_no_loss (n : Nat) (m r : List (Nat × List H)) (h : checkIsolated n m = some r) :
    r.map Prod.fst = m.map Prod.fst ∧
    (∀ (i : Nat) (q q' : Nat × List H), m[i]? = some q → r[i]? = some q' → q'.2.Perm q.2) ∧
    ∃ p, ∀ (i : Nat) (q : Nat × List H), m[i]? = some q → q.1 ≠ p → r[i]? = some q := by
  unfold checkIsolated at h
  split at h
  · exact absurd h (by simp)
  · split at h
    · injection h with h
      subst h
      refine ⟨rfl, ?_, 0, fun i q hq _ => hq⟩
      intro i q q' h1 h2
      rw [h1] at h2
      injection h2 with h2
      rw [h2]
    · split at h
      · exact absurd h (by simp)
      · rename_i p _
        dsimp only at h
        injection h with h
        generalize toMove n m p = k at h
        subst h
        refine ⟨?_, ?_, p, ?_⟩
        · rw [List.map_map]
          apply List.map_congr_left
          intro q _
          simp only [Function.comp]
          split <;> rfl
        · intro i q q' h1 h2
          rw [List.getElem?_map, h1] at h2
          simp only [Option.map_some, Option.some.injEq] at h2
          subst h2
          split
          · exact takeOut_perm _ _
          · exact List.Perm.refl _
        · intro i q h1 hq
          rw [List.getElem?_map, h1]
          simp [hq]

/-- lists of at most three TPCs with two different ones have one that occurs once -/
theorem problem_exists (m : List (Nat × List H)) (h3 : m.length ≤ 3) (h2 : (tpcKeys m).length = 2) :
    ∃ p, problemPlane m = some p ∧ p ∈ m.map Prod.fst := by
  have hf : (firstTpc m).length = m.length := by simp [firstTpc]
  have hfst : (firstTpc m).map Prod.fst = m.map Prod.fst := by
    unfold firstTpc
    rw [List.map_map]
    rfl
  have hmem : ∀ t, t ∈ tpcKeys m ↔ ∃ q ∈ firstTpc m, q.2 = t := by
    intro t
    unfold tpcKeys
    rw [List.mem_insertionSort, List.mem_dedup, List.mem_map]
  have hnd : (tpcKeys m).Nodup := by
    unfold tpcKeys
    exact ((List.perm_insertionSort _ _).nodup_iff).2 (List.nodup_dedup _)
  rw [← hfst]
  unfold problemPlane
  match hk : tpcKeys m, h2 with
  | [a, b], _ =>
    rw [hk] at hmem hnd
    have hab : a ≠ b := by simp at hnd; exact hnd
    have ha := (hmem a).1 (by simp)
    have hb := (hmem b).1 (by simp)
    have hall : ∀ q ∈ firstTpc m, q.2 = a ∨ q.2 = b := by
      intro q hq
      have := (hmem q.2).2 ⟨q, hq, rfl⟩
      simpa using this
    -- the numbers of planes in the two TPCs
    generalize firstTpc m = f at *
    have hsum : (f.filter fun q => q.2 = a).length + (f.filter fun q => q.2 = b).length = f.length := by
      clear hmem ha hb hf hfst
      induction f with
      | nil => rfl
      | cons q f ih =>
        have ih := ih (fun q hq => hall q (List.mem_cons_of_mem _ hq))
        rcases hall q (by simp) with h | h
        · rw [List.filter_cons_of_pos (by simpa using h), List.filter_cons_of_neg (by simp [h, hab])]
          simp only [List.length_cons]; omega
        · rw [List.filter_cons_of_neg (by simp [h, Ne.symm hab]), List.filter_cons_of_pos (by simpa using h)]
          simp only [List.length_cons]; omega
    have la : 1 ≤ (f.filter fun q => q.2 = a).length := by
      obtain ⟨q, hq, he⟩ := ha
      exact List.length_pos_of_mem (List.mem_filter.2 ⟨hq, by simpa using he⟩)
    have lb : 1 ≤ (f.filter fun q => q.2 = b).length := by
      obtain ⟨q, hq, he⟩ := hb
      exact List.length_pos_of_mem (List.mem_filter.2 ⟨hq, by simpa using he⟩)
    have hone : (f.filter fun q => q.2 = a).length = 1 ∨ (f.filter fun q => q.2 = b).length = 1 := by omega
    generalize hA : (f.filter fun q => decide (q.2 = a)) = A at *
    generalize hB : (f.filter fun q => decide (q.2 = b)) = B at *
    have mA : ∀ q ∈ A, q ∈ f := fun q hq => by rw [← hA] at hq; exact (List.mem_filter.1 hq).1
    have mB : ∀ q ∈ B, q ∈ f := fun q hq => by rw [← hB] at hq; exact (List.mem_filter.1 hq).1
    simp only [List.filterMap_cons, List.filterMap_nil, hA, hB]
    match A, B with
    | [x], [y] => exact ⟨y.1, by simp, List.mem_map.2 ⟨y, mB y (by simp), rfl⟩⟩
    | [x], [] => simp at lb
    | [x], y :: z :: w => exact ⟨x.1, by simp, List.mem_map.2 ⟨x, mA x (by simp), rfl⟩⟩
    | [], _ => simp at la
    | x :: z :: w, [y] => exact ⟨y.1, by simp, List.mem_map.2 ⟨y, mB y (by simp), rfl⟩⟩
    | x :: z :: w, [] => simp at lb
    | x :: z :: w, y :: z' :: w' => simp at hone

/-- C226: with at most three planes, all with hits, the check never throws. -/
theorem C226_no_throw (n : Nat) (m : List (Nat × List H)) (h3 : m.length ≤ 3) (hne : ∀ q ∈ m, q.2 ≠ []) :
    ∃ r, checkIsolated n m = some r := by
  unfold checkIsolated
  rw [if_neg (by
    simp only [List.any_eq_true, decide_eq_true_eq, not_exists, not_and]
    exact hne)]
  split
  · exact ⟨_, rfl⟩
  · rename_i h2
    obtain ⟨p, hp, _⟩ := problem_exists m h3 (by simpa using h2)
    rw [hp]
    exact ⟨_, rfl⟩

/-- C226 (partial): a single hit in the wrong TPC goes from the front to the end.  Missing: two hits, see the refutation. -/
theorem C226_one_hit_partial (h : H) (hs : List H) : takeOut 1 (h :: hs) = (hs, [h]) := by
  simp [takeOut, takeStep]

/-- planes 0 and 1 in TPC 0; plane 2 starts with `k` hits in TPC 1 -/
def exIso (k : Nat) : List (Nat × List H) :=
  [(0, [hit 1 0 1 1, hit 2 0 2 1, hit 3 0 3 1]), (1, [hit 4 0 1 1, hit 5 0 2 1, hit 6 0 3 1]),
    (2, (List.range k).map (fun i => hit (10 + i) 1 1 i) ++ (List.range 9).map fun i => hit (20 + i) 0 2 i)]

example : (checkIsolated 3 (exIso 1)).map (fun r => (hitsOf r 2).map H.id) =
    some [20, 21, 22, 23, 24, 25, 26, 27, 28, 10] := by decide +kernel

/-- C226: with two hits in the wrong TPC the second one stays in front and a good hit is moved to the end instead. -/
theorem C226_two_hits_refuted : (checkIsolated 3 (exIso 2)).map (fun r => (hitsOf r 2).map fun h => (h.id, h.tpc)) =
    some [(11, 1), (21, 0), (22, 0), (23, 0), (24, 0), (25, 0), (26, 0), (27, 0), (28, 0), (10, 1), (20, 0)] := by
  decide +kernel

/-! ### Orientation -/

theorem orientLoop_spec (check : List (Nat × List H) → Bool) (ps : List (Nat → Bool)) (orig : List (Nat × List H))
    (f n : Nat) (cur : List (Nat × List H)) :
    orientLoop check ps orig f n cur = cur ∨
      ∃ k, n ≤ k ∧ k < n + f ∧ orientLoop check ps orig f n cur = applyPerm (ps.getD k fun _ => false) orig := by
  induction f generalizing n cur with
  | zero => exact Or.inl rfl
  | succ f ih =>
    unfold orientLoop
    split
    · exact Or.inl rfl
    · rcases ih (n + 1) (applyPerm (ps.getD n fun _ => false) orig) with h | ⟨k, h1, h2, h3⟩
      · exact Or.inr ⟨n, le_refl _, by omega, h⟩
      · exact Or.inr ⟨k, by omega, by omega, h3⟩

/-- if one of the permutations tried passes, the loop ends with one that passes -/
theorem orientLoop_finds (check : List (Nat × List H) → Bool) (ps : List (Nat → Bool)) (orig : List (Nat × List H))
    (f n : Nat) (cur : List (Nat × List H))
    (h : ∃ k, n ≤ k ∧ k < n + f ∧ check (applyPerm (ps.getD k fun _ => false) orig) = true) :
    check (orientLoop check ps orig f n cur) = true := by
  induction f generalizing n cur with
  | zero => obtain ⟨k, h1, h2, _⟩ := h; omega
  | succ f ih =>
    unfold orientLoop
    split
    · rename_i hc; exact hc
    · obtain ⟨k, h1, h2, h3⟩ := h
      by_cases hk : k = n
      · subst hk
        -- the next current arrangement passes
        cases f with
        | zero => unfold orientLoop; exact h3
        | succ f => unfold orientLoop; rw [if_pos h3]; exact h3
      · exact ih (n + 1) _ ⟨k, by omega, by omega, h3⟩

/-- C227: the result is the given arrangement, or one that passes the check and differs from it only by the direction of
planes. -/
theorem C227_result (check : List (Nat × List H) → Bool) (ww : List Nat) (orig : List (Nat × List H)) :
    orient check ww orig = orig ∨
      (check (orient check ww orig) = true ∧ ∃ f, orient check ww orig = applyPerm f orig) := by
  unfold orient
  dsimp only
  split
  · rename_i hc
    rcases orientLoop_spec check (permutations (orig.map Prod.fst) ww) orig (2 ^ orig.length) 0 orig with h | ⟨k, _, _, h⟩
    · exact Or.inl h
    · exact Or.inr ⟨hc, _, h⟩
  · exact Or.inl rfl

theorem applyPerm_congr (f g : Nat → Bool) (m : List (Nat × List H)) (h : ∀ p ∈ m.map Prod.fst, f p = g p) :
    applyPerm f m = applyPerm g m := by
  unfold applyPerm
  apply List.map_congr_left
  intro q hq
  rw [h q.1 (List.mem_map.2 ⟨q, hq, rfl⟩)]

theorem addPerm_new (ww : List Nat) (used : List (Nat → Bool)) (f : Nat → Bool)
    (h : ∀ g ∈ used, ∃ p ∈ ww, f p ≠ g p) : addPerm ww used f = used ++ [f] := by
  unfold addPerm
  rw [if_neg]
  intro hc
  rw [List.any_eq_true] at hc
  obtain ⟨g, hg, hall⟩ := hc
  obtain ⟨p, hp, hne⟩ := h g hg
  rw [List.all_eq_true] at hall
  exact hne (by simpa using hall p hp)

/-- every orientation of up to three planes is among the permutations -/
theorem permutations_complete (planes ww : List Nat) (hp : ww.Perm planes) (hnd : planes.Nodup) (h3 : planes.length ≤ 3)
    (o : Nat → Bool) :
    ∃ k, k < 2 ^ planes.length ∧ ∀ p ∈ planes, ((permutations planes ww).getD k fun _ => false) p = o p := by
  have hl := hp.length_eq
  have hw : ww.Nodup := hp.nodup_iff.2 hnd
  have hm : ∀ p, p ∈ planes ↔ p ∈ ww := fun p => hp.mem_iff.symm
  simp only [hm]
  rw [← hl]
  rw [← hl] at h3
  have hc : ∀ p, planes.contains p = ww.contains p := by
    intro p
    rw [Bool.eq_iff_iff, List.contains_iff_mem, List.contains_iff_mem, hm]
  unfold permutations
  match ww, h3 with
  | [], _ => exact ⟨0, by simp, by simp⟩
  | [a], _ =>
    cases ha : o a
    · exact ⟨0, by simp, by simp [ha]⟩
    · refine ⟨1, by simp, ?_⟩
      simp [addPerm, ha]
  | [a, b], _ =>
    have hab : a ≠ b := by simpa using hw
    have hba := hab.symm
    cases ha : o a <;> cases hb : o b
    · exact ⟨0, by simp, by simp [ha, hb]⟩
    · refine ⟨2, by simp, ?_⟩
      simp [addPerm, ha, hb, hab, hba]
    · refine ⟨1, by simp, ?_⟩
      simp [addPerm, ha, hb, hab, hba]
    · refine ⟨3, by simp, ?_⟩
      simp [addPerm, ha, hb, hab, hba, hm]
  | [a, b, c], _ =>
    simp only [List.nodup_cons, List.mem_cons, List.not_mem_nil, or_false, not_or, List.nodup_nil, and_true,
      not_false_eq_true] at hw
    obtain ⟨⟨hab, hac⟩, hbc⟩ := hw
    have hba := Ne.symm hab
    have hca := Ne.symm hac
    have hcb := Ne.symm hbc
    have e : (([a, b, c].map fun q p => p == q) ++
        ([a, b, c].reverse.map fun q p => p != q && [a, b, c].contains p)).foldl (addPerm [a, b, c]) [] =
        [fun p => p == a, fun p => p == b, fun p => p == c, fun p => p != c && [a, b, c].contains p,
          fun p => p != b && [a, b, c].contains p, fun p => p != a && [a, b, c].contains p] := by
      have n1 := beq_false_of_ne hab
      have n2 := beq_false_of_ne hba
      have n3 := beq_false_of_ne hac
      have n4 := beq_false_of_ne hca
      have n5 := beq_false_of_ne hbc
      have n6 := beq_false_of_ne hcb
      show addPerm _ (addPerm _ (addPerm _ (addPerm _ (addPerm _ (addPerm _ [] _) _) _) _) _) _ = _
      rw [addPerm_new _ [] _ (by simp), addPerm_new _ ([] ++ _) _ (by simp [hab, hba]),
        addPerm_new _ ([] ++ _ ++ _) _ (by simp [hab, hba, hac, hca, hbc, hcb]),
        addPerm_new _ ([] ++ _ ++ _ ++ _) _ (by simp [hab, hba, hac, hca, hbc, hcb]; simp [bne, n1, n2, n3, n4, n5, n6]),
        addPerm_new _ ([] ++ _ ++ _ ++ _ ++ _) _ (by simp [hab, hba, hac, hca, hbc, hcb]; simp [bne, n1, n2, n3, n4, n5, n6]),
        addPerm_new _ ([] ++ _ ++ _ ++ _ ++ _ ++ _) _ (by simp [hab, hba, hac, hca, hbc, hcb]; simp [bne, n1, n2, n3, n4, n5, n6])]
      rfl
    rw [e]
    cases ha : o a <;> cases hb : o b <;> cases hcc : o c
    · exact ⟨0, by simp, by simp [ha, hb, hcc]⟩
    · exact ⟨3, by simp, by simp [ha, hb, hcc, hab, hba, hac, hca, hbc, hcb, hm]⟩
    · exact ⟨2, by simp, by simp [ha, hb, hcc, hab, hba, hac, hca, hbc, hcb, hm]⟩
    · exact ⟨6, by simp, by simp [ha, hb, hcc, hab, hba, hac, hca, hbc, hcb, hm]⟩
    · exact ⟨1, by simp, by simp [ha, hb, hcc, hab, hba, hac, hca, hbc, hcb, hm]⟩
    · exact ⟨5, by simp, by simp [ha, hb, hcc, hab, hba, hac, hca, hbc, hcb, hm]⟩
    · exact ⟨4, by simp, by simp [ha, hb, hcc, hab, hba, hac, hca, hbc, hcb, hm]⟩
    · exact ⟨7, by simp, by simp [ha, hb, hcc, hab, hba, hac, hca, hbc, hcb, hm]⟩

/-- C227 (partial): with at most three planes whose relative widths differ, a consistent orientation is found if there is
one.  Missing: equal widths, see the refutation. -/
theorem C227_finds_partial (check : List (Nat × List H) → Bool) (ww : List Nat) (orig : List (Nat × List H))
    (hp : ww.Perm (orig.map Prod.fst)) (hnd : (orig.map Prod.fst).Nodup) (h3 : orig.length ≤ 3)
    (hex : ∃ o, check (applyPerm o orig) = true) : check (orient check ww orig) = true := by
  obtain ⟨o, ho⟩ := hex
  obtain ⟨k, hk, he⟩ := permutations_complete (orig.map Prod.fst) ww hp hnd (by simpa using h3) o
  have h := orientLoop_finds check (permutations (orig.map Prod.fst) ww) orig (2 ^ orig.length) 0 orig
    ⟨k, Nat.zero_le _, by simpa using hk, by rw [applyPerm_congr _ o orig he]; exact ho⟩
  unfold orient
  dsimp only
  rw [if_pos h]
  exact h

/-- C227: the planes are tried in the order of their wire widths, all of them if the widths are positive and differ. -/
theorem C227_widths (w : List (Nat × ℚ)) (hn : (w.map Prod.fst).Nodup) (hd : (w.map Prod.snd).Nodup)
    (hpos : ∀ q ∈ w, 0 < q.2) (h2 : 2 ≤ w.length) :
    (wireOrder w).Perm (w.map Prod.fst) ∧
      (ordered (relWidth w) w).Pairwise fun a b => a.2 < b.2 := by
  -- the sum over the others is the total less the own square
  let S : ℚ := (w.map fun r => r.2 * r.2).sum
  have hS : ∀ q ∈ w, ((w.filter fun r => q.1 ≠ r.1).map fun r => r.2 * r.2).sum = S - q.2 * q.2 := by
    intro q hq
    show _ = (w.map fun r => r.2 * r.2).sum - q.2 * q.2
    clear hd hpos h2
    induction w with
    | nil => simp at hq
    | cons a w ih =>
      rw [List.map_cons, List.nodup_cons] at hn
      rcases List.mem_cons.1 hq with rfl | hq'
      · rw [List.filter_cons_of_neg (by simp), List.map_cons, List.sum_cons]
        have : w.filter (fun r => decide (q.1 ≠ r.1)) = w := by
          rw [List.filter_eq_self]
          intro r hr
          simp only [ne_eq, decide_not, Bool.not_eq_eq_eq_not, Bool.not_true, decide_eq_false_iff_not]
          intro h
          exact hn.1 (List.mem_map.2 ⟨r, hr, h.symm⟩)
        rw [this]; ring
      · have hne : q.1 ≠ a.1 := by
          intro h
          exact hn.1 (List.mem_map.2 ⟨q, hq', h⟩)
        rw [List.filter_cons_of_pos (by simpa using hne), List.map_cons, List.sum_cons, List.map_cons, List.sum_cons,
          ih hn.2 hq']
        ring
  have hothers : ∀ q ∈ w, 0 < ((w.filter fun r => q.1 ≠ r.1).map fun r => r.2 * r.2).sum := by
    intro q hq
    obtain ⟨r, hr, hrq⟩ : ∃ r ∈ w, q.1 ≠ r.1 := by
      by_contra hcon
      push Not at hcon
      match w, h2 with
      | a :: b :: l, _ =>
        have e1 := hcon a (by simp)
        have e2 := hcon b (by simp)
        simp only [List.map_cons, List.nodup_cons, List.mem_cons, not_or] at hn
        exact hn.1.1 (e1.symm.trans e2)
    have hmem : r ∈ w.filter fun r => q.1 ≠ r.1 := List.mem_filter.2 ⟨hr, by simpa using hrq⟩
    have hnn : ∀ l : List (Nat × ℚ), 0 ≤ (l.map fun r => r.2 * r.2).sum := by
      intro l
      induction l with
      | nil => simp
      | cons a l ih => rw [List.map_cons, List.sum_cons]; nlinarith [mul_self_nonneg a.2]
    obtain ⟨s, t, e⟩ := List.append_of_mem hmem
    rw [e, List.map_append, List.sum_append, List.map_cons, List.sum_cons]
    have := hpos r hr
    nlinarith [hnn s, hnn t, mul_pos this this]
  have hmono : ∀ a ∈ w, ∀ b ∈ w, (relWidth w a < relWidth w b ↔ a.2 < b.2) := by
    intro a ha b hb
    have pa := hothers a ha
    have pb := hothers b hb
    unfold relWidth
    rw [div_lt_div_iff₀ pa pb]
    rw [hS a ha] at *
    rw [hS b hb] at *
    have hab : 0 < S := by nlinarith [mul_self_nonneg a.2]
    constructor
    · intro h
      have h' : a.2 * a.2 < b.2 * b.2 := by nlinarith
      by_contra hcon
      push Not at hcon
      nlinarith [hpos a ha, hpos b hb]
    · intro h
      have h' : a.2 * a.2 < b.2 * b.2 := by nlinarith [hpos a ha, hpos b hb]
      nlinarith
  have hkeys : (w.map (relWidth w)).Nodup := by
    have hwn : w.Nodup := List.Nodup.of_map _ hn
    refine (List.nodup_map_iff_inj_on hwn).2 ?_
    intro a ha b hb he
    have e2 : a.2 = b.2 := by
      rcases lt_trichotomy a.2 b.2 with h | h | h
      · have := (hmono a ha b hb).2 h; rw [he] at this; exact absurd this (lt_irrefl _)
      · exact h
      · have := (hmono b hb a ha).2 h; rw [he] at this; exact absurd this (lt_irrefl _)
    exact (List.nodup_map_iff_inj_on hwn).1 hd a ha b hb e2
  have hperm := ordered_perm (relWidth w) w hkeys
  refine ⟨hperm.map _, ?_⟩
  refine List.Pairwise.imp_of_mem ?_ (ordered_spec (relWidth w) w).1
  intro a b ha hb hab
  exact (hmono a (hperm.mem_iff.1 ha) b (hperm.mem_iff.1 hb)).1 hab

example : wireOrder [(0, 5), (1, 3), (2, 9)] = [1, 0, 2] := by decide +kernel

/-- two planes, two hits each -/
def exTwo : List (Nat × List H) := [(0, [hit 1 0 1 1, hit 2 0 5 1]), (1, [hit 3 0 1 1, hit 4 0 5 1])]

/-- only plane 0 reversed is consistent -/
def exCheck (m : List (Nat × List H)) : Bool := (m.map fun q => q.2.map H.id) == [[2, 1], [3, 4]]

/-- C227: with equal widths only one of the two planes is tried alone: the consistent orientation is not found. -/
theorem C227_equal_widths_refuted : wireOrder [(0, 4), (1, 4)] = [1] ∧
    exCheck (applyPerm (fun p => p == 0) exTwo) = true ∧ orient exCheck (wireOrder [(0, 4), (1, 4)]) exTwo = exTwo ∧
    exCheck exTwo = false := by decide +kernel

example : exCheck (orient exCheck [0, 1] exTwo) = true := by decide +kernel

/-- C227: with a desired plane, hits in any other plane make the ordering throw. -/
theorem C227_desired_plane_refuted (d : Nat) (m : List (Nat × List H)) (q : Nat × List H) (hq : q ∈ m) (h : q.1 ≠ d) :
    rmsRead (some d) m = none := by
  unfold rmsRead
  rw [if_neg]
  simp only [List.all_eq_true, decide_eq_true_eq, not_forall]
  refine ⟨q, hq, ?_⟩
  simp [Ne.symm h]

example : rmsRead (some 2) exTwo = none ∧ rmsRead none exTwo = some () := by decide +kernel

/-! ### Planes of the initial track -/

/-- C228: the worst plane has the smallest wire width, and is the last of those that have it. -/
theorem C228_worst_plane (w : List (Nat × ℚ)) (h : w ≠ []) :
    ∃ q, worstPlane w = some q.1 ∧ (∀ r ∈ w, q.2 ≤ r.2) ∧ ∃ pre suf, w = pre ++ q :: suf ∧ ∀ u ∈ suf, u.2 ≠ q.2 := by
  obtain ⟨h1, h2⟩ := ordered_spec (Prod.snd : Nat × ℚ → ℚ) w
  have hne : ordered (Prod.snd : Nat × ℚ → ℚ) w ≠ [] := by
    rcases List.eq_nil_or_concat w with rfl | ⟨l, a, rfl⟩
    · exact absurd rfl h
    · intro he
      have : a ∈ ordered (Prod.snd : Nat × ℚ → ℚ) (l.concat a) := (h2 a).2 ⟨l, [], by simp, by simp⟩
      rw [he] at this
      simp at this
  unfold worstPlane
  match ho : ordered (Prod.snd : Nat × ℚ → ℚ) w, hne with
  | q :: l, _ =>
    rw [ho] at h1 h2
    refine ⟨q, rfl, ?_, (h2 q).1 (by simp)⟩
    intro r hr
    -- some element of the map has the width of r
    suffices hs : ∀ l' : List (Nat × ℚ), r ∈ l' → ∃ g pre suf, l' = pre ++ g :: suf ∧ g.2 = r.2 ∧ ∀ u ∈ suf, u.2 ≠ g.2 by
      obtain ⟨g, pre, suf, e, hk, hn⟩ := hs w hr
      have hg : g ∈ q :: l := (h2 g).2 ⟨pre, suf, e, hn⟩
      rw [← hk]
      rcases List.mem_cons.1 hg with rfl | hg
      · exact le_refl _
      · exact le_of_lt ((List.pairwise_cons.1 h1).1 g hg)
    intro l'
    induction l' using List.reverseRecOn with
    | nil => simp
    | append_singleton l' a ih =>
      intro hr'
      by_cases ha : a.2 = r.2
      · exact ⟨a, l', [], by simp, ha, by simp⟩
      · rw [List.mem_append] at hr'
        rcases hr' with hr' | hr'
        · obtain ⟨g, pre, suf, e, hk, hn⟩ := ih hr'
          refine ⟨g, pre, suf ++ [a], by rw [e]; simp, hk, ?_⟩
          intro u hu
          rw [List.mem_append] at hu
          rcases hu with hu | hu
          · exact hn u hu
          · simp at hu; subst hu; rw [hk]; exact ha
        · simp at hr'; subst hr'; exact absurd rfl ha

example : worstPlane [(0, 5), (1, 3), (2, 3)] = some 2 := by decide +kernel

/-- C228: with two planes or more the initial track uses two different planes; if there are more and they are inconsistent,
not the worst one; no other plane (apart from that one) has more hits. -/
theorem C228_track_planes (sizes : List (Nat × Nat)) (ok : Bool) (worst : Nat)
    (hs : sizes.Pairwise fun a b => b.2 ≤ a.2) (hnd : (sizes.map Prod.fst).Nodup) (h2 : 2 ≤ sizes.length) :
    ∃ a ∈ sizes, ∃ b ∈ sizes, trackPlanes sizes ok worst = some (a.1, b.1) ∧ a.1 ≠ b.1 ∧
      (2 < sizes.length → ok = false → a.1 ≠ worst ∧ b.1 ≠ worst) ∧
      ∀ c ∈ sizes, c.1 ≠ a.1 → c.1 ≠ b.1 → (c.2 ≤ b.2 ∧ c.2 ≤ a.2) ∨ (2 < sizes.length ∧ ok = false ∧ c.1 = worst) := by
  have key : ∀ l : List (Nat × Nat), l.Sublist sizes → 2 ≤ l.length →
      ∃ a ∈ l, ∃ b ∈ l, l.take 2 = [a, b] ∧ a.1 ≠ b.1 ∧ ∀ c ∈ l, c.1 ≠ a.1 → c.1 ≠ b.1 → c.2 ≤ b.2 ∧ c.2 ≤ a.2 := by
    intro l hl hl2
    have hs' := hs.sublist hl
    have hn' := hnd.sublist (hl.map Prod.fst)
    match l, hl2 with
    | a :: b :: t, _ =>
      refine ⟨a, by simp, b, by simp, by simp, ?_, ?_⟩
      · simp only [List.map_cons, List.nodup_cons, List.mem_cons, not_or] at hn'
        exact hn'.1.1
      · intro c hc hca hcb
        simp only [List.mem_cons] at hc
        rcases hc with rfl | rfl | hc
        · exact absurd rfl hca
        · exact absurd rfl hcb
        · rw [List.pairwise_cons, List.pairwise_cons] at hs'
          exact ⟨hs'.2.1 c hc, hs'.1 c (by simp [hc])⟩
  unfold trackPlanes
  rw [if_neg (by omega)]
  dsimp only
  by_cases hb : 2 < sizes.length ∧ ok = false
  · rw [if_pos hb]
    have hlen : 2 ≤ (sizes.filter fun q => q.1 ≠ worst).length := by
      have : sizes.length ≤ (sizes.filter fun q => q.1 ≠ worst).length + 1 := by
        clear hs h2 hb key
        induction sizes with
        | nil => simp
        | cons q l ih =>
          rw [List.map_cons, List.nodup_cons] at hnd
          by_cases hq : q.1 = worst
          · rw [List.filter_cons_of_neg (by simpa using hq)]
            have : l.filter (fun q => decide (q.1 ≠ worst)) = l := by
              rw [List.filter_eq_self]
              intro r hr
              simp only [ne_eq, decide_not, Bool.not_eq_eq_eq_not, Bool.not_true, decide_eq_false_iff_not]
              intro h
              exact hnd.1 (List.mem_map.2 ⟨r, hr, h.trans hq.symm⟩)
            rw [this]
            simp
          · rw [List.filter_cons_of_pos (by simpa using hq)]
            simp only [List.length_cons]
            have := ih hnd.2
            omega
      omega
    obtain ⟨a, ha, b, hb', e, hab, hmax⟩ := key _ List.filter_sublist hlen
    rw [e]
    rw [List.mem_filter] at ha hb'
    refine ⟨a, ha.1, b, hb'.1, rfl, hab, fun _ _ => ⟨by simpa using ha.2, by simpa using hb'.2⟩, ?_⟩
    intro c hc hca hcb
    by_cases hcw : c.1 = worst
    · exact Or.inr ⟨hb.1, hb.2, hcw⟩
    · exact Or.inl (hmax c (List.mem_filter.2 ⟨hc, by simpa using hcw⟩) hca hcb)
  · rw [if_neg hb]
    obtain ⟨a, ha, b, hb', e, hab, hmax⟩ := key sizes (List.Sublist.refl _) h2
    rw [e]
    refine ⟨a, ha, b, hb', rfl, hab, fun h1 h2 => absurd ⟨h1, h2⟩ hb, ?_⟩
    intro c hc hca hcb
    exact Or.inl (hmax c hc hca hcb)

example : trackPlanes [(2, 9), (0, 7), (1, 3)] false 0 = some (2, 1) ∧ trackPlanes [(2, 9), (0, 7), (1, 3)] true 0 = some (2, 0) := by
  decide +kernel

/-! ### Hits at the start -/

theorem wireStart_alone (sh : List H) (s : ℤ) (k : Nat) (l : List H) :
    (wireStart sh s k l).Sublist l ∧ ∀ h ∈ wireStart sh s k l, mult sh h.wire ≤ 1 := by
  induction l generalizing k with
  | nil => exact ⟨by simp [wireStart], by simp [wireStart]⟩
  | cons a l ih =>
    unfold wireStart
    have step : ∀ k, mult sh a.wire ≤ 1 → (a :: wireStart sh s k l).Sublist (a :: l) ∧
        ∀ h ∈ a :: wireStart sh s k l, mult sh h.wire ≤ 1 := by
      intro k ha
      refine ⟨(ih k).1.cons₂ a, ?_⟩
      intro h hh
      rcases List.mem_cons.1 hh with rfl | hh
      · exact ha
      · exact (ih k).2 h hh
    split
    · split
      · exact ⟨List.nil_sublist _, by simp⟩
      · exact ⟨(ih (k + 1)).1.cons a, (ih (k + 1)).2⟩
    · rename_i hm
      split
      · split
        · exact step k (by omega)
        · exact ⟨List.nil_sublist _, by simp⟩
      · exact step k (by omega)

theorem dropSingles_spec (first : H) (raw : List H) (hraw : raw ≠ []) :
    dropSingles first raw ≠ [] ∧
    (dropSingles first raw = [first] ∨
      (dropSingles first raw).Sublist raw ∧ ∀ h ∈ dropSingles first raw,
        2 ≤ (dropSingles first raw).countP fun g => g.tpc = h.tpc) := by
  unfold dropSingles
  dsimp only
  split
  · split
    · exact ⟨by simp, Or.inl rfl⟩
    · rename_i hne
      refine ⟨hne, Or.inr ⟨List.filter_sublist, ?_⟩⟩
      intro h hh
      obtain ⟨hr, hs⟩ := List.mem_filter.1 hh
      have hs : ¬ raw.countP (fun g => decide (g.tpc = h.tpc)) = 1 := by simpa using hs
      have hpos : 0 < raw.countP (fun g => decide (g.tpc = h.tpc)) :=
        List.countP_pos_iff.2 ⟨h, hr, by simp⟩
      have he : (raw.filter fun h => decide (¬ raw.countP (fun g => decide (g.tpc = h.tpc)) = 1)).countP
          (fun g => decide (g.tpc = h.tpc)) = raw.countP (fun g => decide (g.tpc = h.tpc)) := by
        rw [List.countP_filter]
        apply List.countP_congr
        intro g _
        simp only [Bool.and_eq_true, decide_eq_true_eq]
        constructor
        · exact fun h => h.1
        · intro hg
          refine ⟨hg, ?_⟩
          rw [hg]
          exact hs
      rw [he]
      omega
  · rename_i hno
    refine ⟨hraw, Or.inr ⟨List.Sublist.refl _, ?_⟩⟩
    intro h hh
    have hpos : 0 < raw.countP (fun g => decide (g.tpc = h.tpc)) := List.countP_pos_iff.2 ⟨h, hh, by simp⟩
    have hs : ¬ raw.countP (fun g => decide (g.tpc = h.tpc)) = 1 := by
      intro h1
      apply hno
      rw [List.any_eq_true]
      exact ⟨h, hh, by simpa using h1⟩
    omega

theorem rawStart_spec (sh : List H) (first last : H) (hf : sh.head? = some first) :
    rawStart sh first last ≠ [] ∧ ∀ h ∈ rawStart sh first last, h ∈ sh ∧
      (h ∈ sh.take 2 ∨ mult sh h.wire ≤ 1 ∨ ∃ s : ℤ, (s = 1 ∨ s = -1) ∧ tickNear sh s h = false) := by
  match sh, hf with
  | a :: l, hf =>
  have hfa : a = first := by simpa using hf
  subst hfa
  have base : ∀ r, (∀ h ∈ r, h ∈ a :: l ∧ (h ∈ (a :: l).take 2 ∨ mult (a :: l) h.wire ≤ 1 ∨
        ∃ s : ℤ, (s = 1 ∨ s = -1) ∧ tickNear (a :: l) s h = false)) →
      (let r := if r = [] then [a] else r
       let r := if r.length = 1 ∧ 2 < (a :: l).length then r ++ (a :: l)[1]?.toList else r
       r ≠ [] ∧ ∀ h ∈ r, h ∈ a :: l ∧ (h ∈ (a :: l).take 2 ∨ mult (a :: l) h.wire ≤ 1 ∨
        ∃ s : ℤ, (s = 1 ∨ s = -1) ∧ tickNear (a :: l) s h = false)) := by
    intro r hr
    dsimp only
    have h1 : (if r = [] then [a] else r) ≠ [] ∧ ∀ h ∈ (if r = [] then [a] else r), h ∈ a :: l ∧
        (h ∈ (a :: l).take 2 ∨ mult (a :: l) h.wire ≤ 1 ∨
          ∃ s : ℤ, (s = 1 ∨ s = -1) ∧ tickNear (a :: l) s h = false) := by
      split
      · refine ⟨by simp, ?_⟩
        intro h hh
        simp at hh; subst hh
        exact ⟨by simp, Or.inl (by simp)⟩
      · rename_i hne
        exact ⟨hne, hr⟩
    generalize (if r = [] then [a] else r) = r' at h1
    split
    · refine ⟨by simp [h1.1], ?_⟩
      intro h hh
      rw [List.mem_append] at hh
      rcases hh with hh | hh
      · exact h1.2 h hh
      · match l, hh with
        | [], hh => simp at hh
        | b :: l, hh =>
          simp at hh; subst hh
          exact ⟨by simp, Or.inl (by simp)⟩
    · exact h1
  unfold rawStart
  dsimp only
  split
  · refine base _ ?_
    intro h hh
    have := wireStart_alone (a :: l) (if last.x > a.x then 1 else -1) 0 (a :: l)
    exact ⟨this.1.subset hh, Or.inr (Or.inl (this.2 h hh))⟩
  · refine base _ ?_
    intro h hh
    unfold tickStart at hh
    refine ⟨(List.takeWhile_sublist _).subset hh, Or.inr (Or.inr ⟨(if last.y > a.y then 1 else -1 : ℤ), ?_, ?_⟩)⟩
    · split <;> simp
    · have := List.mem_takeWhile_imp hh
      simpa using this

/-- C229 (partial): the hits at the start of a shower with hits are hits of the shower, there is at least one; each is one
of the first two hits, or alone on its wire, or without a hit in the five ticks ahead; and either only the first hit is
used, or no hit is the only one in its TPC.  Missing: that they are different and at least two, see the refutations. -/
theorem C229_start_partial (sh : List H) (first : H) (hf : sh.head? = some first) :
    ∃ r, showerStart sh = some r ∧ r ≠ [] ∧
      (∀ h ∈ r, h ∈ sh ∧ (h ∈ sh.take 2 ∨ mult sh h.wire ≤ 1 ∨ ∃ s : ℤ, (s = 1 ∨ s = -1) ∧ tickNear sh s h = false)) ∧
      (r = [first] ∨ ∀ h ∈ r, 2 ≤ r.countP fun g => g.tpc = h.tpc) := by
  match hl : sh.getLast? with
  | none =>
    rw [List.getLast?_eq_none_iff] at hl
    rw [hl] at hf
    simp at hf
  | some last =>
    obtain ⟨h1, h2⟩ := rawStart_spec sh first last hf
    obtain ⟨d1, d2⟩ := dropSingles_spec first (rawStart sh first last) h1
    refine ⟨dropSingles first (rawStart sh first last), ?_, d1, ?_, ?_⟩
    · unfold showerStart
      rw [hf, hl]
    · rcases d2 with d2 | ⟨d2, _⟩
      · rw [d2]
        intro h hh
        simp at hh; subst hh
        match sh, hf with
        | a :: l, hf =>
          have : a = h := by simpa using hf
          subst this
          exact ⟨by simp, Or.inl (by simp)⟩
      · intro h hh
        exact h2 h (d2.subset hh)
    · rcases d2 with d2 | ⟨_, d2⟩
      · exact Or.inl d2
      · exact Or.inr d2

/-- C229: the first wire has two hits, the second hit is alone on its wire, the multiple wires begin after the next one: the
second hit of the shower is used twice. -/
theorem C229_distinct_refuted :
    ((showerStart [hit 1 0 1 1, hit 2 0 2 1, hit 3 0 1 5, hit 4 0 3 1, hit 5 0 4 2, hit 6 0 4 1, hit 7 0 5 2,
      hit 8 0 5 1]).map fun r => r.map H.id) = some [2, 2] := by decide +kernel

/-- C229: four hits, but only one at the start, because the first two are in different TPCs. -/
theorem C229_two_hits_refuted :
    ((showerStart [hit 1 0 1 1, hit 2 1 2 1, hit 3 1 3 1, hit 4 1 3 2, hit 5 1 4 1, hit 6 1 4 3]).map fun r => r.map H.id) =
      some [1] := by decide +kernel

example : ((showerStart [hit 1 0 1 1, hit 2 0 2 1, hit 3 0 3 1, hit 4 0 4 1, hit 5 0 4 2, hit 6 0 5 1, hit 7 0 5 3]).map
    fun r => r.map H.id) = some [1, 2] := by decide +kernel

theorem take_takeWhile (q : H → Bool) (hs : List H) : hs.take (hs.takeWhile q).length = hs.takeWhile q := by
  induction hs with
  | nil => rfl
  | cons a l ih =>
    rw [List.takeWhile_cons]
    split
    · rw [List.length_cons, List.take_succ_cons, ih]
    · rfl

/-- C226: hits are only moved in a plane of at least three hits, never more than two, all in the TPC of the first hit and
followed by a hit in another one or by none. -/
theorem C226_moved_few (maxPlanes : Nat) (m : List (Nat × List H)) (p : Nat) :
    toMove maxPlanes m p ≤ 2 ∧ (0 < toMove maxPlanes m p → 3 ≤ (hitsOf m p).length ∧
      (∀ h ∈ (hitsOf m p).take (toMove maxPlanes m p), ∀ f, (hitsOf m p).head? = some f → h.tpc = f.tpc) ∧
      (∀ h f, (hitsOf m p)[toMove maxPlanes m p]? = some h → (hitsOf m p).head? = some f → h.tpc ≠ f.tpc) ∧
      ∃ q < maxPlanes, q ≠ p ∧ 3 ≤ (hitsOf m q).length) := by
  unfold toMove
  dsimp only
  generalize hitsOf m p = hs
  split
  · exact ⟨by omega, fun h => absurd h (by omega)⟩
  · rename_i h3
    split
    · exact ⟨by omega, fun h => absurd h (by omega)⟩
    · rename_i hoth
      split
      · exact ⟨by omega, fun h => absurd h (by omega)⟩
      · rename_i hn
        split
        · exact ⟨by omega, fun h => absurd h (by omega)⟩
        · split
          · refine ⟨by omega, fun _ => ⟨by omega, ?_, ?_, ?_⟩⟩
            · intro h hh f hf
              rw [hf] at hh
              simp only [Option.map_some, Option.getD_some] at hh
              rw [take_takeWhile] at hh
              simpa using List.mem_takeWhile_imp hh
            · intro h f hh hf
              rw [hf] at hh
              simp only [Option.map_some, Option.getD_some] at hh
              have hd : hs[(hs.takeWhile fun h => decide (h.tpc = f.tpc)).length]? =
                  (hs.dropWhile fun h => decide (h.tpc = f.tpc)).head? := by
                have := List.takeWhile_append_dropWhile (p := fun h : H => decide (h.tpc = f.tpc)) (l := hs)
                conv_lhs => arg 1; rw [← this]
                rw [List.getElem?_append_right le_rfl, Nat.sub_self, List.head?_eq_getElem?]
              rw [hd] at hh
              have := List.head?_dropWhile_not (p := fun h : H => decide (h.tpc = f.tpc)) (l := hs)
              rw [hh] at this
              simpa using this
            · obtain ⟨q, hq⟩ := List.exists_mem_of_ne_nil _ hoth
              rw [List.mem_filter, List.mem_range] at hq
              refine ⟨q, hq.1, ?_⟩
              simpa using hq.2
          · exact ⟨by omega, fun h => absurd h (by omega)⟩

example : toMove 3 (exIso 2) 2 = 2 ∧ toMove 3 (exIso 3) 2 = 0 := by decide +kernel

/-- where the loop along wires stops at a hit alone on its wire: wires with several hits begin right after it, and not only
for a short stretch -/
def Stops (sh : List H) (s : ℤ) (h : H) : Prop :=
  (1 < mult sh (h.wire + s) ∧ (1 < mult sh (h.wire + 2 * s) ∨ 1 < mult sh (h.wire + 3 * s))) ∧
    ¬ (mult sh (h.wire + 4 * s) < 2 ∧ mult sh (h.wire + 5 * s) < 2 ∧ mult sh (h.wire + 6 * s) < 2 ∧
          1 < mult sh (h.wire + 9 * s))

/-- C229: as long as no such place comes and not more than five hits are on wires with several, all hits alone on their
wire are at the start. -/
theorem C229_wire_all (sh : List H) (s : ℤ) (k : Nat) (l : List H)
    (hk : k + l.countP (fun h => decide (1 < mult sh h.wire)) ≤ 5)
    (hs : ∀ h ∈ l, ¬ Stops sh s h) :
    wireStart sh s k l = l.filter fun h => decide (mult sh h.wire ≤ 1) := by
  induction l generalizing k with
  | nil => rfl
  | cons a l ih =>
    have hs' : ∀ h ∈ l, ¬ Stops sh s h := fun h hh => hs h (by simp [hh])
    have ha := hs a (by simp)
    unfold wireStart
    rw [List.countP_cons] at hk
    by_cases hm : 1 < mult sh a.wire
    · rw [if_pos hm]
      rw [if_pos (by simpa using hm)] at hk
      rw [if_neg (by omega), ih (k + 1) (by omega) hs', List.filter_cons_of_neg (by simpa using hm)]
    · rw [if_neg hm]
      rw [if_neg (by simpa using hm)] at hk
      have he := ih k (by omega) hs'
      rw [List.filter_cons_of_pos (by simp; omega), ← he]
      split
      · rename_i h1
        rw [if_pos]
        by_contra hc
        exact ha ⟨h1, hc⟩
      · rfl

example : wireStart [hit 1 0 1 1, hit 2 0 2 1, hit 3 0 2 2, hit 4 0 3 1] 1 0 [hit 1 0 1 1, hit 2 0 2 1, hit 3 0 2 2, hit 4 0 3 1] =
    [hit 1 0 1 1, hit 4 0 3 1] := by decide +kernel

end Verif.EmShower

import Verif.Cluster.SimpleModel
import Mathlib.Logic.Relation
import Mathlib.Data.List.Perm.Basic
import Mathlib.Data.List.Nodup
import Mathlib.Tactic.NormNum
/-!
# Properties of `tss::SimpleClustering` (C48, C49, C50)
-/
namespace Verif.Simple
open Verif

/-! ## Specification -/

/-- a hit as the reconstruction produces it: a 32-bit wire number with room above, a tick range that is not reversed -/
structure Hit.OK (h : Hit) : Prop where
  wire : h.wire + 1 < 2 ^ 32
  ticks : h.start ≤ h.stop

/-- neighbouring hits: on the same or on adjacent wires, not on the same wire at the same peak time, with tick ranges that overlap
or are adjacent -/
def Adj (a b : Hit) : Prop :=
  a.wire ≤ b.wire + 1 ∧ b.wire ≤ a.wire + 1 ∧ ¬ (a.wire = b.wire ∧ a.peak = b.peak) ∧ a.start ≤ b.stop + 1 ∧ b.start ≤ a.stop + 1

theorem Adj.symm {a b : Hit} (h : Adj a b) : Adj b a :=
  ⟨h.2.1, h.1, fun e => h.2.2.1 ⟨e.1.symm, e.2.symm⟩, h.2.2.2.2, h.2.2.2.1⟩

/-- joined by a chain of neighbouring hits of the input -/
def Linked (inp : List Hit) : Hit → Hit → Prop := Relation.ReflTransGen (fun a b => a ∈ inp ∧ b ∈ inp ∧ Adj a b)

/-! ## C49 -/

/-- C49 away from wire 0: two hits touch exactly if they are neighbours; so touching is symmetric. -/
theorem C49_touch_partial (a b : Hit) (ha : a.OK) (hb : b.OK) (hb0 : b.wire ≠ 0) : touch a b = true ↔ Adj a b := by
  have h1 := ha.wire
  have h2 := hb.wire
  have h3 := ha.ticks
  have h4 := hb.ticks
  have p : pred32 b.wire = b.wire - 1 := by
    unfold pred32
    rw [show b.wire + (2 ^ 32 - 1) = (b.wire - 1) + 2 ^ 32 by omega, Nat.add_mod_right, Nat.mod_eq_of_lt (by omega)]
  have s : succ32 b.wire = b.wire + 1 := by unfold succ32; rw [Nat.mod_eq_of_lt (by omega)]
  unfold touch Adj
  rw [p, s]
  by_cases hp : a.wire = b.wire ∧ a.peak = b.peak
  · rw [if_pos hp]
    constructor
    · intro h; cases h
    · intro h; exact absurd hp h.2.2.1
  · rw [if_neg hp]
    by_cases hw : a.wire ≥ b.wire - 1 ∧ a.wire ≤ b.wire + 1
    · rw [if_pos hw, decide_eq_true_eq]
      constructor
      · rintro (h | h | h)
        · exact ⟨by omega, by omega, hp, by omega, by omega⟩
        · exact ⟨by omega, by omega, hp, by omega, by omega⟩
        · exact ⟨by omega, by omega, hp, by omega, by omega⟩
      · rintro ⟨-, -, -, k1, k2⟩; omega
    · rw [if_neg hw]
      constructor
      · intro h; cases h
      · rintro ⟨k1, k2, -⟩; omega

/-- C49: symmetry away from wire 0. -/
theorem C49_symm_partial (a b : Hit) (ha : a.OK) (hb : b.OK) (ha0 : a.wire ≠ 0) (hb0 : b.wire ≠ 0) : touch a b = touch b a := by
  rw [Bool.eq_iff_iff, C49_touch_partial a b ha hb hb0, C49_touch_partial b a hb ha ha0]
  exact ⟨Adj.symm, Adj.symm⟩

/-- C49 on wire 0: nothing touches a hit there, although that hit touches its neighbours on wire 1. -/
theorem C49_refuted : (∀ a b : Hit, a.OK → b.wire = 0 → touch a b = false) ∧
    (∀ a b : Hit, a.OK → b.OK → a.wire = 0 → b.wire = 1 → Adj a b → touch a b = true ∧ touch b a = false) := by
  have zero : ∀ a b : Hit, a.OK → b.wire = 0 → touch a b = false := by
    intro a b ha hb
    have := ha.wire
    unfold touch
    by_cases hp : a.wire = b.wire ∧ a.peak = b.peak
    · rw [if_pos hp]
    · rw [if_neg hp, if_neg]
      rw [hb]
      have : pred32 0 = 2 ^ 32 - 1 := by decide
      rw [this]; omega
  refine ⟨zero, fun a b ha hb ha0 hb1 hab => ⟨?_, zero b a hb ha0⟩⟩
  exact (C49_touch_partial a b ha hb (by omega)).2 hab

example : (⟨1, 0, 5, 4, 6⟩ : Hit).OK ∧ (⟨2, 1, 5, 4, 6⟩ : Hit).OK ∧ Adj ⟨1, 0, 5, 4, 6⟩ ⟨2, 1, 5, 4, 6⟩ := by
  refine ⟨⟨by norm_num, by norm_num⟩, ⟨by norm_num, by norm_num⟩, by norm_num, by norm_num, by norm_num, by norm_num, by norm_num⟩

/-! ## The merging step -/

def step (cl : List Cluster) (i j : Nat) : List Cluster := (cl.set i (cl.getD i [] ++ cl.getD j [])).eraseIdx j

theorem split_at (l : List Cluster) (i : Nat) (h : i < l.length) : ∃ pre c post, l = pre ++ c :: post ∧ pre.length = i :=
  ⟨l.take i, l[i], l.drop (i + 1), by simp, by simp; omega⟩

theorem split_two (l : List Cluster) (i j : Nat) (hij : i < j) (h : j < l.length) :
    ∃ pre ci mid cj post, l = pre ++ ci :: (mid ++ cj :: post) ∧ pre.length = i ∧ i + 1 + mid.length = j := by
  obtain ⟨pre, ci, rest, h1, h2⟩ := split_at l i (by omega)
  have hr : j - (i + 1) < rest.length := by
    have := congrArg List.length h1
    simp at this; omega
  obtain ⟨mid, cj, post, h3, h4⟩ := split_at rest (j - (i + 1)) hr
  exact ⟨pre, ci, mid, cj, post, by rw [h1, h3], h2, by omega⟩

theorem step_eq (pre : List Cluster) (ci : Cluster) (mid : List Cluster) (cj : Cluster) (post : List Cluster) :
    step (pre ++ ci :: (mid ++ cj :: post)) pre.length (pre.length + 1 + mid.length) = pre ++ (ci ++ cj) :: (mid ++ post) := by
  unfold step
  induction pre with
  | nil =>
    simp only [List.nil_append, List.length_nil, Nat.zero_add]
    rw [show 1 + mid.length = mid.length + 1 by omega]
    simp only [List.getD_cons_zero, List.set_cons_zero, List.eraseIdx_cons_succ, List.cons.injEq]
    constructor
    · simp
    · rw [List.eraseIdx_append_of_length_le (le_refl _)]; simp
  | cons a pre ih =>
    simp only [List.cons_append, List.length_cons]
    rw [show pre.length + 1 + 1 + mid.length = (pre.length + 1 + mid.length) + 1 by omega]
    simp only [List.set_cons_succ, List.eraseIdx_cons_succ, List.getD_cons_succ]
    rw [ih]

theorem get_i (pre : List Cluster) (c : Cluster) (rest : List Cluster) : (pre ++ c :: rest).getD pre.length [] = c := by simp

theorem get_j (pre : List Cluster) (ci : Cluster) (mid : List Cluster) (cj : Cluster) (post : List Cluster) :
    (pre ++ ci :: (mid ++ cj :: post)).getD (pre.length + 1 + mid.length) [] = cj := by
  have : pre ++ ci :: (mid ++ cj :: post) = (pre ++ ci :: mid) ++ cj :: post := by simp
  rw [this]
  have h : pre.length + 1 + mid.length = (pre ++ ci :: mid).length := by simp; omega
  rw [h, get_i]

/-- what holds of the clusters all the time -/
structure Inv (inp : List Hit) (cl : List Cluster) : Prop where
  perm : cl.flatten.Perm inp
  ne : ∀ c ∈ cl, c ≠ []
  linked : ∀ c ∈ cl, ∀ a ∈ c, ∀ b ∈ c, Linked inp a b

theorem linked_symm {inp : List Hit} {a b : Hit} (h : Linked inp a b) : Linked inp b a := by
  unfold Linked at *
  induction h with
  | refl => exact Relation.ReflTransGen.refl
  | tail _ hbc ih => exact Relation.ReflTransGen.head ⟨hbc.2.1, hbc.1, hbc.2.2.symm⟩ ih

theorem linked_trans {inp : List Hit} {a b c : Hit} (h : Linked inp a b) (h' : Linked inp b c) : Linked inp a c := Relation.ReflTransGen.trans h h'

/-- touching in the model means neighbours, for hits of the input -/
def TouchOK (inp : List Hit) : Prop := ∀ a ∈ inp, ∀ b ∈ inp, (touch a b = true ↔ Adj a b)

theorem touchCC_iff (c1 c2 : Cluster) : touchCC c1 c2 = true ↔ ∃ x ∈ c1, ∃ y ∈ c2, touch y x = true := by
  unfold touchCC touchCH
  simp only [List.any_eq_true]

theorem mem_inp {inp : List Hit} {cl : List Cluster} (h : cl.flatten.Perm inp) {c : Cluster} (hc : c ∈ cl) {a : Hit} (ha : a ∈ c) : a ∈ inp :=
  h.mem_iff.1 (List.mem_flatten.2 ⟨c, hc, ha⟩)

theorem step_inv {inp : List Hit} (hT : TouchOK inp) {cl : List Cluster} (hI : Inv inp cl) {i j : Nat} (hij : i < j) (hj : j < cl.length)
    (ht : touchCC (cl.getD i []) (cl.getD j []) = true) : Inv inp (step cl i j) ∧ (step cl i j).length + 1 = cl.length := by
  obtain ⟨pre, ci, mid, cj, post, rfl, rfl, rfl⟩ := split_two cl i j hij hj
  rw [get_i, get_j, touchCC_iff] at ht
  rw [step_eq]
  obtain ⟨x, hx, y, hy, hxy⟩ := ht
  have mi : ci ∈ pre ++ ci :: (mid ++ cj :: post) := by simp
  have mj : cj ∈ pre ++ ci :: (mid ++ cj :: post) := by simp
  have xin := mem_inp hI.perm mi hx
  have yin := mem_inp hI.perm mj hy
  have hlink : Linked inp x y := Relation.ReflTransGen.single ⟨xin, yin, ((hT y yin x xin).1 hxy).symm⟩
  refine ⟨⟨?_, ?_, ?_⟩, ?_⟩
  · refine List.Perm.trans ?_ hI.perm
    simp only [List.flatten_append, List.flatten_cons, List.append_assoc]
    refine List.Perm.append_left _ (List.Perm.append_left _ ?_)
    rw [← List.append_assoc, ← List.append_assoc]
    exact List.Perm.append_right _ List.perm_append_comm
  · intro c hc
    simp only [List.mem_append, List.mem_cons] at hc
    rcases hc with hc | rfl | hc | hc
    · exact hI.ne c (by simp [hc])
    · have := hI.ne ci mi; simp [this]
    · exact hI.ne c (by simp [hc])
    · exact hI.ne c (by simp [hc])
  · intro c hc a ha b hb
    simp only [List.mem_append, List.mem_cons] at hc
    rcases hc with hc | rfl | hc | hc
    · exact hI.linked c (by simp [hc]) a ha b hb
    · have toX : ∀ a ∈ ci ++ cj, Linked inp a x := by
        intro a ha
        rcases List.mem_append.1 ha with ha | ha
        · exact hI.linked ci mi a ha x hx
        · exact linked_trans (hI.linked cj mj a ha y hy) (linked_symm hlink)
      exact linked_trans (toX a ha) (linked_symm (toX b hb))
    · exact hI.linked c (by simp [hc]) a ha b hb
    · exact hI.linked c (by simp [hc]) a ha b hb
  · simp; omega

/-- kept by every merge of two touching clusters -/
def Kept (J : List Cluster → Prop) : Prop :=
  ∀ cl i j, J cl → i < j → j < cl.length → touchCC (cl.getD i []) (cl.getD j []) = true → J (step cl i j)

theorem step_length (cl : List Cluster) (i j : Nat) (hij : i < j) (hj : j < cl.length) : (step cl i j).length + 1 = cl.length := by
  obtain ⟨pre, ci, mid, cj, post, rfl, rfl, rfl⟩ := split_two cl i j hij hj
  rw [step_eq]; simp; omega

theorem inv_kept {inp : List Hit} (hT : TouchOK inp) : Kept (Inv inp) := fun _ _ _ hI hij hj ht => (step_inv hT hI hij hj ht).1

/-- a partition of the input into non-empty clusters -/
def Part (inp : List Hit) (cl : List Cluster) : Prop := cl.flatten.Perm inp ∧ ∀ c ∈ cl, c ≠ []

theorem part_kept (inp : List Hit) : Kept (Part inp) := by
  intro cl i j hI hij hj _
  obtain ⟨pre, ci, mid, cj, post, rfl, rfl, rfl⟩ := split_two cl i j hij hj
  rw [step_eq]
  refine ⟨List.Perm.trans ?_ hI.1, fun c hc => ?_⟩
  · simp only [List.flatten_append, List.flatten_cons, List.append_assoc]
    refine List.Perm.append_left _ (List.Perm.append_left _ ?_)
    rw [← List.append_assoc, ← List.append_assoc]
    exact List.Perm.append_right _ List.perm_append_comm
  · simp only [List.mem_append, List.mem_cons] at hc
    rcases hc with hc | rfl | hc | hc
    · exact hI.2 c (by simp [hc])
    · have := hI.2 ci (by simp); simp [this]
    · exact hI.2 c (by simp [hc])
    · exact hI.2 c (by simp [hc])

theorem innerJ_spec {J : List Cluster → Prop} (hK : Kept J) (i n : Nat) : ∀ (j : Nat) (cl : List Cluster) (m : Bool), J cl → i < j → n + j = cl.length →
    let r := innerJ i n j cl m
    J r.1 ∧ i < r.1.length ∧ r.1.length ≤ cl.length ∧ (m = true → r.2 = true) ∧ (r.2 = true → m = true ∨ r.1.length < cl.length) ∧
    (r.2 = false → r.1 = cl ∧ ∀ k, j ≤ k → k < cl.length → touchCC (cl.getD i []) (cl.getD k []) = false) := by
  induction n with
  | zero =>
    intro j cl m hI hij hn
    refine ⟨hI, ?_, le_refl _, id, Or.inl, fun _ => ⟨rfl, fun k h1 h2 => ?_⟩⟩
    · show i < cl.length; omega
    · omega
  | succ n ih =>
    intro j cl m hI hij hn
    have hj : j < cl.length := by omega
    simp only []
    unfold innerJ
    by_cases ht : touchCC (cl.getD i []) (cl.getD j []) = true
    · rw [if_pos ht]
      have s1 := hK cl i j hI hij hj ht
      have s2 := step_length cl i j hij hj
      obtain ⟨r1, r2, r3, r4, r5, r6⟩ := ih j (step cl i j) true s1 hij (by omega)
      refine ⟨r1, r2, ?_, fun _ => r4 rfl, fun _ => Or.inr ?_, fun hf => ?_⟩
      · exact le_trans r3 (by omega)
      · exact lt_of_le_of_lt r3 (by omega)
      · have := r4 rfl
        change (innerJ i n j (step cl i j) true).2 = false at hf
        rw [this] at hf; cases hf
    · rw [if_neg ht]
      obtain ⟨r1, r2, r3, r4, r5, r6⟩ := ih (j + 1) cl m hI (by omega) (by omega)
      refine ⟨r1, r2, r3, r4, r5, fun hf => ?_⟩
      obtain ⟨e1, e2⟩ := r6 hf
      refine ⟨e1, fun k h1 h2 => ?_⟩
      by_cases hk : k = j
      · subst hk; simpa using ht
      · exact e2 k (by omega) h2

theorem bound_pos (n : Nat) (h : 0 < n) (h2 : n ≤ 2 ^ 64) : lastIdx n = n - 1 := by
  unfold lastIdx
  rw [show n + (2 ^ 64 - 1) = (n - 1) + 2 ^ 64 by omega, Nat.add_mod_right, Nat.mod_eq_of_lt (by omega)]

theorem bound_zero : lastIdx 0 = 2 ^ 64 - 1 := by unfold lastIdx; norm_num

theorem outerI_spec {J : List Cluster → Prop} (hK : Kept J) (N : Nat) (hsmall : N < 2 ^ 64) (fuel : Nat) : ∀ (i : Nat) (cl : List Cluster) (m : Bool), J cl →
    i < cl.length → cl.length - 1 - i ≤ fuel → cl.length ≤ N →
    ∃ cl' m', outerI fuel i cl m = some (cl', m') ∧ J cl' ∧ 0 < cl'.length ∧ cl'.length ≤ cl.length ∧ (m = true → m' = true) ∧
      (m' = true → m = true ∨ cl'.length < cl.length) ∧
      (m' = false → cl' = cl ∧ ∀ p q, i ≤ p → p < q → q < cl.length → touchCC (cl.getD p []) (cl.getD q []) = false) := by
  induction fuel with
  | zero =>
    intro i cl m hI hi hf hlen
    unfold outerI
    rw [bound_pos cl.length (by omega) (by omega), if_neg (by omega)]
    exact ⟨cl, m, rfl, hI, by omega, le_refl _, id, Or.inl, fun _ => ⟨rfl, fun p q h1 h2 h3 => by omega⟩⟩
  | succ fuel ih =>
    intro i cl m hI hi hf hlen
    unfold outerI
    rw [bound_pos cl.length (by omega) (by omega)]
    by_cases hc : i < cl.length - 1
    · rw [if_pos hc]
      obtain ⟨r1, r2, r3, r4, r5, r6⟩ := innerJ_spec hK i (cl.length - (i + 1)) (i + 1) cl m hI (by omega) (by omega)
      generalize innerJ i (cl.length - (i + 1)) (i + 1) cl m = r at r1 r2 r3 r4 r5 r6
      by_cases hi2 : i + 1 < r.1.length
      · obtain ⟨cl', m', e, q1, q2, q3, q4, q5, q6⟩ := ih (i + 1) r.1 r.2 r1 hi2 (by omega) (by omega)
        refine ⟨cl', m', e, q1, q2, by omega, fun h => q4 (r4 h), fun h => ?_, fun h => ?_⟩
        · rcases q5 h with h' | h'
          · rcases r5 h' with h'' | h''
            · exact Or.inl h''
            · exact Or.inr (by omega)
          · exact Or.inr (by omega)
        · obtain ⟨u1, u2⟩ := q6 h
          have hr2 : r.2 = false := by
            by_contra hne
            have := q4 (by simpa using hne)
            rw [this] at h; cases h
          obtain ⟨v1, v2⟩ := r6 hr2
          refine ⟨by rw [u1, v1], fun p q h1 h2 h3 => ?_⟩
          by_cases hp : p = i
          · subst hp; exact v2 q (by omega) h3
          · have := u2 p q (by omega) h2 (by rw [v1]; exact h3)
            rwa [v1] at this
      · -- everything after `i` was absorbed: the loop ends
        have hlast : outerI fuel (i + 1) r.1 r.2 = some (r.1, r.2) := by
          have hb := bound_pos r.1.length (by omega) (by omega)
          cases fuel with
          | zero => unfold outerI; rw [hb, if_neg (by omega)]
          | succ f => unfold outerI; rw [hb, if_neg (by omega)]
        refine ⟨r.1, r.2, hlast, r1, by omega, r3, r4, r5, fun h => ?_⟩
        obtain ⟨v1, v2⟩ := r6 h
        exact absurd (congrArg List.length v1) (by omega)
    · rw [if_neg hc]
      exact ⟨cl, m, rfl, hI, by omega, le_refl _, id, Or.inl, fun _ => ⟨rfl, fun p q h1 h2 h3 => by omega⟩⟩

theorem merge_spec {J : List Cluster → Prop} (hK : Kept J) (N : Nat) (hsmall : N < 2 ^ 64) (fuel n : Nat) : ∀ cl : List Cluster, J cl → 0 < cl.length →
    cl.length ≤ N → N ≤ fuel → cl.length ≤ n →
    ∃ cl', merge fuel n cl = some cl' ∧ J cl' ∧
      ∀ p q, p < q → q < cl'.length → touchCC (cl'.getD p []) (cl'.getD q []) = false := by
  induction n with
  | zero => intro cl _ h1 _ _ h2; omega
  | succ n ih =>
    intro cl hI hpos hlen hf hn
    unfold merge
    obtain ⟨cl', m', e, q1, q2, q3, q4, q5, q6⟩ := outerI_spec hK N hsmall fuel 0 cl false hI hpos (by omega) hlen
    rw [e]
    cases m' with
    | true =>
      have := (q5 rfl).resolve_left (by simp)
      exact ih cl' q1 q2 (by omega) hf (by omega)
    | false =>
      obtain ⟨u1, u2⟩ := q6 rfl
      refine ⟨cl', rfl, q1, fun p q h1 h2 => ?_⟩
      rw [u1] at h2 ⊢
      exact u2 p q (by omega) h1 h2

/-! ## The first pass -/

theorem insertHit_perm (h : Hit) (cl : List Cluster) : (insertHit h cl).flatten.Perm (h :: cl.flatten) := by
  induction cl with
  | nil => simp [insertHit]
  | cons c cl ih =>
    unfold insertHit
    by_cases ht : touchCH c h = true
    · rw [if_pos ht]
      simp only [List.flatten_cons, List.append_assoc, List.singleton_append]
      exact List.perm_middle
    · rw [if_neg ht]
      simp only [List.flatten_cons]
      exact (ih.append_left c).trans List.perm_middle

theorem insertHit_linked {inp : List Hit} (hT : TouchOK inp) (h : Hit) (hh : h ∈ inp) (cl : List Cluster) :
    (∀ c ∈ cl, c ≠ [] ∧ (∀ a ∈ c, a ∈ inp) ∧ ∀ a ∈ c, ∀ b ∈ c, Linked inp a b) →
    (∀ c ∈ insertHit h cl, c ≠ [] ∧ (∀ a ∈ c, a ∈ inp) ∧ ∀ a ∈ c, ∀ b ∈ c, Linked inp a b) := by
  induction cl with
  | nil =>
    intro _ c hc
    simp only [insertHit, List.mem_singleton] at hc
    subst hc
    refine ⟨by simp, by simpa using hh, ?_⟩
    intro a ha b hb
    rw [List.mem_singleton] at ha hb
    subst ha hb; exact Relation.ReflTransGen.refl
  | cons d cl ih =>
    intro hcl c hc
    unfold insertHit at hc
    by_cases ht : touchCH d h = true
    · rw [if_pos ht] at hc
      rcases List.mem_cons.1 hc with rfl | hc
      · obtain ⟨h1, h2, h3⟩ := hcl d (by simp)
        unfold touchCH at ht
        rw [List.any_eq_true] at ht
        obtain ⟨x, hx, hxt⟩ := ht
        have link : Linked inp x h := Relation.ReflTransGen.single ⟨h2 x hx, hh, (hT x (h2 x hx) h hh).1 hxt⟩
        refine ⟨by simp, fun a ha => ?_, fun a ha b hb => ?_⟩
        · rcases List.mem_append.1 ha with ha | ha
          · exact h2 a ha
          · rw [List.mem_singleton] at ha; subst ha; exact hh
        · have toX : ∀ a ∈ d ++ [h], Linked inp a x := by
            intro a ha
            rcases List.mem_append.1 ha with ha | ha
            · exact h3 a ha x hx
            · rw [List.mem_singleton] at ha; subst ha; exact linked_symm link
          exact linked_trans (toX a ha) (linked_symm (toX b hb))
      · exact hcl c (by simp [hc])
    · rw [if_neg ht] at hc
      rcases List.mem_cons.1 hc with rfl | hc
      · exact hcl c (by simp)
      · exact ih (fun c hc => hcl c (by simp [hc])) c hc

theorem firstPass {inp : List Hit} (hT : TouchOK inp) (l : List Hit) : (∀ h ∈ l, h ∈ inp) → ∀ cl : List Cluster,
    (∀ c ∈ cl, c ≠ [] ∧ (∀ a ∈ c, a ∈ inp) ∧ ∀ a ∈ c, ∀ b ∈ c, Linked inp a b) →
    let r := l.foldl (fun r h => insertHit h r) cl
    r.flatten.Perm (l ++ cl.flatten) ∧ (∀ c ∈ r, c ≠ [] ∧ (∀ a ∈ c, a ∈ inp) ∧ ∀ a ∈ c, ∀ b ∈ c, Linked inp a b) := by
  induction l with
  | nil => intro _ cl h; exact ⟨by simp, h⟩
  | cons h l ih =>
    intro hl cl hcl
    obtain ⟨i1, i2⟩ := ih (fun h hh => hl h (by simp [hh])) (insertHit h cl) (insertHit_linked hT h (hl h (by simp)) cl hcl)
    refine ⟨?_, i2⟩
    rw [List.foldl_cons]
    refine i1.trans ?_
    refine ((insertHit_perm h cl).append_left l).trans ?_
    exact List.perm_middle

theorem length_le_flatten (cl : List Cluster) (h : ∀ c ∈ cl, c ≠ []) : cl.length ≤ cl.flatten.length := by
  induction cl with
  | nil => simp
  | cons c cl ih =>
    have := ih (fun c hc => h c (by simp [hc]))
    have h1 := List.length_pos_iff.2 (h c (by simp))
    simp only [List.length_cons, List.flatten_cons, List.length_append]; omega

theorem run_spec {inp : List Hit} (hT : TouchOK inp) (hne : inp ≠ []) (hsmall : inp.length < 2 ^ 64) (fuel : Nat) (hf : inp.length ≤ fuel) :
    ∃ cl, run fuel inp = some cl ∧ Inv inp cl ∧ ∀ p q, p < q → q < cl.length → touchCC (cl.getD p []) (cl.getD q []) = false := by
  obtain ⟨f1, f2⟩ := firstPass hT inp (fun h hh => hh) [] (by simp)
  unfold run
  generalize inp.foldl (fun r h => insertHit h r) [] = cl at f1 f2
  have hI : Inv inp cl := ⟨by simpa using f1, fun c hc => (f2 c hc).1, fun c hc => (f2 c hc).2.2⟩
  have hle := length_le_flatten cl hI.ne
  rw [hI.perm.length_eq] at hle
  have hpos : 0 < cl.length := by
    rw [List.length_pos_iff]
    rintro rfl
    exact hne (List.nil_perm.1 (by simpa using hI.perm))
  exact merge_spec (inv_kept hT) inp.length hsmall fuel fuel cl hI hpos hle hf (by omega)

theorem insertHit_ne (h : Hit) (cl : List Cluster) (hc : ∀ c ∈ cl, c ≠ []) : ∀ c ∈ insertHit h cl, c ≠ [] := by
  induction cl with
  | nil => simp [insertHit]
  | cons d cl ih =>
    intro c hm
    unfold insertHit at hm
    by_cases ht : touchCH d h = true
    · rw [if_pos ht] at hm
      rcases List.mem_cons.1 hm with rfl | hm
      · simp
      · exact hc c (by simp [hm])
    · rw [if_neg ht] at hm
      rcases List.mem_cons.1 hm with rfl | hm
      · exact hc c (by simp)
      · exact ih (fun c hc' => hc c (by simp [hc'])) c hm

theorem firstPass_part (l : List Hit) : ∀ (done : List Hit) (cl : List Cluster), Part done cl → Part (l ++ done) (l.foldl (fun r h => insertHit h r) cl) := by
  induction l with
  | nil => intro done cl h; exact h
  | cons h l ih =>
    intro done cl hcl
    have := ih (h :: done) (insertHit h cl) ⟨(insertHit_perm h cl).trans (hcl.1.cons h), insertHit_ne h cl hcl.2⟩
    rw [List.foldl_cons]
    exact ⟨this.1.trans List.perm_middle, this.2⟩

theorem run_part (inp : List Hit) (hne : inp ≠ []) (hsmall : inp.length < 2 ^ 64) (fuel : Nat) (hf : inp.length ≤ fuel) :
    ∃ cl, run fuel inp = some cl ∧ Part inp cl := by
  have f := firstPass_part inp [] [] ⟨by simp, by simp⟩
  rw [List.append_nil] at f
  unfold run
  generalize inp.foldl (fun r h => insertHit h r) [] = cl at f
  have hle := length_le_flatten cl f.2
  rw [f.1.length_eq] at hle
  have hpos : 0 < cl.length := by
    rw [List.length_pos_iff]
    rintro rfl
    exact hne (List.nil_perm.1 (by simpa using f.1))
  obtain ⟨cl', e, h, -⟩ := merge_spec (part_kept inp) inp.length hsmall fuel fuel cl f hpos hle hf (by omega)
  exact ⟨cl', e, h⟩

/-! ## C48 -/

/-- hits as produced by the reconstruction, none on wire 0 -/
structure InputOK (inp : List Hit) : Prop where
  hits : ∀ h ∈ inp, h.OK
  no0 : ∀ h ∈ inp, h.wire ≠ 0
  ids : inp.Nodup
  small : inp.length < 2 ^ 64

/-- C48 without hits on wire 0: the clusters are a partition of the input into the connected components of the neighbour relation. -/
theorem C48_components_partial (inp : List Hit) (hok : InputOK inp) (hne : inp ≠ []) (fuel : Nat) (hf : inp.length ≤ fuel) :
    ∃ cl, run fuel inp = some cl ∧ cl.flatten.Perm inp ∧ (∀ c ∈ cl, c ≠ []) ∧
      ∀ a ∈ inp, ∀ b ∈ inp, (∃ c ∈ cl, a ∈ c ∧ b ∈ c) ↔ Linked inp a b := by
  have hT : TouchOK inp := fun a ha b hb => C49_touch_partial a b (hok.hits a ha) (hok.hits b hb) (hok.no0 b hb)
  obtain ⟨cl, e, hI, hno⟩ := run_spec hT hne hok.small fuel hf
  refine ⟨cl, e, hI.perm, hI.ne, fun a ha b hb => ⟨?_, ?_⟩⟩
  · rintro ⟨c, hc, h1, h2⟩; exact hI.linked c hc a h1 b h2
  · intro hl
    have hdis : ∀ p q, p < cl.length → q < cl.length → p ≠ q → ∀ x ∈ cl.getD p [], ∀ y ∈ cl.getD q [], ¬ Adj x y := by
      intro p q hp hq hpq x hx y hy hxy
      have mx : cl.getD p [] ∈ cl := by simp [List.getD_eq_getElem?_getD, List.getElem?_eq_getElem hp]
      have my : cl.getD q [] ∈ cl := by simp [List.getD_eq_getElem?_getD, List.getElem?_eq_getElem hq]
      have xi := mem_inp hI.perm mx hx
      have yi := mem_inp hI.perm my hy
      rcases Nat.lt_or_gt_of_ne hpq with h | h
      · have := hno p q h hq
        rw [← Bool.not_eq_true, touchCC_iff] at this
        exact this ⟨x, hx, y, hy, (hT y yi x xi).2 hxy.symm⟩
      · have := hno q p h hp
        rw [← Bool.not_eq_true, touchCC_iff] at this
        exact this ⟨y, hy, x, hx, (hT x xi y yi).2 hxy⟩
    have mem_some : ∀ x ∈ inp, ∃ p, p < cl.length ∧ x ∈ cl.getD p [] := by
      intro x hx
      obtain ⟨c, hc, hxc⟩ := List.mem_flatten.1 (hI.perm.mem_iff.2 hx)
      obtain ⟨p, hp, rfl⟩ := List.mem_iff_getElem.1 hc
      exact ⟨p, hp, by simpa [List.getD_eq_getElem?_getD, List.getElem?_eq_getElem hp] using hxc⟩
    obtain ⟨p, hp, hap⟩ := mem_some a ha
    have key : ∀ y, Linked inp a y → y ∈ cl.getD p [] := by
      intro y hy
      unfold Linked at hy
      induction hy with
      | refl => exact hap
      | @tail y w _ hyw ih =>
        obtain ⟨q, hq, hwq⟩ := mem_some w hyw.2.1
        by_cases hpq : p = q
        · subst hpq; exact hwq
        · exact absurd hyw.2.2 (hdis p q hp hq hpq y ih w hwq)
    exact ⟨cl.getD p [], by simp [List.getD_eq_getElem?_getD, List.getElem?_eq_getElem hp], hap, key b hl⟩

/-- five hits in two components; the third hit joins the first two -/
def exInp : List Hit := [⟨0, 3, 5, 4, 6⟩, ⟨1, 5, 8, 7, 9⟩, ⟨2, 4, 6, 5, 8⟩, ⟨3, 9, 1, 0, 2⟩, ⟨4, 9, 4, 3, 5⟩]

example : InputOK exInp := by
  refine ⟨?_, by decide, by decide, by decide⟩
  intro h hh
  have : h.wire + 1 < 2 ^ 32 ∧ h.start ≤ h.stop := by
    revert h; decide
  exact ⟨this.1, this.2⟩

example : (run 5 exInp).map (fun cl => cl.map (fun c => c.map (·.id))) = some [[0, 2, 1], [3, 4]] := by decide +kernel

/-- C48 fails on wire 0: two overlapping hits there stay apart. -/
theorem C48_refuted : Adj ⟨0, 0, 5, 4, 6⟩ ⟨1, 0, 6, 5, 7⟩ ∧
    run 2 [⟨0, 0, 5, 4, 6⟩, ⟨1, 0, 6, 5, 7⟩] = some [[⟨0, 0, 5, 4, 6⟩], [⟨1, 0, 6, 5, 7⟩]] := by
  refine ⟨⟨by norm_num, by norm_num, by norm_num, by norm_num, by norm_num⟩, by decide +kernel⟩

/-! ## C50 -/

/-- the empty list: each round of the outer loop does nothing -/
theorem outerI_empty (fuel : Nat) : ∀ i m, outerI fuel i [] m = if 2 ^ 64 - 1 - i ≤ fuel then some ([], m) else none := by
  induction fuel with
  | zero =>
    intro i m
    unfold outerI
    rw [show ([] : List Cluster).length = 0 from rfl, bound_zero]
    by_cases h : i < 2 ^ 64 - 1
    · rw [if_pos h, if_neg (by omega)]
    · rw [if_neg h, if_pos (by omega)]
  | succ fuel ih =>
    intro i m
    unfold outerI
    rw [show ([] : List Cluster).length = 0 from rfl, bound_zero]
    by_cases h : i < 2 ^ 64 - 1
    · rw [if_pos h]
      simp only [List.length_nil, Nat.zero_sub, innerJ]
      rw [ih]
      by_cases h2 : 2 ^ 64 - 1 - (i + 1) ≤ fuel
      · rw [if_pos h2, if_pos (by omega)]
      · rw [if_neg h2, if_neg (by omega)]
    · rw [if_neg h, if_pos (by omega)]

/-- C50: for every non-empty list of hits `run` terminates, each of its loops after at most as many rounds as there are hits; the
result is a partition of the input. -/
theorem C50_terminates (inp : List Hit) (hne : inp ≠ []) (hsmall : inp.length < 2 ^ 64) :
    ∃ cl, run inp.length inp = some cl ∧ cl.flatten.Perm inp ∧ ∀ c ∈ cl, c ≠ [] := by
  obtain ⟨cl, e, h⟩ := run_part inp hne hsmall inp.length (le_refl _)
  exact ⟨cl, e, h.1, h.2⟩

/-- C50 for the empty list: the result is empty, but only after the outer loop has made 2^64 - 1 rounds. -/
theorem C50_empty (fuel : Nat) : run fuel [] = if 2 ^ 64 - 1 ≤ fuel then some [] else none := by
  unfold run
  rw [List.foldl_nil]
  cases fuel with
  | zero => unfold merge; rw [if_neg (by norm_num)]
  | succ f =>
    unfold merge
    rw [outerI_empty, Nat.sub_zero]
    by_cases h : 2 ^ 64 - 1 ≤ f + 1
    · rw [if_pos h, if_pos h]
    · rw [if_neg h, if_neg h]

end Verif.Simple

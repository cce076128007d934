import Verif.Seg2D.Model
import Mathlib.Tactic.Linarith
import Mathlib.Tactic.Ring
import Mathlib.Tactic.FieldSimp
import Mathlib.Data.List.GetD
import Mathlib.Data.List.Perm.Subperm

namespace Verif.Seg2D
open List (Perm)
open scoped List

/-! Lemmas on the search of segments. -/

theorem best_mem (lt) (f : Hit → ℚ) : ∀ (l : List Hit) (h : Hit), best lt f h l ∈ h :: l
  | [], h => by simp [best]
  | a :: l, h => by
    unfold best
    split
    · have := best_mem lt f l a; simp only [List.mem_cons] at this ⊢; tauto
    · have := best_mem lt f l h; simp only [List.mem_cons] at this ⊢; tauto

theorem best_le (f : Hit → ℚ) : ∀ (l : List Hit) (h : Hit), ∀ b ∈ h :: l, f (best (fun a b => decide (a < b)) f h l) ≤ f b
  | [], h, b, hb => by simp at hb; subst hb; exact le_refl _
  | a :: l, h, b, hb => by
    unfold best
    split
    · rename_i hc
      simp only [decide_eq_true_eq] at hc
      have := best_le f l a
      simp only [List.mem_cons] at hb this
      rcases hb with rfl | rfl | hb
      · exact le_trans (this a (Or.inl rfl)) (le_of_lt hc)
      · exact this b (Or.inl rfl)
      · exact this b (Or.inr hb)
    · rename_i hc
      simp only [decide_eq_true_eq, not_lt] at hc
      have := best_le f l h
      simp only [List.mem_cons] at hb this
      rcases hb with rfl | rfl | hb
      · exact this b (Or.inl rfl)
      · exact le_trans (this h (Or.inl rfl)) hc
      · exact this b (Or.inr hb)

theorem closest_spec {l : List Hit} {p : P2} {h : Hit} (e : closest l p = some h) : h ∈ l ∧ ∀ b ∈ l, d2 h.pt p ≤ d2 b.pt p := by
  unfold closest at e
  cases l with
  | nil => simp at e
  | cons a l =>
    simp only [Option.some.injEq] at e
    subst e
    exact ⟨best_mem _ _ _ _, best_le (fun a => d2 a.pt p) l a⟩

theorem closest_none {l : List Hit} {p : P2} : closest l p = none ↔ l = [] := by
  cases l <;> simp [closest]

theorem outermost_mem {l : List Hit} {h : Hit} (e : outermost l = some h) : h ∈ l := by
  unfold outermost at e
  cases l with
  | nil => simp at e
  | cons a l =>
    simp only [Option.some.injEq] at e
    subst e
    exact best_mem _ _ _ _

theorem outermost_none {l : List Hit} : outermost l = none ↔ l = [] := by
  cases l <;> simp [outermost]

theorem d2_nonneg (a b : P2) : 0 ≤ d2 a b := add_nonneg (mul_self_nonneg _) (mul_self_nonneg _)

theorem d2_comm (a b : P2) : d2 a b = d2 b a := by unfold d2; ring

theorem d2_self (a : P2) : d2 a a = 0 := by unfold d2; ring

theorem firstIdx_lt (center : P2) : ∀ (l : List Hit) (i b : Nat) (m : ℚ), b ≤ i → firstIdx center i b m l ≤ i + l.length - 1 ∨ firstIdx center i b m l = b
  | [], i, b, m, h => Or.inr rfl
  | a :: l, i, b, m, h => by
    unfold firstIdx
    split
    · have := firstIdx_lt center l (i + 1) i (d2 a.pt center) (by omega)
      simp only [List.length_cons]
      omega
    · have := firstIdx_lt center l (i + 1) b m (by omega)
      simp only [List.length_cons]
      omega

/-- Exchanging the first element with another is a permutation. -/
theorem swap_perm (h0 : Hit) (t : List Hit) (k : Nat) (hk : Hit) (e : (h0 :: t)[k]? = some hk) : ((h0 :: t).set k h0).set 0 hk ~ h0 :: t := by
  cases k with
  | zero => simp at e; subst e; simp
  | succ k =>
    simp only [List.getElem?_cons_succ] at e
    simp only [List.set_cons_succ, List.set_cons_zero]
    obtain ⟨hlt, rfl⟩ := List.getElem?_eq_some_iff.1 e
    have h1 : t = t.take k ++ t[k] :: t.drop (k + 1) := by simp
    have h2 : t.set k h0 = t.take k ++ h0 :: t.drop (k + 1) := by rw [List.set_eq_take_append_cons_drop]; simp [hlt]
    rw [h2]
    conv_rhs => rw [h1]
    have a1 : (t.take k ++ h0 :: t.drop (k + 1)) ~ h0 :: (t.take k ++ t.drop (k + 1)) := List.perm_middle
    have a2 : (t.take k ++ t[k] :: t.drop (k + 1)) ~ t[k] :: (t.take k ++ t.drop (k + 1)) := List.perm_middle
    exact (a1.cons _).trans ((List.Perm.swap _ _ _).trans (a2.cons _).symm)

theorem arrange_perm (center : P2) (cand : List Hit) : arrange center cand ~ cand := by
  unfold arrange
  cases cand with
  | nil => simp
  | cons h0 t =>
    dsimp only
    split
    · rename_i a hk e0 ek
      simp only [List.length_cons, Nat.zero_lt_succ, List.getElem?_eq_getElem, List.getElem_cons_zero, Option.some.injEq] at e0
      subst e0
      have hp := swap_perm h0 t _ hk ek
      revert hp
      generalize ((h0 :: t).set _ h0).set 0 hk = l
      intro hp
      cases l with
      | nil => exact absurd hp.symm.eq_nil (by simp)
      | cons a rest => exact ((List.perm_insertionSort _ rest).cons a).trans hp
    · rfl

theorem grow_prefix (c : Cfg) : ∀ (l seg : List Hit), grow c seg l <+: seg ++ l
  | [], seg => by simp [grow]
  | h :: l, seg => by
    unfold grow
    split
    · have := grow_prefix c l (seg ++ [h])
      simpa using this
    · exact List.prefix_append _ _

theorem grow_ge (c : Cfg) : ∀ (l seg : List Hit), seg <+: grow c seg l
  | [], seg => by simp [grow]
  | h :: l, seg => by
    unfold grow
    split
    · exact (List.prefix_append _ _).trans (grow_ge c l (seg ++ [h]))
    · exact List.prefix_rfl

theorem build_subperm (c : Cfg) (inp : List Hit) (center e : P2) : List.Subperm (build c inp center e).1 (inp.filter (onLine c center e)) := by
  unfold build
  dsimp only
  have hp := arrange_perm center (inp.filter (onLine c center e))
  revert hp
  generalize arrange center (inp.filter (onLine c center e)) = A
  intro hp
  cases A with
  | nil => exact List.nil_subperm
  | cons h l =>
    have := grow_prefix c l [h]
    exact (this.sublist.subperm).trans hp.subperm

theorem build_perm (c : Cfg) (inp : List Hit) (center e : P2) : (build c inp center e).1 ++ (build c inp center e).2 ~ inp := by
  have hs := (build_subperm c inp center e).trans List.filter_sublist.subperm
  have h2 : (build c inp center e).2 = inp.diff (build c inp center e).1 := by
    rw [List.diff_eq_foldl]
    unfold build
    dsimp only
    split <;> simp
  rw [h2]
  exact List.subperm_append_diff_self_of_count_le fun x _ => hs.count_le x

theorem build_len (c : Cfg) (inp : List Hit) (center e : P2) : (build c inp center e).1.length + (build c inp center e).2.length = inp.length := by
  have := (build_perm c inp center e).length_eq
  simpa using this

theorem onLine_self (c : Cfg) (center : P2) (h : Hit) (hl : c.line ≠ 0) (hd : d2 center h.pt ≠ 0) : onLine c center h.pt h = true := by
  unfold onLine
  rw [if_neg hd]
  have e1 : dotFrom center h.pt h.pt = d2 center h.pt := by unfold dotFrom d2; ring
  have hpos : 0 < c.line * c.line := by rcases lt_or_gt_of_ne hl with h | h <;> nlinarith
  dsimp only
  rw [e1, div_self hd]
  have e2 : d2 h.pt (center.1 + 1 * (h.pt.1 - center.1), center.2 + 1 * (h.pt.2 - center.2)) = 0 := by unfold d2; ring
  rw [e2]
  have := d2_nonneg center h.pt
  simp [hpos, this]

theorem build_ne (c : Cfg) (inp : List Hit) (center : P2) (h : Hit) (hm : h ∈ inp) (hl : c.line ≠ 0) (hd : d2 center h.pt ≠ 0) : (build c inp center h.pt).1 ≠ [] := by
  have hc : h ∈ inp.filter (onLine c center h.pt) := List.mem_filter.2 ⟨hm, onLine_self c center h hl hd⟩
  unfold build
  dsimp only
  have hp := arrange_perm center (inp.filter (onLine c center h.pt))
  revert hp
  generalize arrange center (inp.filter (onLine c center h.pt)) = A
  intro hp
  cases A with
  | nil => have := hp.symm.eq_nil; rw [this] at hc; simp at hc
  | cons a l =>
    intro h0
    have := grow_ge c l [a]
    simp only at h0
    rw [h0] at this
    simp at this

/-- What the loops keep: no hit is lost or doubled, and the centres and the hits left do not become more. -/
structure Keep (st st' : St) : Prop where
  perm : st'.result.flatten ++ st'.inp ~ st.result.flatten ++ st.inp
  len : st'.centers.length + st'.inp.length ≤ st.centers.length + st.inp.length
  inp : st'.inp.length ≤ st.inp.length

theorem Keep.refl (st : St) : Keep st st := ⟨List.Perm.refl _, le_refl _, le_refl _⟩
theorem Keep.trans {a b c : St} (h : Keep a b) (k : Keep b c) : Keep a c := ⟨k.perm.trans h.perm, k.len.trans h.len, k.inp.trans h.inp⟩

/-- The state after a segment. -/
theorem keep_build (c : Cfg) (st : St) (center e : P2) : Keep st (if (build c st.inp center e).1 = [] then ⟨(build c st.inp center e).2, st.result, st.centers⟩
    else ⟨(build c st.inp center e).2, st.result ++ [(build c st.inp center e).1], if (build c st.inp center e).1.length > 1 then st.centers ++ ((build c st.inp center e).1.getLast?.map Hit.pt).toList else st.centers⟩) := by
  have hp := build_perm c st.inp center e
  have hl := build_len c st.inp center e
  split
  · rename_i h0
    rw [h0] at hp hl
    simp only [List.nil_append, List.length_nil, Nat.zero_add] at hp hl
    exact ⟨hp.append_left _, by simp [hl], by simp [hl]⟩
  · rename_i h0
    refine ⟨?_, ?_, by simp; omega⟩
    · simp only [List.flatten_append, List.flatten_cons, List.flatten_nil, List.append_nil, List.append_assoc]
      exact hp.append_left _
    · simp only
      split
      · have : ((build c st.inp center e).1.getLast?.map Hit.pt).toList.length ≤ 1 := by
          cases (build c st.inp center e).1.getLast? <;> simp
        simp only [List.length_append]
        omega
      · omega

theorem seedLoop_keep (c : Cfg) (center : P2) : ∀ (n : Nat) (seeds : List (List Hit)) (st : St), Keep st (seedLoop c center n seeds st)
  | 0, _, st => by unfold seedLoop; exact Keep.refl _
  | n + 1, seeds, st => by
    unfold seedLoop
    cases seeds with
    | nil => exact Keep.refl _
    | cons s0 rest =>
      dsimp only
      split
      · exact seedLoop_keep c center n _ st
      · rename_i h _
        exact (keep_build c st center h.pt).trans (seedLoop_keep c center n _ _)

theorem runOne_keep (c : Cfg) (st : St) (hc : st.centers ≠ []) : (runOne c st).result.flatten ++ (runOne c st).inp ~ st.result.flatten ++ st.inp ∧
    (runOne c st).centers.length + (runOne c st).inp.length < st.centers.length + st.inp.length ∧ (runOne c st).inp.length ≤ st.inp.length := by
  obtain ⟨inp, result, centers⟩ := st
  cases centers with
  | nil => simp at hc
  | cons center centers =>
    unfold runOne
    dsimp only
    split
    · simp
    · rename_i h e
      split
      · simp
      · split
        · have := seedLoop_keep c h.pt (c.cl (ring c inp h.pt)).length (c.cl (ring c inp h.pt)) ⟨inp, result, centers⟩
          exact ⟨this.perm, by have := this.len; simp at this ⊢; omega, this.inp⟩
        · have hm := (closest_spec e).1
          refine ⟨?_, ?_, ?_⟩
          · simp only [List.flatten_append, List.flatten_cons, List.flatten_nil, List.append_nil, List.append_assoc]
            exact (List.perm_cons_erase hm).symm.append_left _
          · have := List.length_erase_le (a := h) (l := inp)
            simp
            omega
          · exact List.length_erase_le

theorem inner_keep (c : Cfg) : ∀ (n : Nat) (st st' : St), inner c n st = some st' → st'.result.flatten ++ st'.inp ~ st.result.flatten ++ st.inp ∧ st'.inp.length ≤ st.inp.length
  | 0, st, st', h => by
    unfold inner at h
    split at h
    · simp at h; subst h; exact ⟨List.Perm.refl _, le_refl _⟩
    · simp at h
  | n + 1, st, st', h => by
    unfold inner at h
    split at h
    · simp at h; subst h; exact ⟨List.Perm.refl _, le_refl _⟩
    · rename_i hc
      have h1 := runOne_keep c st hc
      have h2 := inner_keep c n _ _ h
      exact ⟨h2.1.trans h1.1, h2.2.trans h1.2.2⟩

/-- The inner loop always ends. -/
theorem inner_ends (c : Cfg) : ∀ (n : Nat) (st : St), st.centers.length + st.inp.length ≤ n → (inner c n st).isSome = true
  | 0, st, h => by
    have : st.centers = [] := List.eq_nil_of_length_eq_zero (by omega)
    unfold inner
    simp [this]
  | n + 1, st, h => by
    unfold inner
    split
    · rfl
    · rename_i hc
      exact inner_ends c n _ (by have := (runOne_keep c st hc).2.1; omega)

theorem outer_keep (c : Cfg) : ∀ (n : Nat) (inp : List Hit) (res : List (List Hit)) (left : List Hit) (segs : List (List Hit)), outer c n inp res = some (left, segs) →
    segs.flatten ++ left ~ res.flatten ++ inp ∧ left.length ≤ 1
  | 0, inp, res, left, segs, h => by
    unfold outer at h
    split at h
    · simp at h
    · simp at h; obtain ⟨rfl, rfl⟩ := h; exact ⟨List.Perm.refl _, by omega⟩
  | n + 1, inp, res, left, segs, h => by
    unfold outer at h
    split at h
    · split at h
      · rename_i ho
        have h0 := outermost_none.1 ho
        subst h0
        simp_all
      · rename_i h0 _
        split at h
        · simp at h
        · rename_i st hs
          have h1 := inner_keep c _ _ _ hs
          have h2 := outer_keep c n _ _ _ _ h
          exact ⟨h2.1.trans h1.1, h2.2⟩
    · simp at h; obtain ⟨rfl, rfl⟩ := h; exact ⟨List.Perm.refl _, by omega⟩

end Verif.Seg2D

import Verif.SpacePoint.TripletModel
import Mathlib.Data.List.Perm.Basic
import Mathlib.Data.List.Nodup
/-!
# `TripletFinder`: specification and proofs (C45, C46, C47, C70, C71)
-/
namespace Verif.Triplet
open Verif

/-! ## Specification -/

/-- exhaustive search of the doublets of one hit -/
def specOne (thr : ℚ) (is : Nat → Nat → Option Pt) (bhits : List HC) (bbads : List Nat) (a : HC) : List Doublet :=
  bbads.filterMap (fun b => (is a.chan b).map (fun p => ⟨a, HC.bad b, p⟩)) ++
  bhits.filterMap (fun b => if |b.xpos - a.xpos| < thr then (is a.chan b.chan).map (fun p => ⟨a, b, p⟩) else none)

/-- exhaustive search of the doublets -/
def specDoublets (thr : ℚ) (is : Nat → Nat → Option Pt) (ahits bhits : List HC) (bbads : List Nat) : List Doublet :=
  ahits.flatMap (specOne thr is bhits bbads)

/-- sorted by drift position -/
def DriftSorted (l : List HC) : Prop := l.Pairwise (fun a b => a.xpos ≤ b.xpos)

/-! ## The cache is transparent -/

def CacheOK (is : Nat → Nat → Option Pt) (c : Cache) : Prop := ∀ a b r, c.lookup (a, b) = some r → r = is a b

theorem cacheOK_nil (is : Nat → Nat → Option Pt) : CacheOK is [] := by intro a b r h; simp at h

theorem cacheGet_spec {is : Nat → Nat → Option Pt} {c : Cache} (h : CacheOK is c) (a b : Nat) :
    ∃ c', cacheGet is a b c = (is a b, c') ∧ CacheOK is c' := by
  unfold cacheGet
  cases hl : c.lookup (a, b) with
  | some r => exact ⟨c, by rw [h a b r hl], h⟩
  | none =>
    refine ⟨_, rfl, fun a' b' r hr => ?_⟩
    rw [List.lookup_cons] at hr
    by_cases he : (a', b') = (a, b)
    · rw [he] at hr
      simp only [beq_self_eq_true] at hr
      injection he with h1 h2
      subst h1 h2
      injection hr with hr
      exact hr.symm
    · have : ((a', b') == (a, b)) = false := by simpa using he
      rw [this] at hr
      exact h a' b' r hr

/-! ## Doublets -/

theorem badLoop_spec {is : Nat → Nat → Option Pt} (a : HC) (bs : List Nat) : ∀ c ret, CacheOK is c →
    ∃ c', badLoop is a bs (c, ret) = (c', ret ++ bs.filterMap (fun b => (is a.chan b).map (fun p => ⟨a, HC.bad b, p⟩))) ∧ CacheOK is c' := by
  induction bs with
  | nil => intro c ret h; exact ⟨c, by simp [badLoop], h⟩
  | cons b bs ih =>
    intro c ret h
    obtain ⟨c1, e1, h1⟩ := cacheGet_spec h a.chan b
    unfold badLoop
    rw [e1]
    cases hi : is a.chan b with
    | none =>
      obtain ⟨c2, e2, h2⟩ := ih c1 ret h1
      exact ⟨c2, by simp only [e2]; simp [hi], h2⟩
    | some p =>
      obtain ⟨c2, e2, h2⟩ := ih c1 (ret ++ [⟨a, HC.bad b, p⟩]) h1
      exact ⟨c2, by simp only [e2]; simp [hi], h2⟩

theorem scanB_spec {thr : ℚ} (hthr : 0 < thr) {is : Nat → Nat → Option Pt} (a : HC) (bs : List HC) : DriftSorted bs →
    (∀ b ∈ bs, ¬ (b.xpos < a.xpos ∧ ¬ |b.xpos - a.xpos| < thr)) → ∀ c ret, CacheOK is c →
    ∃ c', scanB thr is a bs (c, ret) = (c', ret ++ bs.filterMap (fun b => if |b.xpos - a.xpos| < thr then
      (is a.chan b.chan).map (fun p => ⟨a, b, p⟩) else none)) ∧ CacheOK is c' := by
  induction bs with
  | nil => intro _ _ c ret h; exact ⟨c, by simp [scanB], h⟩
  | cons b bs ih =>
    intro hs hb c ret h
    have hs' := List.pairwise_cons.1 hs
    unfold scanB
    by_cases hbrk : a.xpos < b.xpos ∧ ¬ |b.xpos - a.xpos| < thr
    · have : (decide (a.xpos < b.xpos) && !closeDrift thr b.xpos a.xpos) = true := by
        simp only [closeDrift, Bool.and_eq_true, decide_eq_true_eq, Bool.not_eq_true', decide_eq_false_iff_not]; exact hbrk
      rw [if_pos this]
      refine ⟨c, ?_, h⟩
      have hnone : (b :: bs).filterMap (fun b => if |b.xpos - a.xpos| < thr then
          (is a.chan b.chan).map (fun p => (⟨a, b, p⟩ : Doublet)) else none) = [] := by
        rw [List.filterMap_eq_nil_iff]
        intro b' hb'
        have hle : b.xpos ≤ b'.xpos := by
          rcases List.mem_cons.1 hb' with rfl | hm
          · exact le_refl _
          · exact hs'.1 b' hm
        rw [if_neg]
        obtain ⟨k1, k2⟩ := hbrk
        rw [abs_of_pos (by linarith)] at k2
        rw [abs_of_pos (by linarith)]
        linarith
      rw [hnone, List.append_nil]
    · have : ¬ (decide (a.xpos < b.xpos) && !closeDrift thr b.xpos a.xpos) = true := by
        simp only [closeDrift, Bool.and_eq_true, decide_eq_true_eq, Bool.not_eq_true', decide_eq_false_iff_not]; exact hbrk
      rw [if_neg this]
      have hcl : |b.xpos - a.xpos| < thr := by
        by_contra hn
        have h1 := hb b (by simp)
        rcases lt_trichotomy a.xpos b.xpos with hlt | heq | hgt
        · exact hbrk ⟨hlt, hn⟩
        · rw [heq, sub_self, abs_zero] at hn; exact hn hthr
        · exact h1 ⟨hgt, hn⟩
      obtain ⟨c1, e1, h1⟩ := cacheGet_spec h a.chan b.chan
      rw [e1]
      cases hi : is a.chan b.chan with
      | none =>
        obtain ⟨c2, e2, h2⟩ := ih hs'.2 (fun b hb' => hb b (by simp [hb'])) c1 ret h1
        exact ⟨c2, by simp only [e2]; simp [hi], h2⟩
      | some p =>
        obtain ⟨c2, e2, h2⟩ := ih hs'.2 (fun b hb' => hb b (by simp [hb'])) c1 (ret ++ [⟨a, b, p⟩]) h1
        exact ⟨c2, by simp only [e2]; simp [hi, hcl], h2⟩

/-- what `skipB` leaves out is far from `a` and everything after it; what it keeps is not far below `a` -/
theorem skipB_spec {thr : ℚ} (a : HC) (bs : List HC) : DriftSorted bs →
    (DriftSorted (skipB thr a bs)) ∧ (∀ b ∈ skipB thr a bs, ¬ (b.xpos < a.xpos ∧ ¬ |b.xpos - a.xpos| < thr)) ∧
    ∃ pre, bs = pre ++ skipB thr a bs ∧ ∀ b ∈ pre, b.xpos < a.xpos ∧ ¬ |b.xpos - a.xpos| < thr := by
  induction bs with
  | nil => intro h; exact ⟨h, by simp [skipB], [], by simp [skipB], by simp⟩
  | cons b bs ih =>
    intro hs
    have hs' := List.pairwise_cons.1 hs
    obtain ⟨i1, i2, pre, i3, i4⟩ := ih hs'.2
    unfold skipB
    by_cases hc : b.xpos < a.xpos ∧ ¬ |b.xpos - a.xpos| < thr
    · have : (decide (b.xpos < a.xpos) && !closeDrift thr b.xpos a.xpos) = true := by
        simp only [closeDrift, Bool.and_eq_true, decide_eq_true_eq, Bool.not_eq_true', decide_eq_false_iff_not]; exact hc
      rw [if_pos this]
      refine ⟨i1, i2, b :: pre, by rw [List.cons_append, ← i3], fun b' hb' => ?_⟩
      rcases List.mem_cons.1 hb' with rfl | hm
      · exact hc
      · exact i4 b' hm
    · have : ¬ (decide (b.xpos < a.xpos) && !closeDrift thr b.xpos a.xpos) = true := by
        simp only [closeDrift, Bool.and_eq_true, decide_eq_true_eq, Bool.not_eq_true', decide_eq_false_iff_not]; exact hc
      rw [if_neg this]
      refine ⟨hs, fun b' hb' hcon => hc ?_, [], by simp, by simp⟩
      have hle : b.xpos ≤ b'.xpos := by
        rcases List.mem_cons.1 hb' with rfl | hm
        · exact le_refl _
        · exact hs'.1 b' hm
      obtain ⟨k1, k2⟩ := hcon
      refine ⟨by linarith, ?_⟩
      rw [abs_of_neg (by linarith)] at k2 ⊢
      linarith

theorem specOne_drop {thr : ℚ} (is : Nat → Nat → Option Pt) (bbads : List Nat) (a a' : HC) (haa : a.xpos ≤ a'.xpos) (pre rest : List HC)
    (hp : ∀ b ∈ pre, b.xpos < a.xpos ∧ ¬ |b.xpos - a.xpos| < thr) : specOne thr is (pre ++ rest) bbads a' = specOne thr is rest bbads a' := by
  unfold specOne
  rw [List.filterMap_append]
  have : pre.filterMap (fun b => if |b.xpos - a'.xpos| < thr then (is a'.chan b.chan).map (fun p => (⟨a', b, p⟩ : Doublet)) else none) = [] := by
    rw [List.filterMap_eq_nil_iff]
    intro b hb
    obtain ⟨k1, k2⟩ := hp b hb
    rw [if_neg]
    rw [abs_of_neg (by linarith)] at k2
    rw [abs_of_neg (by linarith)]
    linarith
  rw [this, List.nil_append]

theorem helperLoop_spec {thr : ℚ} (hthr : 0 < thr) (is : Nat → Nat → Option Pt) (bbads : List Nat) (as : List HC) : DriftSorted as →
    ∀ bs, DriftSorted bs → ∀ c ret, CacheOK is c → (helperLoop thr is bbads as bs (c, ret)).2 = ret ++ specDoublets thr is as bs bbads := by
  induction as with
  | nil => intro _ bs _ c ret _; simp [helperLoop, specDoublets]
  | cons a as ih =>
    intro ha bs hb c ret hc
    have ha' := List.pairwise_cons.1 ha
    obtain ⟨s1, s2, pre, s3, s4⟩ := skipB_spec (thr := thr) a bs hb
    unfold helperLoop
    obtain ⟨c1, e1, h1⟩ := badLoop_spec a bbads c ret hc
    obtain ⟨c2, e2, h2⟩ := scanB_spec hthr a (skipB thr a bs) s1 s2 c1
      (ret ++ bbads.filterMap (fun b => (is a.chan b).map (fun p => ⟨a, HC.bad b, p⟩))) h1
    simp only [e1, e2]
    rw [ih ha'.2 _ s1 c2 _ h2]
    unfold specDoublets
    rw [List.flatMap_cons]
    have hrest : as.flatMap (specOne thr is bs bbads) = as.flatMap (specOne thr is (skipB thr a bs) bbads) := by
      apply List.flatMap_congr
      intro a' hm
      conv_lhs => rw [s3]
      exact specOne_drop is bbads a a' (ha'.1 a' hm) pre _ s4
    have hhead : specOne thr is bs bbads a = specOne thr is (skipB thr a bs) bbads a := by
      conv_lhs => rw [s3]
      exact specOne_drop is bbads a a (le_refl _) pre _ s4
    rw [hrest, hhead]
    unfold specOne
    simp only [List.append_assoc]

theorem doubletHelper_eq {thr : ℚ} (hthr : 0 < thr) (is : Nat → Nat → Option Pt) (as bs : List HC) (bbads : List Nat) (ha : DriftSorted as)
    (hb : DriftSorted bs) : doubletHelper thr is as bs bbads = specDoublets thr is as bs bbads := by
  unfold doubletHelper
  rw [helperLoop_spec hthr is bbads as ha bs hb [] [] (cacheOK_nil is), List.nil_append]

/-! ## The join -/

/-- the order key of an X hit or channel -/
def keyX (d : Doublet) : Nat × Nat := (d.a.hit, if d.a.hit = 0 then d.a.chan else 0)

theorem lessX_iff (p q : Doublet) : lessX p q = true ↔ (keyX p).1 < (keyX q).1 ∨ ((keyX p).1 = (keyX q).1 ∧ (keyX p).2 < (keyX q).2) := by
  unfold lessX keyX
  by_cases h : p.a.hit = 0 ∧ q.a.hit = 0
  · rw [if_pos h]; simp [h.1, h.2]
  · rw [if_neg h, decide_eq_true_eq]
    constructor
    · exact Or.inl
    · rintro (h1 | ⟨h1, h2⟩)
      · exact h1
      · exfalso
        by_cases hp : p.a.hit = 0
        · exact h ⟨hp, by simpa [hp] using h1.symm⟩
        · have hq : q.a.hit ≠ 0 := fun hq => hp (by simpa [hq] using h1)
          simp [hp, hq] at h2

theorem sameX_iff (p q : Doublet) : sameX p q = true ↔ keyX p = keyX q := by
  unfold sameX keyX
  by_cases h : p.a.hit = 0 ∧ q.a.hit = 0
  · rw [if_pos h]; simp [h.1, h.2]
  · rw [if_neg h, decide_eq_true_eq, Prod.mk.injEq]
    constructor
    · intro h1
      refine ⟨h1, ?_⟩
      by_cases hp : p.a.hit = 0
      · exact absurd ⟨hp, by rw [← h1, hp]⟩ h
      · have hq : q.a.hit ≠ 0 := fun hq => hp (by rw [h1, hq])
        simp [hp, hq]
    · exact And.left

/-- what one XU and one XV doublet give, looked up without cache -/
def combo (thr t : ℚ) (is : Nat → Nat → Option Pt) (xu xv : Doublet) : Option Trip :=
  if preOK thr xu xv then
    match is xu.b.chan xv.b.chan with
    | some uv => if close3 t xu xv uv then some (mkTrip xu xv uv) else none
    | none => none
  else none

/-- the triplets of one XU doublet, by exhaustive search among the XV doublets -/
def comboOf (thr t : ℚ) (is : Nat → Nat → Option Pt) (xvs : List Doublet) (xu : Doublet) : List Trip :=
  xvs.filterMap (fun xv => if sameX xv xu then combo thr t is xu xv else none)

/-- at most how many more triplets may be added: no limit for `max ≤ 0`, otherwise up to one more than `max` in all -/
def cap {α : Type} (max : Int) (n : Nat) (l : List α) : List α := if max > 0 then l.take (max.toNat + 1 - n) else l

theorem cap_append {α : Type} (max : Int) (n : Nat) (l₁ l₂ : List α) :
    cap max n (l₁ ++ l₂) = cap max n l₁ ++ cap max (n + (cap max n l₁).length) l₂ := by
  unfold cap
  by_cases h : max > 0
  · simp only [if_pos h]
    rw [List.take_append, List.length_take]
    congr 2
    omega
  · simp only [if_neg h]

theorem cap_full {α : Type} (max : Int) (n : Nat) (l : List α) (h : full max n = true) : cap max n l = [] := by
  unfold full at h
  simp only [Bool.and_eq_true, decide_eq_true_eq] at h
  unfold cap
  rw [if_pos h.1, show max.toNat + 1 - n = 0 by omega, List.take_zero]

theorem cap_cons {α : Type} (max : Int) (n : Nat) (x : α) (l : List α) (h : full max n = false) : cap max n (x :: l) = x :: cap max (n + 1) l := by
  unfold full at h
  simp only [Bool.and_eq_false_iff, decide_eq_false_iff_not] at h
  unfold cap
  by_cases hm : max > 0
  · rw [if_pos hm, if_pos hm]
    have : ¬ ((n : Int) > max) := h.resolve_left (fun h => h hm)
    rw [show max.toNat + 1 - n = (max.toNat + 1 - (n + 1)) + 1 by omega, List.take_succ_cons]
  · rw [if_neg hm, if_neg hm]

/-- sorted by X hit -/
def XSorted (l : List Doublet) : Prop := l.Pairwise (fun a b => lessX b a = false)

theorem innerXV_spec (max : Int) (thr t : ℚ) (is : Nat → Nat → Option Pt) (xu : Doublet) (xvs : List Doublet) : XSorted xvs →
    (∀ xv ∈ xvs, lessX xv xu = false) → ∀ st : JoinSt, CacheOK is st.cache →
    let add := cap max st.n (comboOf thr t is xvs xu)
    let st' := innerXV max thr t is xu xvs st
    CacheOK is st'.cache ∧ st'.ret = st.ret ++ add ∧ st'.n = st.n + add.length := by
  induction xvs with
  | nil =>
    intro _ _ st h
    have : cap max st.n (comboOf thr t is [] xu) = [] := by simp [comboOf, cap]
    simp only [this]
    exact ⟨h, by simp [innerXV], by simp [innerXV]⟩
  | cons xv rest ih =>
    intro hs hl st h
    have hs' := List.pairwise_cons.1 hs
    have hl' : ∀ y ∈ rest, lessX y xu = false := fun y hy => hl y (by simp [hy])
    simp only []
    unfold innerXV
    by_cases hsame : sameX xv xu = true
    · rw [if_neg (by simp [hsame])]
      by_cases hf : full max st.n = true
      · rw [if_pos hf, cap_full max st.n _ hf]; exact ⟨h, by simp, by simp⟩
      · rw [if_neg hf]
        have hf' : full max st.n = false := by simpa using hf
        by_cases hp : preOK thr xu xv = true
        · rw [if_neg (by simp [hp])]
          obtain ⟨c1, e1, h1⟩ := cacheGet_spec h xu.b.chan xv.b.chan
          rw [e1]
          cases hi : is xu.b.chan xv.b.chan with
          | none =>
            have hc : comboOf thr t is (xv :: rest) xu = comboOf thr t is rest xu := by
              simp [comboOf, hsame, combo, hp, hi]
            rw [hc]
            exact ih hs'.2 hl' { st with cache := c1 } h1
          | some uv =>
            by_cases hcl : close3 t xu xv uv = true
            · have hc : comboOf thr t is (xv :: rest) xu = mkTrip xu xv uv :: comboOf thr t is rest xu := by
                simp [comboOf, hsame, combo, hp, hi, hcl]
              rw [hc, cap_cons max st.n _ _ hf']
              simp only [hcl, Bool.true_eq_false, if_false]
              by_cases hf2 : full max (st.n + 1) = true
              · rw [if_pos hf2, cap_full max (st.n + 1) _ hf2]
                exact ⟨h1, rfl, rfl⟩
              · rw [if_neg hf2]
                obtain ⟨r1, r2, r3⟩ := ih hs'.2 hl' ⟨st.n + 1, c1, st.ret ++ [mkTrip xu xv uv]⟩ h1
                refine ⟨r1, by rw [r2]; simp, by rw [r3]; simp; omega⟩
            · have hc : comboOf thr t is (xv :: rest) xu = comboOf thr t is rest xu := by
                simp [comboOf, hsame, combo, hp, hi, hcl]
              rw [hc]
              simp only [show close3 t xu xv uv = false by simpa using hcl, if_true]
              exact ih hs'.2 hl' { st with cache := c1 } h1
        · rw [if_pos (by simpa using hp)]
          have hc : comboOf thr t is (xv :: rest) xu = comboOf thr t is rest xu := by
            simp [comboOf, hsame, combo, hp]
          rw [hc]
          exact ih hs'.2 hl' st h
    · rw [if_pos (by simpa using hsame)]
      have hnone : comboOf thr t is (xv :: rest) xu = [] := by
        unfold comboOf
        rw [List.filterMap_eq_nil_iff]
        intro y hy
        rw [if_neg]
        intro hsy
        rw [sameX_iff] at hsy hsame
        have h1 := hl xv (by simp)
        rcases List.mem_cons.1 hy with rfl | hm
        · exact hsame hsy
        · have h2 := hs'.1 y hm
          have n1 : ¬ lessX xv xu = true := by simp [h1]
          have n2 : ¬ lessX y xv = true := by simp [h2]
          rw [lessX_iff] at n1 n2
          rw [hsy] at n2
          apply hsame
          apply Prod.ext <;> omega
      rw [hnone]
      have : cap max st.n ([] : List Trip) = [] := by simp [cap]
      rw [this]
      exact ⟨h, by simp, by simp⟩

theorem skipX_spec (xu : Doublet) (xvs : List Doublet) : XSorted xvs → XSorted (skipX xu xvs) ∧
    (∀ xv ∈ skipX xu xvs, lessX xv xu = false) ∧ ∃ pre, xvs = pre ++ skipX xu xvs ∧ ∀ xv ∈ pre, lessX xv xu = true := by
  induction xvs with
  | nil => intro h; exact ⟨h, by simp [skipX], [], by simp [skipX], by simp⟩
  | cons xv rest ih =>
    intro hs
    have hs' := List.pairwise_cons.1 hs
    obtain ⟨i1, i2, pre, i3, i4⟩ := ih hs'.2
    unfold skipX
    by_cases hc : lessX xv xu = true
    · rw [if_pos hc]
      refine ⟨i1, i2, xv :: pre, by rw [List.cons_append, ← i3], fun y hy => ?_⟩
      rcases List.mem_cons.1 hy with rfl | hm
      · exact hc
      · exact i4 y hm
    · rw [if_neg hc]
      refine ⟨hs, fun y hy => ?_, [], by simp, by simp⟩
      rcases List.mem_cons.1 hy with rfl | hm
      · simpa using hc
      · have h2 : ¬ lessX y xv = true := by simp [hs'.1 y hm]
        have : ¬ lessX y xu = true := by
          rw [lessX_iff] at hc h2 ⊢; omega
        simpa using this

theorem joinLoop_spec (max : Int) (thr t : ℚ) (is : Nat → Nat → Option Pt) (xus : List Doublet) : XSorted xus →
    ∀ xvs, XSorted xvs → ∀ st : JoinSt, CacheOK is st.cache →
    (joinLoop max thr t is xus xvs st).ret = st.ret ++ cap max st.n (xus.flatMap (comboOf thr t is xvs)) := by
  induction xus with
  | nil => intro _ xvs _ st _; simp [joinLoop, cap]
  | cons xu xus ih =>
    intro hu xvs hv st hc
    have hu' := List.pairwise_cons.1 hu
    obtain ⟨s1, s2, pre, s3, s4⟩ := skipX_spec xu xvs hv
    unfold joinLoop
    simp only []
    obtain ⟨r1, r2, r3⟩ := innerXV_spec max thr t is xu (skipX xu xvs) s1 s2 st hc
    rw [ih hu'.2 _ s1 _ r1, r2, r3]
    -- nothing skipped could match
    have hdrop : ∀ xu', lessX xu' xu = false → comboOf thr t is xvs xu' = comboOf thr t is (skipX xu xvs) xu' := by
      intro xu' hle
      conv_lhs => rw [s3]
      unfold comboOf
      rw [List.filterMap_append]
      have : pre.filterMap (fun xv => if sameX xv xu' then combo thr t is xu' xv else none) = [] := by
        rw [List.filterMap_eq_nil_iff]
        intro xv hx
        rw [if_neg]
        intro hsame
        have h1 := s4 xv hx
        have h2 : ¬ lessX xu' xu = true := by simp [hle]
        rw [sameX_iff] at hsame
        rw [lessX_iff] at h1 h2
        rw [hsame] at h1
        exact h2 h1
      rw [this, List.nil_append]
    rw [List.flatMap_cons, hdrop xu (by
      have : ¬ lessX xu xu = true := by rw [lessX_iff]; omega
      simpa using this), cap_append]
    have hrest : xus.flatMap (comboOf thr t is xvs) = xus.flatMap (comboOf thr t is (skipX xu xvs)) :=
      List.flatMap_congr (fun xu' hm => hdrop xu' (hu'.1 xu' hm))
    rw [hrest, List.append_assoc]

/-- exhaustive search of the triplets among two lists of doublets -/
def specTrips (thr t : ℚ) (is : Nat → Nat → Option Pt) (xus xvs : List Doublet) : List Trip := xus.flatMap (comboOf thr t is xvs)

theorem specTrips_perm (thr t : ℚ) (is : Nat → Nat → Option Pt) {xus xus' xvs xvs' : List Doublet} (h1 : xus.Perm xus') (h2 : xvs.Perm xvs') :
    (specTrips thr t is xus xvs).Perm (specTrips thr t is xus' xvs') := by
  unfold specTrips
  refine (h1.flatMap_right _).trans (List.Perm.flatMap_left _ (fun xu _ => ?_))
  unfold comboOf
  exact h2.filterMap _

end Verif.Triplet

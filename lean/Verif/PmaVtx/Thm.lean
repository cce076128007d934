import Verif.PmaVtx.Model
import Mathlib.Data.List.Perm.Basic
import Mathlib.Data.List.Induction
import Mathlib.Tactic.Linarith

/-!
# Properties C469-C475
-/

namespace Verif.PmaVtx

/-! ### Merging of two candidates -/

/-- Specification: no track is attached to a track of the first list or to an earlier one of its own list. -/
def NoAtt (e : Env) (l o : List (ℕ × ℕ)) : Prop :=
  ∀ a t b, o = a ++ t :: b → ∀ x ∈ l ++ a, e.att t.1 x.1 = false

theorem isAtt_iff (e : Env) (l : List (ℕ × ℕ)) (t : ℕ) :
    isAtt e l t = true ↔ ∃ x ∈ l, e.att t x.1 = true := by
  unfold isAtt; rw [List.any_eq_true]

theorem has_iff (l : List (ℕ × ℕ)) (t : ℕ) : has l t = true ↔ ∃ x ∈ l, x.1 = t := by
  unfold has; rw [List.any_eq_true]
  simp only [beq_iff_eq]
  exact exists_congr (fun x => and_congr_right (fun _ => eq_comm))

theorem mergeGo_spec (e : Env) (hr : ∀ t, e.att t t = true) (o l : List (ℕ × ℕ)) (n : ℕ) :
    (NoAtt e l o ∧ mergeGo e o l n = (l ++ o, n + o.length, false)) ∨
    (¬ NoAtt e l o ∧ ∃ a t b, o = a ++ t :: b ∧ mergeGo e o l n = (l ++ a, n + a.length, true)) := by
  induction o generalizing l n with
  | nil =>
    left
    refine ⟨fun a t b h => by simp at h, by simp [mergeGo]⟩
  | cons t r ih =>
    unfold mergeGo
    by_cases h : isAtt e l t.1 = true
    · right
      refine ⟨fun q => ?_, [], t, r, rfl, by rw [if_pos h]; simp⟩
      obtain ⟨x, hx, ha⟩ := (isAtt_iff e l t.1).1 h
      have := q [] t r rfl x (by simpa using hx)
      rw [this] at ha; simp at ha
    · have hh : has l t.1 = false := by
        rw [← Bool.not_eq_true, has_iff]
        rintro ⟨x, hx, he⟩
        exact h ((isAtt_iff e l t.1).2 ⟨x, hx, by rw [he]; exact hr _⟩)
      rw [if_neg h, hh]
      simp only [Bool.false_eq_true, if_false]
      have hno : NoAtt e l (t :: r) ↔ NoAtt e (l ++ [t]) r := by
        constructor
        · intro q a u b e1 x hx
          exact q (t :: a) u b (by rw [e1]; rfl) x (by simpa using hx)
        · intro q a u b e1 x hx
          cases a with
          | nil =>
            simp only [List.nil_append, List.cons.injEq] at e1
            rw [← e1.1, ← Bool.not_eq_true]
            intro ha
            exact h ((isAtt_iff e l t.1).2 ⟨x, by simpa using hx, ha⟩)
          | cons y a =>
            simp only [List.cons_append, List.cons.injEq] at e1
            exact q a u b e1.2 x (by rw [← e1.1] at hx; simpa using hx)
      rcases ih (l ++ [t]) (n + 1) with ⟨h1, h2⟩ | ⟨h1, a, u, b, h2, h3⟩
      · left
        refine ⟨hno.2 h1, ?_⟩
        rw [h2]
        simp; omega
      · right
        refine ⟨fun q => h1 (hno.1 q), t :: a, u, b, by rw [h2]; rfl, ?_⟩
        rw [h3]
        simp; omega

/-- **C469**: two candidates are merged exactly if their centres are not far, the second has tracks, none of them is
attached to another, and the fit of all is good; the merged one has the tracks of both and this fit. -/
theorem C469_merge (e : Env) (hr : ∀ t, e.att t t = true) (c o : Cand) :
    ((mergeWith e c o).1 = true ↔
      e.far c.fit o.fit = false ∧ o.tr ≠ [] ∧ NoAtt e c.tr o.tr ∧ e.mse (c.tr ++ o.tr) < 1) ∧
    ((mergeWith e c o).1 = true → (mergeWith e c o).2 = ⟨c.tr ++ o.tr, c.tr ++ o.tr⟩) := by
  unfold mergeWith
  cases hf : e.far c.fit o.fit with
  | true => simp
  | false =>
    simp only [Bool.false_eq_true, if_false, true_and]
    rcases mergeGo_spec e hr o.tr c.tr 0 with ⟨h1, h2⟩ | ⟨h1, a, t, b, _, h3⟩
    · rw [h2]
      simp only [Bool.false_eq_true, if_false, Nat.zero_add, List.length_eq_zero_iff]
      by_cases hn : o.tr = []
      · rw [if_pos hn]; simp [hn]
      · rw [if_neg hn]
        by_cases hm : e.mse (c.tr ++ o.tr) < 1
        · rw [if_pos hm]; exact ⟨⟨fun _ => ⟨hn, h1, hm⟩, fun _ => rfl⟩, fun _ => rfl⟩
        · rw [if_neg hm]
          exact ⟨⟨fun h => by simp at h, fun h => absurd h.2.2 hm⟩, fun h => by simp at h⟩
    · rw [h3]
      simp only [if_true]
      exact ⟨⟨fun h => by simp at h, fun h => absurd h.2.1 h1⟩, fun h => by simp at h⟩

/-- **C470**, what is proved: a candidate with which another is not merged keeps its tracks, if no track is
attached.  Missing: attached tracks. -/
theorem C470_refused_partial (e : Env) (hr : ∀ t, e.att t t = true) (c o : Cand) (hn : NoAtt e c.tr o.tr)
    (h : (mergeWith e c o).1 = false) : (mergeWith e c o).2.tr = c.tr := by
  unfold mergeWith at h ⊢
  cases hf : e.far c.fit o.fit with
  | true => simp
  | false =>
    rw [hf] at h
    simp only [Bool.false_eq_true, if_false] at h ⊢
    rcases mergeGo_spec e hr o.tr c.tr 0 with ⟨_, h2⟩ | ⟨h1, _⟩
    · rw [h2] at h ⊢
      simp only [Bool.false_eq_true, if_false, Nat.zero_add, List.length_eq_zero_iff] at h ⊢
      by_cases hno : o.tr = []
      · rw [if_pos hno]; simp [hno]
      · rw [if_neg hno] at h ⊢
        by_cases hm : e.mse (c.tr ++ o.tr) < 1
        · rw [if_pos hm] at h; simp at h
        · rw [if_neg hm]; simp
    · exact absurd hn h1

/-- A case in which all is good unless tracks are the same. -/
def demo : Env where
  att a b := a == b
  len _ := 10
  far _ _ := false
  test _ _ := 1 / 2
  close _ _ := false
  mse _ := 0
  angle _ := 1

/-- **C470**, counterexample: the second track of the other is already there; the merge is refused, but the first
track of the other stays in the candidate. -/
theorem C470_refuted : ∃ (e : Env) (c o : Cand), (∀ t, e.att t t = true) ∧ e.att 3 1 = false ∧
    mergeWith e c o = (false, ⟨[(1, 0), (2, 0), (3, 0)], [(1, 0), (2, 0)]⟩) ∧ c.tr = [(1, 0), (2, 0)] :=
  ⟨demo, ⟨[(1, 0), (2, 0)], [(1, 0), (2, 0)]⟩, ⟨[(3, 0), (2, 1)], [(3, 0), (2, 1)]⟩, fun t => by simp [demo],
    by decide +kernel, by decide +kernel, rfl⟩

example : mergeWith demo ⟨[(1, 0), (2, 0)], [(1, 0), (2, 0)]⟩ ⟨[(3, 0), (4, 1)], [(3, 0), (4, 1)]⟩ =
    (true, ⟨[(1, 0), (2, 0), (3, 0), (4, 1)], [(1, 0), (2, 0), (3, 0), (4, 1)]⟩) := by decide +kernel

/-! ### Removal of candidates contained in others -/

/-- Specification: the tracks of the second are tracks of the first. -/
def Contains (a b : Cand) : Prop := ∀ t ∈ b.tr, ∃ u ∈ a.tr, u.1 = t.1

theorem hasC_iff (a b : Cand) : hasC a b = true ↔ Contains a b := by
  unfold hasC Contains
  rw [List.all_eq_true]
  exact forall_congr' (fun t => imp_congr_right (fun _ => has_iff _ _))

theorem Contains.refl (a : Cand) : Contains a a := fun t ht => ⟨t, ht, rfl⟩

theorem Contains.trans {a b c : Cand} (h : Contains a b) (g : Contains b c) : Contains a c := by
  intro t ht
  obtain ⟨u, hu, e1⟩ := g t ht
  obtain ⟨v, hv, e2⟩ := h u hu
  exact ⟨v, hv, e2.trans e1⟩

theorem inner_spec (c : Cand) (r : List Cand) :
    Contains (inner c r).1 c ∧ (inner c r).1 ∈ c :: r ∧ (inner c r).2.Sublist r ∧
      ∀ x ∈ r, Contains (inner c r).1 x ∨ x ∈ (inner c r).2 := by
  induction r generalizing c with
  | nil => simp [inner, Contains.refl]
  | cons x r ih =>
    unfold inner
    by_cases h1 : hasC x c = true
    · rw [if_pos h1]
      obtain ⟨g1, g2, g3, g4⟩ := ih x
      refine ⟨g1.trans ((hasC_iff _ _).1 h1), List.mem_cons_of_mem _ g2, g3.cons _, ?_⟩
      intro y hy
      rcases List.mem_cons.1 hy with rfl | hy
      · exact Or.inl g1
      · exact g4 y hy
    · rw [if_neg h1]
      by_cases h2 : hasC c x = true
      · rw [if_pos h2]
        obtain ⟨g1, g2, g3, g4⟩ := ih c
        refine ⟨g1, ?_, g3.cons _, ?_⟩
        · rcases List.mem_cons.1 g2 with h | h
          · rw [h]; simp
          · simp [h]
        · intro y hy
          rcases List.mem_cons.1 hy with rfl | hy
          · exact Or.inl (g1.trans ((hasC_iff _ _).1 h2))
          · exact g4 y hy
      · rw [if_neg h2]
        obtain ⟨g1, g2, g3, g4⟩ := ih c
        refine ⟨g1, ?_, g3.cons_cons _, ?_⟩
        · rcases List.mem_cons.1 g2 with h | h
          · simp only [h]; simp
          · simp [h]
        · intro y hy
          rcases List.mem_cons.1 hy with rfl | hy
          · exact Or.inr (by simp)
          · rcases g4 y hy with h | h
            · exact Or.inl h
            · exact Or.inr (by simp [h])

theorem dedupN_spec (n : ℕ) (cs : List Cand) :
    (∀ y ∈ dedupN n cs, y ∈ cs) ∧ (dedupN n cs).length ≤ cs.length ∧
      ∀ x ∈ cs, ∃ y ∈ dedupN n cs, Contains y x := by
  induction n generalizing cs with
  | zero => exact ⟨fun y h => h, le_refl _, fun x hx => ⟨x, hx, Contains.refl x⟩⟩
  | succ n ih =>
    cases cs with
    | nil => simp [dedupN]
    | cons c r =>
      obtain ⟨g1, g2, g3, g4⟩ := inner_spec c r
      obtain ⟨i1, i2, i3⟩ := ih (inner c r).2
      unfold dedupN
      refine ⟨?_, ?_, ?_⟩
      · intro y hy
        rcases List.mem_cons.1 hy with rfl | hy
        · exact g2
        · exact List.mem_cons_of_mem _ (g3.subset (i1 y hy))
      · have := g3.length_le
        simp only [List.length_cons]; omega
      · intro x hx
        rcases List.mem_cons.1 hx with rfl | hx
        · exact ⟨_, by simp, g1⟩
        · rcases g4 x hx with h | h
          · exact ⟨_, by simp, h⟩
          · obtain ⟨y, hy, hc⟩ := i3 x h
            exact ⟨y, by simp [hy], hc⟩

/-- **C471**, what is proved: the candidates kept are candidates of the input, each candidate of the input is contained
in one that is kept, and, if no candidate is strictly contained in another (as when all are pairs), none of those
that are kept is contained in another.  Missing: candidates strictly contained in others. -/
theorem C471_dedup_partial (cs : List Cand) :
    (∀ y ∈ dedup cs, y ∈ cs) ∧ (∀ x ∈ cs, ∃ y ∈ dedup cs, Contains y x) ∧
    ((∀ a ∈ cs, ∀ b ∈ cs, Contains a b → Contains b a) →
      (dedup cs).Pairwise (fun a b => ¬ Contains a b ∧ ¬ Contains b a)) := by
  unfold dedup
  refine ⟨(dedupN_spec _ cs).1, (dedupN_spec _ cs).2.2, ?_⟩
  have hin : ∀ (r : List Cand) (c : Cand), (∀ a ∈ c :: r, ∀ b ∈ c :: r, Contains a b → Contains b a) →
      ∀ x ∈ (inner c r).2, ¬ Contains (inner c r).1 x := by
    intro r
    induction r with
    | nil => intro c _ x hx; simp [inner] at hx
    | cons y r ih =>
      intro c hs x hx
      unfold inner at hx ⊢
      have hsub : ∀ a ∈ c :: r, a ∈ c :: y :: r := by
        intro a ha
        rcases List.mem_cons.1 ha with h | h <;> simp [h]
      by_cases h1 : hasC y c = true
      · rw [if_pos h1] at hx ⊢
        exact ih y (fun a ha b hb => hs a (List.mem_cons_of_mem _ ha) b (List.mem_cons_of_mem _ hb)) x hx
      · rw [if_neg h1] at hx ⊢
        by_cases h2 : hasC c y = true
        · rw [if_pos h2] at hx ⊢
          exact ih c (fun a ha b hb => hs a (hsub a ha) b (hsub b hb)) x hx
        · rw [if_neg h2] at hx ⊢
          rcases List.mem_cons.1 hx with rfl | hx
          · intro hc
            obtain ⟨g1, g2, _, _⟩ := inner_spec c r
            have : Contains c (inner c r).1 := hs _ (hsub _ g2) _ (by simp) g1
            exact h2 ((hasC_iff _ _).2 (this.trans hc))
          · exact ih c (fun a ha b hb => hs a (hsub a ha) b (hsub b hb)) x hx
  have : ∀ (n : ℕ) (cs : List Cand), cs.length ≤ n →
      (∀ a ∈ cs, ∀ b ∈ cs, Contains a b → Contains b a) →
      (dedupN n cs).Pairwise (fun a b => ¬ Contains a b ∧ ¬ Contains b a) := by
    intro n
    induction n with
    | zero =>
      intro cs h _
      have : cs = [] := List.length_eq_zero_iff.1 (by omega)
      subst this; simp [dedupN]
    | succ n ih =>
      intro cs hl hs
      cases cs with
      | nil => simp [dedupN]
      | cons c r =>
        obtain ⟨g1, g2, g3, g4⟩ := inner_spec c r
        unfold dedupN
        rw [List.pairwise_cons]
        have hm : ∀ a ∈ (inner c r).2, a ∈ c :: r := fun a ha => List.mem_cons_of_mem _ (g3.subset ha)
        refine ⟨?_, ih _ ?_ (fun a ha b hb => hs a (hm a ha) b (hm b hb))⟩
        · intro y hy
          have hy' := (dedupN_spec _ _).1 y hy
          have hn := hin r c hs y hy'
          exact ⟨hn, fun h => hn (hs _ (hm y hy') _ g2 h)⟩
        · have := g3.length_le
          simp only [List.length_cons] at hl; omega
  exact this cs.length cs (le_refl _)

/-- **C471**, counterexample: the first is replaced by a larger one, in which the second, which was compared before,
is contained. -/
theorem C471_refuted : ∃ (a b c : Cand), dedup [a, b, c] = [c, b] ∧ Contains c b :=
  ⟨⟨[(1, 0), (2, 0)], []⟩, ⟨[(2, 0), (3, 0)], []⟩, ⟨[(1, 0), (2, 0), (3, 0)], []⟩, by decide +kernel,
    (hasC_iff _ _).1 (by decide +kernel)⟩

example : dedup [⟨[(1, 0), (2, 0)], []⟩, ⟨[(2, 3), (1, 0)], []⟩, ⟨[(1, 0), (3, 0)], []⟩] =
    [⟨[(2, 3), (1, 0)], []⟩, ⟨[(1, 0), (3, 0)], []⟩] := by decide +kernel

/-! ### The merging of candidates -/

theorem pairs_mem (n : ℕ) (p : ℕ × ℕ) : p ∈ pairs n ↔ p.1 < p.2 ∧ p.2 < n := by
  unfold pairs
  simp only [List.mem_flatMap, List.mem_map, List.mem_filter, List.mem_range, decide_eq_true_eq]
  constructor
  · rintro ⟨k, _, l, ⟨hl, hkl⟩, rfl⟩; exact ⟨hkl, hl⟩
  · rintro ⟨h1, h2⟩; exact ⟨p.1, by omega, p.2, ⟨h2, h1⟩, rfl⟩

/-- **C472**: the pair tried is a closest one, with a weighted distance less than 1; there is none exactly if no two are so close. -/
theorem C472_closest (e : Env) (cs : List Cand) :
    match bestPair e cs with
    | none => ∀ (k l : ℕ) (x y : Cand), k < l → cs[k]? = some x → cs[l]? = some y → 1 ≤ e.test x.fit y.fit
    | some (d, k, l) => k < l ∧ d < 1 ∧ (∃ x y, cs[k]? = some x ∧ cs[l]? = some y ∧ d = e.test x.fit y.fit) ∧
        ∀ (k l : ℕ) (x y : Cand), k < l → cs[k]? = some x → cs[l]? = some y → d ≤ e.test x.fit y.fit := by
  have key : ∀ (ps : List (ℕ × ℕ)), (∀ p ∈ ps, p ∈ pairs cs.length) →
      match ps.foldl (bestStep e cs) none with
      | none => ∀ p ∈ ps, ∀ x y, cs[p.1]? = some x → cs[p.2]? = some y → 1 ≤ e.test x.fit y.fit
      | some (d, k, l) => k < l ∧ d < 1 ∧ (∃ x y, cs[k]? = some x ∧ cs[l]? = some y ∧ d = e.test x.fit y.fit) ∧
          ∀ p ∈ ps, ∀ x y, cs[p.1]? = some x → cs[p.2]? = some y → d ≤ e.test x.fit y.fit := by
    intro ps
    induction ps using List.reverseRecOn with
    | nil => intro _; simp
    | append_singleton ps p ih =>
      intro hp
      have ih' := ih (fun q hq => hp q (by simp [hq]))
      rw [List.foldl_append, List.foldl_cons, List.foldl_nil]
      have hpm := (pairs_mem _ _).1 (hp p (by simp))
      have hx : cs[p.1]? = some (cs[p.1]'(by omega)) := List.getElem?_eq_getElem _
      have hy : cs[p.2]? = some (cs[p.2]'(by omega)) := List.getElem?_eq_getElem _
      generalize ps.foldl (bestStep e cs) none = ob at ih' ⊢
      unfold bestStep
      rw [hx, hy]
      generalize hgx : cs[p.1]'(by omega) = x at hx
      generalize hgy : cs[p.2]'(by omega) = y at hy
      simp only
      cases ob with
      | none =>
        simp only at ih' ⊢
        by_cases hlt : e.test x.fit y.fit < 1
        · rw [if_pos hlt]
          refine ⟨hpm.1, hlt, ⟨x, y, hx, hy, rfl⟩, ?_⟩
          intro q hq u v hu hv
          rcases List.mem_append.1 hq with hq | hq
          · exact le_trans (le_of_lt hlt) (ih' q hq u v hu hv)
          · simp only [List.mem_singleton] at hq
            subst hq
            rw [hx] at hu; rw [hy] at hv
            simp only [Option.some.injEq] at hu hv
            rw [hu, hv]
        · rw [if_neg hlt]
          simp only
          intro q hq u v hu hv
          rcases List.mem_append.1 hq with hq | hq
          · exact ih' q hq u v hu hv
          · simp only [List.mem_singleton] at hq
            subst hq
            rw [hx] at hu; rw [hy] at hv
            simp only [Option.some.injEq] at hu hv
            rw [← hu, ← hv]; exact not_lt.1 hlt
      | some d =>
        obtain ⟨d, k, l⟩ := d
        simp only at ih' ⊢
        obtain ⟨i1, i2, i3, i4⟩ := ih'
        by_cases hlt : e.test x.fit y.fit < d
        · rw [if_pos hlt]
          refine ⟨hpm.1, lt_trans hlt i2, ⟨x, y, hx, hy, rfl⟩, ?_⟩
          intro q hq u v hu hv
          rcases List.mem_append.1 hq with hq | hq
          · exact le_trans (le_of_lt hlt) (i4 q hq u v hu hv)
          · simp only [List.mem_singleton] at hq
            subst hq
            rw [hx] at hu; rw [hy] at hv
            simp only [Option.some.injEq] at hu hv
            rw [hu, hv]
        · rw [if_neg hlt]
          simp only
          refine ⟨i1, i2, i3, ?_⟩
          intro q hq u v hu hv
          rcases List.mem_append.1 hq with hq | hq
          · exact i4 q hq u v hu hv
          · simp only [List.mem_singleton] at hq
            subst hq
            rw [hx] at hu; rw [hy] at hv
            simp only [Option.some.injEq] at hu hv
            rw [← hu, ← hv]; exact not_lt.1 hlt
  have hk := key (pairs cs.length) (fun _ h => h)
  unfold bestPair
  have hall : ∀ (k l : ℕ) (x y : Cand), k < l → cs[k]? = some x → cs[l]? = some y → (k, l) ∈ pairs cs.length := by
    intro k l x y h _ hy
    exact (pairs_mem _ _).2 ⟨h, (List.getElem?_eq_some_iff.1 hy).1⟩
  split at hk
  · next hn =>
    exact fun k l x y h hx hy => hk (k, l) (hall k l x y h hx hy) x y hx hy
  · next d k l hn =>
    exact ⟨hk.1, hk.2.1, hk.2.2.1, fun k l x y h hx hy => hk.2.2.2 (k, l) (hall k l x y h hx hy) x y hx hy⟩

theorem mergeGo_prefix (e : Env) (o l : List (ℕ × ℕ)) (n : ℕ) :
    ∃ k, (mergeGo e o l n).1 = l ++ k ∧ (mergeGo e o l n).2.1 = n + k.length ∧
      ((mergeGo e o l n).2.2 = false → ∀ t ∈ o, ∃ u ∈ l ++ k, u.1 = t.1) := by
  induction o generalizing l n with
  | nil => exact ⟨[], by simp [mergeGo], by simp [mergeGo], by simp⟩
  | cons t r ih =>
    unfold mergeGo
    by_cases h : isAtt e l t.1 = true
    · rw [if_pos h]; exact ⟨[], by simp, by simp, by simp⟩
    · rw [if_neg h]
      by_cases hh : has l t.1 = true
      · rw [if_pos hh]
        obtain ⟨k, h1, h2, h3⟩ := ih l n
        refine ⟨k, h1, h2, fun hf => ?_⟩
        intro u hu
        rcases List.mem_cons.1 hu with rfl | hu
        · obtain ⟨x, hx, e1⟩ := (has_iff _ _).1 hh
          exact ⟨x, by simp [hx], e1⟩
        · exact h3 hf u hu
      · rw [if_neg hh]
        obtain ⟨k, h1, h2, h3⟩ := ih (l ++ [t]) (n + 1)
        refine ⟨t :: k, by rw [h1]; simp, by rw [h2]; simp; omega, fun hf => ?_⟩
        intro u hu
        rcases List.mem_cons.1 hu with rfl | hu
        · exact ⟨u, by simp, rfl⟩
        · obtain ⟨x, hx, e1⟩ := h3 hf u hu
          exact ⟨x, by simpa using hx, e1⟩

theorem mergeWith_contains (e : Env) (c o : Cand) :
    Contains (mergeWith e c o).2 c ∧ ((mergeWith e c o).1 = true → Contains (mergeWith e c o).2 o) := by
  unfold mergeWith
  cases hf : e.far c.fit o.fit with
  | true => simp [Contains.refl]
  | false =>
    simp only [Bool.false_eq_true, if_false]
    obtain ⟨k, h1, h2, h3⟩ := mergeGo_prefix e o.tr c.tr 0
    cases hs : (mergeGo e o.tr c.tr 0).2.2 with
    | true =>
      simp only [if_true]
      refine ⟨fun t ht => ⟨t, ?_, rfl⟩, by simp⟩
      simp only [h1]; simp [ht]
    | false =>
      simp only [Bool.false_eq_true, if_false]
      split
      · refine ⟨fun t ht => ⟨t, ?_, rfl⟩, by simp⟩
        simp only [h1]; simp [ht]
      · split
        · refine ⟨fun t ht => ⟨t, ?_, rfl⟩, fun _ t ht => ?_⟩
          · simp only [h1]; simp [ht]
          · obtain ⟨u, hu, e1⟩ := h3 hs t ht
            exact ⟨u, by simp only [h1]; exact hu, e1⟩
        · refine ⟨fun t ht => ⟨t, ?_, rfl⟩, by simp⟩
          simp only [h1, h2]; simp [ht]

/-- **C472**: each candidate is contained in one that is left after the merging. -/
theorem C472_cover (e : Env) (n : ℕ) (cs : List Cand) (x : Cand) (hx : x ∈ cs) :
    ∃ y ∈ mergeLoop e n cs, Contains y x := by
  induction n generalizing cs x with
  | zero => exact ⟨x, hx, Contains.refl x⟩
  | succ n ih =>
    unfold mergeLoop
    by_cases hl : cs.length ≤ 1
    · rw [if_pos hl]; exact ⟨x, hx, Contains.refl x⟩
    · rw [if_neg hl]
      obtain ⟨y, hy, hc⟩ := (dedupN_spec cs.length cs).2.2 x hx
      change y ∈ dedup cs at hy
      have hb := C472_closest e (dedup cs)
      cases hp : bestPair e (dedup cs) with
      | none => exact ⟨y, hy, hc⟩
      | some q =>
        obtain ⟨d, k, l⟩ := q
        rw [hp] at hb
        obtain ⟨hkl, _, ⟨a, b, ha, hb', _⟩, _⟩ := hb
        simp only [ha, hb']
        obtain ⟨m1, m2⟩ := mergeWith_contains e a b
        obtain ⟨j, hj⟩ := List.mem_iff_getElem?.1 hy
        have hklen : k < (dedup cs).length := (List.getElem?_eq_some_iff.1 ha).1
        have hk2 : ((dedup cs).set k (mergeWith e a b).2)[k]? = some (mergeWith e a b).2 := by
          rw [List.getElem?_set_self hklen]
        cases hm : (mergeWith e a b).1 with
        | true =>
          simp only [if_true]
          have : ∃ z ∈ ((dedup cs).set k (mergeWith e a b).2).eraseIdx l, Contains z y := by
            by_cases hjk : j = k
            · subst hjk
              rw [ha] at hj
              simp only [Option.some.injEq] at hj
              exact ⟨_, List.mem_eraseIdx_iff_getElem?.2 ⟨j, by omega, hk2⟩, hj ▸ m1⟩
            · by_cases hjl : j = l
              · subst hjl
                rw [hb'] at hj
                simp only [Option.some.injEq] at hj
                exact ⟨_, List.mem_eraseIdx_iff_getElem?.2 ⟨k, by omega, hk2⟩, hj ▸ m2 hm⟩
              · refine ⟨y, List.mem_eraseIdx_iff_getElem?.2 ⟨j, hjl, ?_⟩, Contains.refl y⟩
                rw [List.getElem?_set_ne (fun q => hjk q.symm)]; exact hj
          obtain ⟨z, hz, hzy⟩ := this
          obtain ⟨w, hw, hwz⟩ := ih _ z hz
          exact ⟨w, hw, hwz.trans (hzy.trans hc)⟩
        | false =>
          simp only [Bool.false_eq_true, if_false]
          by_cases hjk : j = k
          · subst hjk
            rw [ha] at hj
            simp only [Option.some.injEq] at hj
            exact ⟨_, List.mem_of_getElem? hk2, (hj ▸ m1 : Contains _ y).trans hc⟩
          · refine ⟨y, List.mem_of_getElem? (i := j) ?_, hc⟩
            rw [List.getElem?_set_ne (fun q => hjk q.symm)]; exact hj

/-- **C472**: the merging ends after at most as many steps as there are candidates. -/
theorem C472_ends (e : Env) (n : ℕ) (cs : List Cand) (h : cs.length ≤ n) :
    mergeLoop e n cs = mergeLoop e cs.length cs := by
  have key : ∀ (n m : ℕ) (cs : List Cand), cs.length ≤ n → cs.length ≤ m →
      mergeLoop e n cs = mergeLoop e m cs := by
    intro n
    induction n with
    | zero =>
      intro m cs h _
      have : cs = [] := List.length_eq_zero_iff.1 (by omega)
      subst this
      cases m <;> simp [mergeLoop]
    | succ n ih =>
      intro m cs h1 h2
      cases m with
      | zero =>
        have : cs = [] := List.length_eq_zero_iff.1 (by omega)
        subst this; simp [mergeLoop]
      | succ m =>
        unfold mergeLoop
        by_cases hl : cs.length ≤ 1
        · rw [if_pos hl, if_pos hl]
        · rw [if_neg hl, if_neg hl]
          cases hp : bestPair e (dedup cs) with
          | none => rfl
          | some q =>
            obtain ⟨d, k, l⟩ := q
            simp only
            cases ha : (dedup cs)[k]? with
            | none => rfl
            | some a =>
              cases hb : (dedup cs)[l]? with
              | none => rfl
              | some b =>
                simp only
                have hdl := (dedupN_spec cs.length cs).2.1
                change (dedup cs).length ≤ cs.length at hdl
                have hll := (List.getElem?_eq_some_iff.1 hb).1
                have hle : (((dedup cs).set k (mergeWith e a b).2).eraseIdx l).length + 1 ≤ cs.length := by
                  rw [List.length_eraseIdx_of_lt (by simpa using hll), List.length_set]; omega
                rw [ih m _ (by omega) (by omega)]
  exact key n cs.length cs h (le_refl _)

end Verif.PmaVtx

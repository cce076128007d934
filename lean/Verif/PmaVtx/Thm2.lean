import Verif.PmaVtx.Thm
import Mathlib.Data.List.Perm.Subperm

/-!
# Properties C473-C475: the selection of vertices and the sorting of tracks
-/

namespace Verif.PmaVtx

/-- Specification: a track of the second is attached to one of the first. -/
def AttC (e : Env) (u v : Cand) : Prop := ∃ t ∈ v.tr, ∃ x ∈ u.tr, e.att t.1 x.1 = true

/-- Specification: two different entries of a candidate have attached tracks. -/
def Loops (e : Env) (c : Cand) : Prop :=
  ∃ (i j : ℕ) (t u : ℕ × ℕ), i ≠ j ∧ c.tr[i]? = some t ∧ c.tr[j]? = some u ∧ e.att t.1 u.1 = true

/-- Specification: the number of tracks that are longer than a limit. -/
def nLong (e : Env) (m : ℚ) (c : Cand) : ℕ := (c.tr.filter (fun t => e.len t.1 > m)).length

/-- Specification: a candidate has no loops and is neither attached nor close to those selected before. -/
def Free (e : Env) (sel : List Cand) (v : Cand) : Prop :=
  ¬ Loops e v ∧ ∀ u ∈ sel, ¬ AttC e u v ∧ e.close u.fit v.fit = false

/-- Specification: the second is not better: fewer long tracks, or as many and not a larger angle. -/
def NotBetter (e : Env) (m : ℚ) (c w : Cand) : Prop :=
  nLong e (2 * m) w < nLong e (2 * m) c ∨
    (nLong e (2 * m) w = nLong e (2 * m) c ∧ e.angle w.tr ≤ e.angle c.tr)

theorem size_eq (e : Env) (m : ℚ) (c : Cand) : size e m c = nLong e m c := by
  have : ∀ (l : List (ℕ × ℕ)) (n : ℕ), l.foldl (fun n t => if e.len t.1 > m then n + 1 else n) n =
      n + (l.filter (fun t => e.len t.1 > m)).length := by
    intro l
    induction l with
    | nil => simp
    | cons t l ih =>
      intro n
      rw [List.foldl_cons, ih, List.filter_cons]
      by_cases h : e.len t.1 > m
      · simp [h]; omega
      · simp [h]
  unfold size nLong
  rw [this]; omega

theorem hasLoops_iff (e : Env) (c : Cand) : hasLoops e c = true ↔ Loops e c := by
  unfold hasLoops Loops
  rw [List.any_eq_true]
  constructor
  · rintro ⟨t, ht, h⟩
    rw [List.any_eq_true] at h
    obtain ⟨u, hu, h⟩ := h
    rw [List.mem_zipIdx_iff_getElem?] at ht hu
    rw [Bool.and_eq_true, bne_iff_ne] at h
    exact ⟨t.2, u.2, t.1, u.1, h.1, ht, hu, h.2⟩
  · rintro ⟨i, j, t, u, hij, ht, hu, h⟩
    refine ⟨(t, i), List.mem_zipIdx_iff_getElem?.2 ht, ?_⟩
    rw [List.any_eq_true]
    exact ⟨(u, j), List.mem_zipIdx_iff_getElem?.2 hu, by rw [Bool.and_eq_true, bne_iff_ne]; exact ⟨hij, h⟩⟩

theorem isAttC_iff (e : Env) (u v : Cand) : isAttC e u v = true ↔ AttC e u v := by
  unfold isAttC AttC
  rw [List.any_eq_true]
  exact exists_congr (fun t => and_congr_right (fun _ => isAtt_iff e _ _))

theorem eligible_iff (e : Env) (sel : List Cand) (v : Cand) : eligible e sel v = true ↔ Free e sel v := by
  unfold eligible Free
  rw [Bool.and_eq_true, Bool.not_eq_true', Bool.not_eq_true', ← Bool.not_eq_true, hasLoops_iff]
  apply and_congr_right
  intro _
  rw [List.any_eq_false]
  apply forall_congr'
  intro u
  apply imp_congr_right
  intro _
  rw [Bool.or_eq_true, not_or, isAttC_iff, Bool.not_eq_true]

theorem bestCand_spec (e : Env) (m : ℚ) (sel cs : List Cand) :
    match (bestCand e m sel cs).2.2 with
    | none => ∀ w ∈ cs, Free e sel w → nLong e (2 * m) w = 0 ∧ e.angle w.tr ≤ 0
    | some i => ∃ c, cs[i]? = some c ∧ Free e sel c ∧ ∀ w ∈ cs, Free e sel w → NotBetter e m c w := by
  have key : ∀ l : List (Cand × ℕ), (∀ x ∈ l, cs[x.2]? = some x.1) →
      let b := l.foldl (fun (b : ℕ × ℚ × Option ℕ) v =>
        if eligible e sel v.1 then
          (if size e (2 * m) v.1 > b.1 ∨ (size e (2 * m) v.1 = b.1 ∧ e.angle v.1.tr > b.2.1) then
            (size e (2 * m) v.1, e.angle v.1.tr, some v.2) else b)
        else b) (0, 0, none)
      (∀ x ∈ l, Free e sel x.1 →
        nLong e (2 * m) x.1 < b.1 ∨ (nLong e (2 * m) x.1 = b.1 ∧ e.angle x.1.tr ≤ b.2.1)) ∧
      (match b.2.2 with
        | none => b.1 = 0 ∧ b.2.1 = 0
        | some i => ∃ c, cs[i]? = some c ∧ Free e sel c ∧ b.1 = nLong e (2 * m) c ∧ b.2.1 = e.angle c.tr) := by
    intro l
    induction l using List.reverseRecOn with
    | nil => intro _; simp
    | append_singleton l v ih =>
      intro hl
      have ih' := ih (fun x hx => hl x (by simp [hx]))
      have hv := hl v (by simp)
      simp only at ih' ⊢
      rw [List.foldl_append, List.foldl_cons, List.foldl_nil]
      generalize (l.foldl (fun (b : ℕ × ℚ × Option ℕ) v =>
        if eligible e sel v.1 then
          (if size e (2 * m) v.1 > b.1 ∨ (size e (2 * m) v.1 = b.1 ∧ e.angle v.1.tr > b.2.1) then
            (size e (2 * m) v.1, e.angle v.1.tr, some v.2) else b)
        else b) (0, 0, none)) = b at ih' ⊢
      obtain ⟨i1, i2⟩ := ih'
      by_cases he : eligible e sel v.1 = true
      · rw [if_pos he, size_eq]
        by_cases hc : nLong e (2 * m) v.1 > b.1 ∨ (nLong e (2 * m) v.1 = b.1 ∧ e.angle v.1.tr > b.2.1)
        · rw [if_pos hc]
          refine ⟨?_, v.1, hv, (eligible_iff _ _ _).1 he, rfl, rfl⟩
          intro x hx hf
          rcases List.mem_append.1 hx with hx | hx
          · simp only
            rcases i1 x hx hf with h | ⟨h, h'⟩ <;> rcases hc with g | ⟨g, g'⟩
            · left; omega
            · left; omega
            · left; omega
            · right; exact ⟨by omega, le_trans h' (le_of_lt g')⟩
          · simp only [List.mem_singleton] at hx
            subst hx
            exact Or.inr ⟨rfl, le_refl _⟩
        · rw [if_neg hc]
          refine ⟨?_, i2⟩
          intro x hx hf
          rcases List.mem_append.1 hx with hx | hx
          · exact i1 x hx hf
          · simp only [List.mem_singleton] at hx
            subst hx
            push Not at hc
            rcases Nat.lt_or_ge (nLong e (2 * m) x.1) b.1 with h | h
            · exact Or.inl h
            · have : nLong e (2 * m) x.1 = b.1 := by omega
              exact Or.inr ⟨this, hc.2 this⟩
      · rw [if_neg he]
        refine ⟨?_, i2⟩
        intro x hx hf
        rcases List.mem_append.1 hx with hx | hx
        · exact i1 x hx hf
        · simp only [List.mem_singleton] at hx
          subst hx
          exact absurd ((eligible_iff _ _ _).2 hf) he
  have hk := key cs.zipIdx (fun x hx => List.mem_zipIdx_iff_getElem?.1 hx)
  simp only at hk
  unfold bestCand
  obtain ⟨k1, k2⟩ := hk
  have hmem : ∀ w ∈ cs, ∃ x ∈ cs.zipIdx, x.1 = w := by
    intro w hw
    obtain ⟨i, hi⟩ := List.mem_iff_getElem?.1 hw
    exact ⟨(w, i), List.mem_zipIdx_iff_getElem?.2 hi, rfl⟩
  split at k2
  · obtain ⟨z1, z2⟩ := k2
    intro w hw hf
    obtain ⟨x, hx, rfl⟩ := hmem w hw
    have := k1 x hx hf
    rw [z1, z2] at this
    rcases this with h | h
    · omega
    · exact h
  · obtain ⟨c, c1, c2, c3, c4⟩ := k2
    refine ⟨c, c1, c2, ?_⟩
    intro w hw hf
    obtain ⟨x, hx, rfl⟩ := hmem w hw
    have := k1 x hx hf
    rw [c3, c4] at this
    exact this

theorem select_spec (e : Env) (m : ℚ) (n : ℕ) (sel cs : List Cand) :
    ∃ new, (select e m n sel cs).1 = sel ++ new ∧ (new ++ (select e m n sel cs).2).Perm cs ∧
      (∀ a v b, new = a ++ v :: b → Free e (sel ++ a) v ∧
        ∀ w ∈ b ++ (select e m n sel cs).2, Free e (sel ++ a) w → NotBetter e m v w) ∧
      (cs.length ≤ n → ∀ w ∈ (select e m n sel cs).2, Free e (sel ++ new) w →
        nLong e (2 * m) w = 0 ∧ e.angle w.tr ≤ 0) := by
  induction n generalizing sel cs with
  | zero =>
    refine ⟨[], by simp [select], by simp [select], fun a v b h => by simp at h, fun h w hw => ?_⟩
    have : cs = [] := List.length_eq_zero_iff.1 (by omega)
    subst this
    simp [select] at hw
  | succ n ih =>
    have hb := bestCand_spec e m sel cs
    unfold select
    cases hc : (bestCand e m sel cs).2.2 with
    | none =>
      rw [hc] at hb
      exact ⟨[], by simp, by simp, fun a v b h => by simp at h, fun _ w hw hf => hb w hw (by simpa using hf)⟩
    | some i =>
      rw [hc] at hb
      obtain ⟨c, c1, c2, c3⟩ := hb
      simp only [c1]
      obtain ⟨new, h1, h2, h3, h4⟩ := ih (sel ++ [c]) (cs.eraseIdx i)
      have hlt := (List.getElem?_eq_some_iff.1 c1).1
      have hp : (c :: cs.eraseIdx i).Perm cs := by
        have := List.getElem_cons_eraseIdx_perm hlt
        rwa [(List.getElem?_eq_some_iff.1 c1).2] at this
      have hp2 : (c :: new ++ (select e m n (sel ++ [c]) (cs.eraseIdx i)).2).Perm cs :=
        (List.Perm.cons c h2).trans hp
      refine ⟨c :: new, by rw [h1]; simp, hp2, ?_, ?_⟩
      · intro a v b hab
        cases a with
        | nil =>
          simp only [List.nil_append, List.cons.injEq] at hab
          obtain ⟨rfl, rfl⟩ := hab
          refine ⟨by simpa using c2, fun w hw hf => c3 w ?_ (by simpa using hf)⟩
          exact hp2.subset (by simp only [List.cons_append, List.mem_cons]; exact Or.inr hw)
        | cons y a =>
          simp only [List.cons_append, List.cons.injEq] at hab
          obtain ⟨rfl, hab⟩ := hab
          have := h3 a v b hab
          simpa using this
      · intro hl w hw hf
        apply h4 (by rw [List.length_eraseIdx_of_lt hlt]; omega) w hw
        simpa using hf

/-- **C473**: the vertices selected and the candidates left are those given; no selected vertex has loops, and each
is not attached and not close to those selected before it. -/
theorem C473_select (e : Env) (m : ℚ) (cs : List Cand) :
    ((select e m cs.length [] cs).1 ++ (select e m cs.length [] cs).2).Perm cs ∧
    (∀ v ∈ (select e m cs.length [] cs).1, ¬ Loops e v) ∧
    (select e m cs.length [] cs).1.Pairwise (fun u v => ¬ AttC e u v ∧ e.close u.fit v.fit = false) := by
  obtain ⟨new, h1, h2, h3, _⟩ := select_spec e m cs.length [] cs
  rw [List.nil_append] at h1
  rw [h1]
  refine ⟨h2, ?_, ?_⟩
  · intro v hv
    obtain ⟨a, b, rfl⟩ := List.append_of_mem hv
    exact (h3 a v b rfl).1.1
  · rw [List.pairwise_iff_getElem]
    intro i j hi hj hij
    have hs : new = new.take j ++ new[j] :: new.drop (j + 1) := by simp
    have := (h3 _ _ _ hs).1.2 (new[i]) (by
      rw [List.nil_append, List.mem_iff_getElem]
      exact ⟨i, by simp; omega, by simp⟩)
    exact this

/-- **C474**: each vertex is, when it is selected, not worse than any candidate that could be selected; and at the
end there is no candidate that could be selected and has a long track or a positive angle. -/
theorem C474_best (e : Env) (m : ℚ) (cs : List Cand) :
    (∀ a v b, (select e m cs.length [] cs).1 = a ++ v :: b →
      ∀ w ∈ b ++ (select e m cs.length [] cs).2, Free e a w → NotBetter e m v w) ∧
    ∀ w ∈ (select e m cs.length [] cs).2, Free e (select e m cs.length [] cs).1 w →
      nLong e (2 * m) w = 0 ∧ e.angle w.tr ≤ 0 := by
  obtain ⟨new, h1, _, h3, h4⟩ := select_spec e m cs.length [] cs
  rw [List.nil_append] at h1
  rw [h1]
  refine ⟨fun a v b h => ?_, ?_⟩
  · have := (h3 a v b h).2
    simpa using this
  · have := h4 (le_refl _)
    simpa using this

example : select demo 1 3 [] [⟨[(1, 0), (2, 0)], []⟩, ⟨[(2, 0), (3, 0), (4, 0)], []⟩, ⟨[(5, 0), (6, 0)], []⟩] =
    ([⟨[(2, 0), (3, 0), (4, 0)], []⟩, ⟨[(5, 0), (6, 0)], []⟩], [⟨[(1, 0), (2, 0)], []⟩]) := by decide +kernel

/-! ### The sorting of tracks -/

/-- Specification: the tracks without time and cosmic flag that are long: longer than the limit, or than twice the
limit if they are like a shower. -/
def Long (m : ℚ) (t : Trk) : Prop := t.len > (if t.em then 2 * m else m)

instance (m : ℚ) (t : Trk) : Decidable (Long m t) := by unfold Long; infer_instance

theorem sort_eq (m : ℚ) (ts : List Trk) : sortTracks m ts =
    { out := ts.filter (fun t => !t.t0 && !t.cosmic && decide (Long m t))
      em := ts.filter (fun t => !t.t0 && !t.cosmic && !decide (Long m t))
      exc := ts.filter (fun t => t.t0 || t.cosmic) } := by
  unfold sortTracks
  induction ts using List.reverseRecOn with
  | nil => rfl
  | append_singleton l t ih =>
    rw [List.foldl_append, List.foldl_cons, List.foldl_nil, ih]
    simp only [List.filter_append]
    unfold Long
    cases h0 : t.t0 <;> cases h1 : t.cosmic <;> cases h2 : t.em <;>
      simp only [h0, h1, h2, Bool.or_self, Bool.or_true, Bool.true_or, Bool.false_eq_true, if_false, if_true,
        List.filter_cons, List.filter_nil, Bool.not_true, Bool.not_false, Bool.and_true, Bool.true_and,
        Bool.false_and, Bool.and_false, List.append_nil, decide_eq_true_eq] <;>
      split <;> simp_all

/-- **C475**: if no vertex is found, the tracks that are returned are those given: first the long ones, then the
others, then those with a time or the cosmic flag, each in the order given. -/
theorem C475_sort (m : ℚ) (ts : List Trk) :
    (collect (sortTracks m ts)).Perm ts ∧
    collect (sortTracks m ts) =
      ts.filter (fun t => t.t0 = false ∧ t.cosmic = false ∧ Long m t) ++
      ts.filter (fun t => t.t0 = false ∧ t.cosmic = false ∧ ¬ Long m t) ++
      ts.filter (fun t => t.t0 = true ∨ t.cosmic = true) := by
  have h2 : collect (sortTracks m ts) =
      ts.filter (fun t => t.t0 = false ∧ t.cosmic = false ∧ Long m t) ++
      ts.filter (fun t => t.t0 = false ∧ t.cosmic = false ∧ ¬ Long m t) ++
      ts.filter (fun t => t.t0 = true ∨ t.cosmic = true) := by
    rw [sort_eq]
    unfold collect
    simp only [List.append_nil]
    congr 1
    · congr 1 <;> apply List.filter_congr <;> intro t _ <;> cases t.t0 <;> cases t.cosmic <;> simp
    · apply List.filter_congr; intro t _; cases t.t0 <;> cases t.cosmic <;> simp
  refine ⟨?_, h2⟩
  rw [h2]
  clear h2
  induction ts with
  | nil => simp
  | cons t l ih =>
    by_cases hx : t.t0 = true ∨ t.cosmic = true
    · have a1 : ¬ (t.t0 = false ∧ t.cosmic = false ∧ Long m t) := by
        rintro ⟨p, q, _⟩; rcases hx with h | h <;> simp_all
      have a2 : ¬ (t.t0 = false ∧ t.cosmic = false ∧ ¬ Long m t) := by
        rintro ⟨p, q, _⟩; rcases hx with h | h <;> simp_all
      rw [List.filter_cons_of_neg (by simpa using a1), List.filter_cons_of_neg (by simpa using a2),
        List.filter_cons_of_pos (by simpa using hx)]
      exact List.perm_middle.trans (ih.cons t)
    · have h0 : t.t0 = false ∧ t.cosmic = false := by
        push Not at hx; simpa using hx
      by_cases hl : Long m t
      · rw [List.filter_cons_of_pos (by simp [h0, hl]), List.filter_cons_of_neg (by simp [h0, hl]),
          List.filter_cons_of_neg (by simp [h0])]
        exact ih.cons t
      · rw [List.filter_cons_of_neg (by simp [h0, hl]), List.filter_cons_of_pos (by simp [h0, hl]),
          List.filter_cons_of_neg (by simp [h0]), List.append_assoc, List.cons_append]
        refine List.perm_middle.trans (List.Perm.cons t ?_)
        rw [← List.append_assoc]
        exact ih

example : collect (sortTracks 2 [⟨0, true, false, false, 9⟩, ⟨1, false, false, true, 3⟩, ⟨2, false, false, false, 3⟩]) =
    [⟨2, false, false, false, 3⟩, ⟨1, false, false, true, 3⟩, ⟨0, true, false, false, 9⟩] := by decide +kernel

end Verif.PmaVtx

import Verif.Cheat.Model
import Mathlib.Tactic.Linarith
import Mathlib.Data.List.Induction
import Mathlib.Algebra.Order.Group.Abs

namespace Verif.Cheat

theorem addKey_spec (t i : ℕ) (m : List (ℕ × List ℕ)) (h : m.Pairwise (fun a b => a.1 < b.1)) :
    (addKey t i m).Pairwise (fun a b => a.1 < b.1) ∧
    ∀ k l, (k, l) ∈ addKey t i m ↔ (k ≠ t ∧ (k, l) ∈ m) ∨
      (k = t ∧ ((∃ l0, (t, l0) ∈ m ∧ l = l0 ++ [i]) ∨ ((∀ l0, (t, l0) ∉ m) ∧ l = [i]))) := by
  induction m with
  | nil => simp [addKey]
  | cons a m ih =>
    obtain ⟨ka, la⟩ := a
    rw [List.pairwise_cons] at h
    obtain ⟨h1, h2⟩ := h
    obtain ⟨i1, i2⟩ := ih h2
    rw [addKey]
    by_cases c1 : t < ka
    · rw [if_pos c1]
      have hno : ∀ l0, (t, l0) ∉ (ka, la) :: m := by
        intro l0 hm
        rcases List.mem_cons.1 hm with hm | hm
        · simp only [Prod.mk.injEq] at hm; omega
        · have := h1 _ hm; simp only at this; omega
      refine ⟨List.pairwise_cons.2 ⟨fun a ha => ?_, List.pairwise_cons.2 ⟨h1, h2⟩⟩, fun k l => ?_⟩
      · rcases List.mem_cons.1 ha with rfl | ha
        · exact c1
        · have := h1 a ha; simp only at this ⊢; omega
      · rw [List.mem_cons]
        constructor
        · rintro (hh | hh)
          · simp only [Prod.mk.injEq] at hh
            exact Or.inr ⟨hh.1, Or.inr ⟨hno, hh.2⟩⟩
          · refine Or.inl ⟨?_, hh⟩
            rintro rfl; exact hno l hh
        · rintro (⟨_, hh⟩ | ⟨rfl, ⟨l0, hh, _⟩ | ⟨_, rfl⟩⟩)
          · exact Or.inr hh
          · exact absurd hh (hno l0)
          · exact Or.inl rfl
    · rw [if_neg c1]
      by_cases c2 : ka < t
      · rw [if_pos c2]
        refine ⟨List.pairwise_cons.2 ⟨fun a ha => ?_, i1⟩, fun k l => ?_⟩
        · obtain ⟨k, l⟩ := a
          rcases (i2 k l).1 ha with ⟨_, hm⟩ | ⟨rfl, _⟩
          · exact h1 _ hm
          · exact c2
        · rw [List.mem_cons, i2]
          constructor
          · rintro (hh | ⟨hk, hh⟩ | ⟨rfl, ⟨l0, hh, e⟩ | ⟨hh, e⟩⟩)
            · simp only [Prod.mk.injEq] at hh
              exact Or.inl ⟨by omega, by simp [hh.1, hh.2]⟩
            · exact Or.inl ⟨hk, List.mem_cons_of_mem _ hh⟩
            · exact Or.inr ⟨rfl, Or.inl ⟨l0, List.mem_cons_of_mem _ hh, e⟩⟩
            · refine Or.inr ⟨rfl, Or.inr ⟨fun l0 hm => ?_, e⟩⟩
              rcases List.mem_cons.1 hm with hm | hm
              · simp only [Prod.mk.injEq] at hm; omega
              · exact hh l0 hm
          · rintro (⟨hk, hh⟩ | ⟨rfl, ⟨l0, hh, e⟩ | ⟨hh, e⟩⟩)
            · rcases List.mem_cons.1 hh with hh | hh
              · exact Or.inl hh
              · exact Or.inr (Or.inl ⟨hk, hh⟩)
            · rcases List.mem_cons.1 hh with hh | hh
              · simp only [Prod.mk.injEq] at hh; omega
              · exact Or.inr (Or.inr ⟨rfl, Or.inl ⟨l0, hh, e⟩⟩)
            · exact Or.inr (Or.inr ⟨rfl, Or.inr ⟨fun l0 hm => hh l0 (List.mem_cons_of_mem _ hm), e⟩⟩)
      · rw [if_neg c2]
        have hk : ka = t := by omega
        subst hk
        have hno : ∀ l0, (ka, l0) ∉ m := by
          intro l0 hm
          have := h1 _ hm; simp only at this; omega
        refine ⟨List.pairwise_cons.2 ⟨h1, h2⟩, fun k l => ?_⟩
        rw [List.mem_cons]
        constructor
        · rintro (hh | hh)
          · simp only [Prod.mk.injEq] at hh
            exact Or.inr ⟨hh.1, Or.inl ⟨la, by simp, hh.2⟩⟩
          · refine Or.inl ⟨?_, List.mem_cons_of_mem _ hh⟩
            rintro rfl; exact hno l hh
        · rintro (⟨hk, hh⟩ | ⟨rfl, ⟨l0, hh, e⟩ | ⟨hh, e⟩⟩)
          · rcases List.mem_cons.1 hh with hh | hh
            · simp only [Prod.mk.injEq] at hh; exact absurd hh.1 hk
            · exact Or.inr hh
          · rcases List.mem_cons.1 hh with hh | hh
            · simp only [Prod.mk.injEq] at hh
              rw [e, hh.2]; exact Or.inl rfl
            · exact absurd hh (hno l0)
          · exact absurd (by simp) (hh la)

/-- The positions of the entries with key `t`. -/
def idxs (t : ℕ) (l : List (ℕ × ℕ)) : List ℕ := l.filterMap (fun x => if x.1 = t then some x.2 else none)

/-- A map filled with the positions by key. -/
theorem group_spec (l : List (ℕ × ℕ)) :
    let m := l.foldl (fun m x => addKey x.1 x.2 m) []
    m.Pairwise (fun a b => a.1 < b.1) ∧ ∀ k v, (k, v) ∈ m ↔ v = idxs k l ∧ v ≠ [] := by
  dsimp only
  induction l using List.reverseRecOn with
  | nil => simp [idxs]
  | append_singleton l x ih =>
    rw [List.foldl_append, List.foldl_cons, List.foldl_nil]
    obtain ⟨h1, h2⟩ := ih
    obtain ⟨a1, a2⟩ := addKey_spec x.1 x.2 _ h1
    refine ⟨a1, fun k v => ?_⟩
    rw [a2]
    have he : idxs k (l ++ [x]) = idxs k l ++ (if x.1 = k then [x.2] else []) := by
      unfold idxs
      rw [List.filterMap_append]
      by_cases hk : x.1 = k <;> simp [hk]
    rw [he]
    by_cases hk : k = x.1
    · subst hk
      simp only [ne_eq, not_true, false_and, false_or, true_and, if_true]
      constructor
      · rintro (⟨l0, hm, e⟩ | ⟨hm, e⟩)
        · have := ((h2 _ _).1 hm).1
          exact ⟨by rw [e, this], by rw [e]; simp⟩
        · have : idxs x.1 l = [] := by
            by_contra hc
            exact hm _ ((h2 _ _).2 ⟨rfl, hc⟩)
          exact ⟨by rw [e, this]; rfl, by rw [e]; simp⟩
      · rintro ⟨e, _⟩
        by_cases hc : idxs x.1 l = []
        · right
          refine ⟨fun l0 hm => ?_, by rw [e, hc]; rfl⟩
          have := (h2 _ _).1 hm
          exact this.2 (by rw [this.1]; exact hc)
        · exact Or.inl ⟨_, (h2 _ _).2 ⟨rfl, hc⟩, e⟩
    · have hk' : ¬ x.1 = k := fun h => hk h.symm
      simp only [ne_eq, hk, not_false_iff, true_and, false_and, or_false, hk', if_false, List.append_nil]
      exact h2 k v

theorem group_idx (ks : List ℕ) (t i : ℕ) : i ∈ idxs t ks.zipIdx ↔ ks[i]? = some t := by
  unfold idxs
  rw [List.mem_filterMap]
  constructor
  · rintro ⟨x, hx, h⟩
    rw [List.mem_zipIdx_iff_getElem?] at hx
    by_cases hc : x.1 = t
    · rw [if_pos hc] at h
      simp only [Option.some.injEq] at h
      rw [← h, hx, hc]
    · rw [if_neg hc] at h; simp at h
  · intro h
    exact ⟨(t, i), by rw [List.mem_zipIdx_iff_getElem?]; exact h, by simp⟩

theorem idxs_sorted (ks : List ℕ) (t n : ℕ) : (idxs t (ks.zipIdx n)).Pairwise (· < ·) := by
  unfold idxs
  rw [List.pairwise_filterMap, List.pairwise_iff_getElem]
  intro i j hi hj hij b hb b' hb'
  simp only [List.getElem_zipIdx] at hb hb'
  split at hb <;> split at hb' <;> simp at hb hb'
  omega

/-! ### `EventCheater` -/

/-- Specification: the truth of the last particle with the track number. -/
def LastTruth (parts : List (ℤ × ℕ)) (id : ℤ) (t : ℕ) : Prop :=
  ∃ a b, parts = a ++ (id, t) :: b ∧ ∀ p ∈ b, p.1 ≠ id

theorem truthOf_iff (parts : List (ℤ × ℕ)) (id : ℤ) (t : ℕ) :
    truthOf parts id = some t ↔ LastTruth parts id t := by
  unfold truthOf LastTruth
  induction parts using List.reverseRecOn generalizing t with
  | nil => simp
  | append_singleton l x ih =>
    rw [List.foldl_append, List.foldl_cons, List.foldl_nil]
    by_cases hx : x.1 = id
    · rw [if_pos hx]
      constructor
      · intro h
        simp only [Option.some.injEq] at h
        exact ⟨l, [], by rw [← hx, ← h], by simp⟩
      · rintro ⟨a, b, e, hb⟩
        rcases List.eq_nil_or_concat b with rfl | ⟨b', y, rfl⟩
        · have := List.append_inj_right' e (by simp)
          simp only [List.cons.injEq, and_true] at this
          rw [this]
        · rw [List.concat_eq_append, ← List.cons_append, ← List.append_assoc] at e
          have := List.append_inj_right' e (by simp)
          simp only [List.cons.injEq, and_true] at this
          exact absurd (this ▸ hx) (hb y (by simp))
    · rw [if_neg hx, ih]
      constructor
      · rintro ⟨a, b, e, hb⟩
        refine ⟨a, b ++ [x], by rw [e]; simp, fun p hp => ?_⟩
        rcases List.mem_append.1 hp with hp | hp
        · exact hb p hp
        · have : p = x := by simpa using hp
          rw [this]; exact hx
      · rintro ⟨a, b, e, hb⟩
        rcases List.eq_nil_or_concat b with rfl | ⟨b', y, rfl⟩
        · have := List.append_inj_right' e (by simp)
          simp only [List.cons.injEq, and_true] at this
          rw [this] at hx; exact absurd rfl hx
        · rw [List.concat_eq_append, ← List.cons_append, ← List.append_assoc] at e
          have h1 := List.append_inj_left' e (by simp)
          exact ⟨a, b', h1, fun p hp => hb p (by simp [hp])⟩

theorem vmap_spec (parts : List (ℤ × ℕ)) (verts : List (ℤ × ℕ)) (m0 : List (ℕ × List ℕ)) :
    verts.foldlM (fun m v => (truthOf parts v.1).map (fun t => addKey t v.2 m)) m0 =
      (verts.mapM (fun v => (truthOf parts v.1).map (fun t => (t, v.2)))).map
        (fun l => l.foldl (fun m x => addKey x.1 x.2 m) m0) := by
  induction verts generalizing m0 with
  | nil => rfl
  | cons v l ih =>
    rw [List.foldlM_cons, List.mapM_cons]
    cases h : truthOf parts v.1 with
    | none => rfl
    | some t =>
      simp only [Option.map_some, Option.bind_eq_bind, Option.bind_some]
      rw [ih]
      cases List.mapM (fun v => (truthOf parts v.1).map (fun t => (t, v.2))) l <;> rfl

theorem mapM_zip (parts : List (ℤ × ℕ)) (verts : List ℤ) (n : ℕ) :
    (verts.zipIdx n).mapM (fun v => (truthOf parts v.1).map (fun t => (t, v.2))) =
      (verts.mapM (truthOf parts)).map (fun l => l.zipIdx n) := by
  induction verts generalizing n with
  | nil => rfl
  | cons v l ih =>
    rw [List.zipIdx_cons, List.mapM_cons, List.mapM_cons, ih]
    cases truthOf parts v with
    | none => rfl
    | some t =>
      cases List.mapM (truthOf parts) l <;> rfl

theorem mapM_get {α β : Type} (f : α → Option β) (l : List α) :
    ((l.mapM f).isSome ↔ ∀ a ∈ l, (f a).isSome) ∧
    ∀ r, l.mapM f = some r → r.length = l.length ∧ ∀ (i : ℕ), r[i]? = (l[i]?).bind f := by
  induction l with
  | nil => 
    refine ⟨by simp, fun r h => ?_⟩
    simp at h; subst h; simp
  | cons a l ih =>
    rw [List.mapM_cons]
    cases h : f a with
    | none => simp [h]
    | some b =>
      cases hl : l.mapM f with
      | none =>
        rw [hl] at ih
        have := ih.1
        simp only [Option.isSome_none, Bool.false_eq_true, false_iff] at this
        refine ⟨?_, by simp⟩
        simp only [Option.bind_eq_bind, Option.bind_some, Option.bind_none, Option.isSome_none,
          Bool.false_eq_true, false_iff]
        intro hh
        exact this (fun x hx => hh x (by simp [hx]))
      | some r =>
        rw [hl] at ih
        have h1 := ih.1.1 rfl
        obtain ⟨h2, h3⟩ := ih.2 r rfl
        refine ⟨?_, fun r' hr' => ?_⟩
        · constructor
          · intro _ x hx
            rcases List.mem_cons.1 hx with rfl | hx
            · rw [h]; rfl
            · exact h1 x hx
          · intro _; rfl
        · have : r' = b :: r := by
            have : some (b :: r) = some r' := hr'
            simpa using this.symm
          subst this
          refine ⟨by simp [h2], fun i => ?_⟩
          cases i with
          | zero => simp [h]
          | succ i => simpa using h3 i

/-- **C454**: the event cheater succeeds exactly if each vertex has the number of a particle; then there is
one event for each truth of a vertex, in ascending order, with exactly the vertices of this truth, in order. -/
theorem C454_events (parts : List (ℤ × ℕ)) (verts : List ℤ) (fm : ℕ → List ℕ) :
    ((events parts verts fm).isSome ↔ ∀ v ∈ verts, ∃ t, LastTruth parts v t) ∧
    ∀ es, events parts verts fm = some es →
      ∃ ts : List ℕ, ts.Pairwise (· < ·) ∧ ts.length = es.length ∧
      (∀ t, t ∈ ts ↔ ∃ v ∈ verts, LastTruth parts v t) ∧
      ∀ (k t : ℕ) (e : Event), ts[k]? = some t → es[k]? = some e →
        e.verts.Pairwise (· < ·) ∧
        ∀ i, i ∈ e.verts ↔ ∃ v, verts[i]? = some v ∧ LastTruth parts v t := by
  have hs : ∀ v, (∃ t, LastTruth parts v t) ↔ (truthOf parts v).isSome := by
    intro v
    rw [Option.isSome_iff_exists]
    exact exists_congr (fun t => (truthOf_iff parts v t).symm)
  unfold events vertexMap
  rw [vmap_spec, mapM_zip]
  obtain ⟨q1, q2⟩ := mapM_get (truthOf parts) verts
  simp only [Option.isSome_map, hs]
  refine ⟨q1, fun es he => ?_⟩
  cases hk : verts.mapM (truthOf parts) with
  | none => rw [hk] at he; simp at he
  | some ks =>
    rw [hk] at he
    simp only [Option.map_some, Option.some.injEq] at he
    obtain ⟨l1, l2⟩ := q2 ks hk
    obtain ⟨g1, g2⟩ := group_spec ks.zipIdx
    generalize ks.zipIdx.foldl (fun m x => addKey x.1 x.2 m) [] = m at *
    have hkv : ∀ (i t : ℕ), ks[i]? = some t ↔ ∃ v, verts[i]? = some v ∧ LastTruth parts v t := by
      intro i t
      rw [l2]
      cases verts[i]? with
      | none => simp
      | some v => simp [truthOf_iff]
    refine ⟨m.map (·.1), ?_, ?_, fun t => ?_, fun k t e hk' he' => ?_⟩
    · rw [List.pairwise_map]; exact g1
    · rw [← he]; simp
    · constructor
      · intro ht
        rw [List.mem_map] at ht
        obtain ⟨⟨k, l⟩, hm, rfl⟩ := ht
        obtain ⟨e1, e2⟩ := (g2 k l).1 hm
        obtain ⟨i, hi⟩ := List.exists_mem_of_ne_nil l e2
        rw [e1, group_idx, hkv] at hi
        obtain ⟨v, hv, hl⟩ := hi
        exact ⟨v, List.mem_of_getElem? hv, hl⟩
      · rintro ⟨v, hv, hl⟩
        obtain ⟨i, hi⟩ := List.mem_iff_getElem?.1 hv
        have : i ∈ idxs t ks.zipIdx := by
          rw [group_idx, hkv]; exact ⟨v, hi, hl⟩
        rw [List.mem_map]
        exact ⟨(t, idxs t ks.zipIdx), (g2 _ _).2 ⟨rfl, List.ne_nil_of_mem this⟩, rfl⟩
    · rw [List.getElem?_map] at hk'
      cases hm : m[k]? with
      | none => rw [hm] at hk'; simp at hk'
      | some a =>
        rw [hm] at hk'
        simp only [Option.map_some, Option.some.injEq] at hk'
        rw [← he, List.getElem?_map, List.getElem?_zipIdx, hm] at he'
        simp only [Option.map_some, Option.some.injEq] at he'
        rw [← he']
        obtain ⟨e1, _⟩ := (g2 a.1 a.2).1 (List.mem_of_getElem? hm)
        have e2 : (mkEvent fm (a, 0 + k)).verts = idxs t ks.zipIdx := by
          rw [← hk']; exact e1
        rw [e2]
        exact ⟨idxs_sorted ks t 0, fun i => by rw [group_idx, hkv]⟩

/-- **C455**, counterexample: the events have no hits although their vertex has some; the first event has
number -1. -/
theorem C455_refuted : ∃ (parts : List (ℤ × ℕ)) (verts : List ℤ) (fm : ℕ → List ℕ),
    fm 0 = [7, 8] ∧ events parts verts fm = some [⟨-1, [0], []⟩] :=
  ⟨[(3, 0)], [3], fun _ => [7, 8], rfl, by decide +kernel⟩

/-- No event ever has hits, and their numbers start at -1. -/
theorem C455_never (parts : List (ℤ × ℕ)) (verts : List ℤ) (fm : ℕ → List ℕ) (es : List Event)
    (h : events parts verts fm = some es) (k : ℕ) (e : Event) (hk : es[k]? = some e) :
    e.hits = [] ∧ e.id = (k : ℤ) - 1 := by
  unfold events at h
  cases hm : vertexMap parts verts with
  | none => rw [hm] at h; simp at h
  | some m =>
    rw [hm] at h
    simp only [Option.map_some, Option.some.injEq] at h
    rw [← h, List.getElem?_map, List.getElem?_zipIdx] at hk
    cases ha : m[k]? with
    | none => rw [ha] at hk; simp at hk
    | some a =>
      rw [ha] at hk
      simp only [Option.map_some, Option.some.injEq] at hk
      rw [← hk]
      exact ⟨by simp [mkEvent], by simp [mkEvent]⟩

/-- Three vertices of two truths. -/
example : events [(3, 1), (4, 0), (5, 1)] [3, 4, 5] (fun _ => []) = some [⟨-1, [1], []⟩, ⟨0, [0, 2], []⟩] := by
  decide +kernel

/-! ### `DisambigCheater` -/

/-- Specification: the last hit of a list that is not in Z and has this channel and time. -/
def LastHit (hs : List Hit) (c : ℕ) (t : ℚ) (h : Hit) : Prop :=
  ∃ a b, hs = a ++ h :: b ∧ h.isZ = false ∧ h.chan = c ∧ h.time = t ∧
    ∀ x ∈ b, ¬ (x.isZ = false ∧ x.chan = c ∧ x.time = t)

theorem lookup_spec (cwids : ℕ → List Wid) (shift : ℕ → ℤ) (hs : List Hit) (c : ℕ) (t : ℚ) :
    (∃ h, LastHit hs c t h ∧ lookup cwids shift hs c t = widsOf cwids shift h) ∨
    ((∀ h ∈ hs, ¬ (h.isZ = false ∧ h.chan = c ∧ h.time = t)) ∧ lookup cwids shift hs c t = []) := by
  unfold lookup
  induction hs using List.reverseRecOn with
  | nil => right; simp
  | append_singleton l x ih =>
    rw [List.foldl_append, List.foldl_cons, List.foldl_nil]
    by_cases hx : x.isZ = false ∧ x.chan = c ∧ x.time = t
    · left
      refine ⟨x, ⟨l, [], rfl, hx.1, hx.2.1, hx.2.2, by simp⟩, ?_⟩
      rw [if_neg (by rw [hx.1]; simp), if_pos hx.2]
    · have e : (if x.isZ = true then l.foldl (fun m h => if h.isZ then m
          else if h.chan = c ∧ h.time = t then widsOf cwids shift h else m) []
          else if x.chan = c ∧ x.time = t then widsOf cwids shift x
          else l.foldl (fun m h => if h.isZ then m
            else if h.chan = c ∧ h.time = t then widsOf cwids shift h else m) []) =
          l.foldl (fun m h => if h.isZ then m
            else if h.chan = c ∧ h.time = t then widsOf cwids shift h else m) [] := by
        cases hz : x.isZ with
        | true => simp
        | false =>
          have : ¬ (x.chan = c ∧ x.time = t) := fun h => hx ⟨hz, h⟩
          simp [this]
      rw [e]
      rcases ih with ⟨h, ⟨a, b, e1, e2, e3, e4, e5⟩, e6⟩ | ⟨h1, h2⟩
      · left
        refine ⟨h, ⟨a, b ++ [x], by rw [e1]; simp, e2, e3, e4, fun y hy => ?_⟩, e6⟩
        rcases List.mem_append.1 hy with hy | hy
        · exact e5 y hy
        · have : y = x := by simpa using hy
          rw [this]; exact hx
      · right
        refine ⟨fun y hy => ?_, h2⟩
        rcases List.mem_append.1 hy with hy | hy
        · exact h1 y hy
        · have : y = x := by simpa using hy
          rw [this]; exact hx

/-- What is made of one hit. -/
def made (cwids : ℕ → List Wid) (shift : ℕ → ℤ) (hs : List Hit) (h : Hit) : Option Wid :=
  if h.isZ then (if h.wid.valid then some h.wid else none)
  else (lookup cwids shift hs h.chan h.time).head?.filter (·.valid)

theorem disambig_eq (cwids : ℕ → List Wid) (shift : ℕ → ℤ) (n : ℕ) (hs : List Hit) :
    (disambig cwids shift n hs).1 =
      hs.zipIdx.filterMap (fun x => (made cwids shift hs x.1).map (fun w => (x.2, w))) ∧
    (disambig cwids shift n hs).2 =
      n + (hs.filter (fun h => !h.isZ && (lookup cwids shift hs h.chan h.time).isEmpty)).length := by
  have key : ∀ (l : List (Hit × ℕ)) (o : List (ℕ × Wid) × ℕ),
      (l.foldl (makeStep cwids shift hs) o).1 =
        o.1 ++ l.filterMap (fun x => (made cwids shift hs x.1).map (fun w => (x.2, w))) ∧
      (l.foldl (makeStep cwids shift hs) o).2 = o.2 +
        ((l.map (·.1)).filter (fun h => !h.isZ && (lookup cwids shift hs h.chan h.time).isEmpty)).length := by
    intro l
    induction l with
    | nil => intro o; simp
    | cons x l ih =>
      intro o
      rw [List.foldl_cons]
      obtain ⟨h1, h2⟩ := ih (makeStep cwids shift hs o x)
      rw [h1, h2]
      unfold makeStep made
      cases hz : x.1.isZ with
      | true => cases hv : x.1.wid.valid <;> simp [hz, hv]
      | false =>
        cases hl : lookup cwids shift hs x.1.chan x.1.time with
        | nil => simp [hz, hl]; omega
        | cons w r => cases hv : w.valid <;> simp [hz, hl, hv]
  obtain ⟨h1, h2⟩ := key hs.zipIdx ([], n)
  unfold disambig
  rw [h1, h2]
  simp

/-- **C456**: the hits are made in the order of the input, at most one for each hit; a hit in Z keeps its
wire, and is left out if this is not valid. -/
theorem C456_order (cwids : ℕ → List Wid) (shift : ℕ → ℤ) (n : ℕ) (hs : List Hit) :
    ((disambig cwids shift n hs).1.map (·.1)).Pairwise (· < ·) ∧
    (∀ i w, (i, w) ∈ (disambig cwids shift n hs).1 → w.valid = true ∧ i < hs.length) ∧
    ∀ i h w, hs[i]? = some h → h.isZ = true →
      ((i, w) ∈ (disambig cwids shift n hs).1 ↔ w = h.wid ∧ h.wid.valid = true) := by
  rw [(disambig_eq cwids shift n hs).1]
  refine ⟨?_, fun i w hm => ?_, fun i h w hi hz => ?_⟩
  · rw [List.pairwise_map, List.pairwise_filterMap, List.pairwise_iff_getElem]
    intro i j hi hj hij b hb b' hb'
    simp only [List.getElem_zipIdx, Option.map_eq_some_iff] at hb hb'
    obtain ⟨w, _, rfl⟩ := hb
    obtain ⟨w', _, rfl⟩ := hb'
    simp only; omega
  · rw [List.mem_filterMap] at hm
    obtain ⟨x, hx, he⟩ := hm
    rw [List.mem_zipIdx_iff_getElem?] at hx
    simp only [Option.map_eq_some_iff, Prod.mk.injEq] at he
    obtain ⟨w', he, rfl, rfl⟩ := he
    refine ⟨?_, (List.getElem?_eq_some_iff.1 hx).1⟩
    unfold made at he
    split at he
    · split at he
      · rename_i hv; simp only [Option.some.injEq] at he; rw [← he]; exact hv
      · simp at he
    · simp only [Option.filter_eq_some_iff] at he
      exact he.2
  · rw [List.mem_filterMap]
    constructor
    · rintro ⟨x, hx, he⟩
      rw [List.mem_zipIdx_iff_getElem?] at hx
      simp only [Option.map_eq_some_iff, Prod.mk.injEq] at he
      obtain ⟨w', he, rfl, rfl⟩ := he
      rw [hi] at hx
      simp only [Option.some.injEq] at hx
      rw [← hx] at he
      unfold made at he
      rw [if_pos hz] at he
      by_cases hv : h.wid.valid = true
      · rw [if_pos hv] at he; simp only [Option.some.injEq] at he; exact ⟨he.symm, hv⟩
      · rw [if_neg hv] at he; simp at he
    · rintro ⟨rfl, hv⟩
      refine ⟨(h, i), by rw [List.mem_zipIdx_iff_getElem?]; exact hi, ?_⟩
      simp [made, hz, hv]

theorem wids_fold (cwids : ℕ → List Wid) (shift : ℕ → ℤ) (h : Hit) :
    ((widsOf cwids shift h).head? = (h.ides.head?).map (store (cwids h.chan) shift)) := by
  have : ∀ (l : List Ide) (a : List Wid), a ≠ [] → (l.foldl (fun l e =>
      let s := store (cwids h.chan) shift e
      if l.contains s then l else l ++ [s]) a).head? = a.head? := by
    intro l
    induction l with
    | nil => intro a _; rfl
    | cons e l ih =>
      intro a ha
      rw [List.foldl_cons]
      dsimp only
      by_cases hc : a.contains (store (cwids h.chan) shift e) = true
      · rw [if_pos hc]; exact ih a ha
      · rw [if_neg hc, ih _ (by simp)]
        cases a with
        | nil => exact absurd rfl ha
        | cons x a => rfl
  unfold widsOf
  cases h.ides with
  | nil => rfl
  | cons e l =>
    rw [List.foldl_cons, this _ _ (by simp)]
    rfl

/-- Specification of the wire of a deposit: the first wire of the channel in the TPC of the deposit that is
not farther from the nearest wire than allowed for the plane of the channel; or the nearest wire if there is
none. -/
def WireFor (cwids : List Wid) (shift : ℕ → ℤ) (e : Ide) (w : Wid) : Prop :=
  let ok := fun v : Wid => v.tpc = e.tpc ∧ v.cryo = e.cryo ∧
    |e.near.wire - v.wire| ≤ shift ((cwids.head?.map (·.plane)).getD 0)
  (∃ a b, cwids = a ++ w :: b ∧ ok w ∧ ∀ v ∈ a, ¬ ok v) ∨ ((∀ v ∈ cwids, ¬ ok v) ∧ w = e.near)

theorem store_iff (cwids : List Wid) (shift : ℕ → ℤ) (e : Ide) (w : Wid) :
    store cwids shift e = w → WireFor cwids shift e w := by
  unfold store WireFor
  dsimp only
  cases h : cwids.find? _ with
  | none =>
    intro hw
    rw [List.find?_eq_none] at h
    exact Or.inr ⟨fun v hv => by simpa using h v hv, hw.symm⟩
  | some v =>
    intro hw
    rw [List.find?_eq_some_iff_append] at h
    obtain ⟨h1, a, b, h2, h3⟩ := h
    refine Or.inl ⟨a, b, by rw [← hw]; exact h2, by rw [← hw]; simpa using h1, fun x hx => ?_⟩
    have := h3 x hx
    rintro ⟨a1, a2, a3⟩
    rw [Bool.not_eq_true', ← Bool.not_eq_true] at this
    exact this (by simp [a1, a2, a3])

theorem store_of {cwids : List Wid} {shift : ℕ → ℤ} {e : Ide} {w : Wid} (h : WireFor cwids shift e w) :
    store cwids shift e = w := by
  unfold store
  unfold WireFor at h
  dsimp only at h
  rcases h with ⟨a, b, hc, ho, hn⟩ | ⟨hn, hw⟩
  · have : cwids.find? (fun w => decide (w.tpc = e.tpc ∧ w.cryo = e.cryo ∧
        |e.near.wire - w.wire| ≤ shift ((cwids.head?.map (·.plane)).getD 0))) = some w := by
      rw [List.find?_eq_some_iff_append]
      refine ⟨by simpa using ho, a, b, hc, fun x hx => ?_⟩
      rw [Bool.not_eq_true', decide_eq_false_iff_not]
      exact hn x hx
    rw [this]
  · have : cwids.find? (fun w => decide (w.tpc = e.tpc ∧ w.cryo = e.cryo ∧
        |e.near.wire - w.wire| ≤ shift ((cwids.head?.map (·.plane)).getD 0))) = none := by
      rw [List.find?_eq_none]
      intro x hx
      rw [decide_eq_true_eq]
      exact hn x hx
    rw [this, hw]

theorem lastHit_unique {hs : List Hit} {c : ℕ} {t : ℚ} {g g' : Hit} (h : LastHit hs c t g)
    (h' : LastHit hs c t g') : g = g' := by
  have key : ∀ g, LastHit hs c t g →
      hs.reverse.find? (fun x => decide (x.isZ = false ∧ x.chan = c ∧ x.time = t)) = some g := by
    rintro g ⟨a, b, rfl, h1, h2, h3, h4⟩
    rw [List.find?_eq_some_iff_append]
    refine ⟨by simp [h1, h2, h3], b.reverse, a.reverse, by simp, fun x hx => ?_⟩
    rw [Bool.not_eq_true', decide_eq_false_iff_not]
    exact h4 x (List.mem_reverse.1 hx)
  have := (key g h).symm.trans (key g' h')
  simpa using this

/-- **C457**: a hit that is not in Z is made exactly if the last such hit of its channel and time has deposits
in a TPC and the wire of the first of them is valid; it gets this wire. -/
theorem C457_wire (cwids : ℕ → List Wid) (shift : ℕ → ℤ) (n : ℕ) (hs : List Hit) (i : ℕ) (h : Hit) (w : Wid)
    (hi : hs[i]? = some h) (hz : h.isZ = false) :
    (i, w) ∈ (disambig cwids shift n hs).1 ↔
      w.valid = true ∧ ∃ g e r, LastHit hs h.chan h.time g ∧ g.ides = e :: r ∧
        WireFor (cwids h.chan) shift e w := by
  constructor
  · intro hm
    refine ⟨((C456_order cwids shift n hs).2.1 i w hm).1, ?_⟩
    rw [(disambig_eq cwids shift n hs).1, List.mem_filterMap] at hm
    obtain ⟨x, hx, he⟩ := hm
    rw [List.mem_zipIdx_iff_getElem?] at hx
    simp only [Option.map_eq_some_iff, Prod.mk.injEq] at he
    obtain ⟨w', he, rfl, rfl⟩ := he
    rw [hi] at hx
    simp only [Option.some.injEq] at hx
    rw [← hx] at he
    unfold made at he
    rw [hz] at he
    simp only [Bool.false_eq_true, if_false, Option.filter_eq_some_iff] at he
    rcases lookup_spec cwids shift hs h.chan h.time with ⟨g, hg, hl⟩ | ⟨_, hl⟩
    · rw [hl, wids_fold] at he
      cases hid : g.ides with
      | nil => rw [hid] at he; simp at he
      | cons e r =>
        rw [hid] at he
        have hg' := hg
        obtain ⟨_, _, _, _, hc, _⟩ := hg'
        exact ⟨g, e, r, hg, hid, store_iff _ _ _ _ (by rw [← hc]; simpa using he.1)⟩
    · rw [hl] at he; simp at he
  · rintro ⟨hv, g, e, r, hg, hid, hw⟩
    rw [(disambig_eq cwids shift n hs).1, List.mem_filterMap]
    refine ⟨(h, i), List.mem_zipIdx_iff_getElem?.2 hi, ?_⟩
    have : made cwids shift hs h = some w := by
      unfold made
      rw [hz]
      simp only [Bool.false_eq_true, if_false]
      rcases lookup_spec cwids shift hs h.chan h.time with ⟨g', hg', hl⟩ | ⟨hno, _⟩
      · obtain rfl := lastHit_unique hg' hg
        have hg2 := hg
        obtain ⟨_, _, _, _, hc, _⟩ := hg2
        rw [hl, wids_fold, hid, List.head?_cons, Option.map_some, hc, store_of hw]
        simp [hv]
      · obtain ⟨a, b, rfl, h1, h2, h3, _⟩ := hg
        exact absurd ⟨h1, h2, h3⟩ (hno g (by simp))
    rw [this]
    rfl

/-- **C457**: the hits counted as not made are those, not in Z, for which the last such hit of their channel and
time has no deposits in a TPC. -/
theorem C457_count (cwids : ℕ → List Wid) (shift : ℕ → ℤ) (n : ℕ) (hs : List Hit) (bad : Hit → Bool)
    (hb : ∀ h ∈ hs, bad h = true ↔ h.isZ = false ∧ ∃ g, LastHit hs h.chan h.time g ∧ g.ides = []) :
    (disambig cwids shift n hs).2 = n + (hs.filter bad).length := by
  rw [(disambig_eq cwids shift n hs).2]
  congr 2
  apply List.filter_congr
  intro h hh
  rw [Bool.eq_iff_iff, hb h hh, Bool.and_eq_true, Bool.not_eq_true', List.isEmpty_iff]
  apply and_congr_right
  intro hz
  rcases lookup_spec cwids shift hs h.chan h.time with ⟨g, hg, hl⟩ | ⟨hno, _⟩
  · rw [hl, ← List.head?_eq_none_iff, wids_fold, Option.map_eq_none_iff, List.head?_eq_none_iff]
    exact ⟨fun h => ⟨g, hg, h⟩, fun ⟨g', h1, h2⟩ => by rw [lastHit_unique hg h1]; exact h2⟩
  · exact absurd ⟨hz, rfl, rfl⟩ (hno h hh)

/-- The hypotheses of `C457_wire` and `C457_count` can be met: the second hit has no deposits. -/
example : disambig (fun _ => [⟨0, 0, 0, 5, true⟩]) (fun _ => 1) 4
      [⟨false, ⟨0, 0, 0, 5, true⟩, 3, 10, [⟨0, 0, ⟨0, 0, 0, 6, true⟩⟩]⟩, ⟨false, ⟨0, 0, 0, 5, true⟩, 3, 11, []⟩] =
    ([(0, ⟨0, 0, 0, 5, true⟩)], 5) := by decide +kernel

/-- **C458**, counterexample: the wire of the hit is not one of its channel. -/
theorem C458_refuted : ∃ (cwids : ℕ → List Wid) (shift : ℕ → ℤ) (hs : List Hit) (w : Wid),
    disambig cwids shift 0 hs = ([(0, w)], 0) ∧ ∀ h ∈ hs, w ∉ cwids h.chan :=
  ⟨fun _ => [⟨0, 0, 0, 5, true⟩], fun _ => 1, [⟨false, ⟨0, 0, 0, 5, true⟩, 3, 10, [⟨1, 0, ⟨1, 0, 0, 77, true⟩⟩]⟩],
    ⟨1, 0, 0, 77, true⟩, by decide +kernel, by decide +kernel⟩

/-- **C458**, counterexample: two hits of one channel and time, the second without deposits: none is made. -/
theorem C458_refuted_key : ∃ (cwids : ℕ → List Wid) (shift : ℕ → ℤ) (h g : Hit),
    (disambig cwids shift 0 [h]).1 = [(0, ⟨0, 0, 0, 5, true⟩)] ∧ disambig cwids shift 0 [h, g] = ([], 2) :=
  ⟨fun _ => [⟨0, 0, 0, 5, true⟩], fun _ => 1, ⟨false, ⟨0, 0, 0, 5, true⟩, 3, 10, [⟨0, 0, ⟨0, 0, 0, 6, true⟩⟩]⟩,
    ⟨false, ⟨0, 0, 0, 5, true⟩, 3, 10, []⟩, by decide +kernel, by decide +kernel⟩

/-! ### `DBcluster` -/

theorem plane_fold (scan : List ℕ → ℕ × List ℕ) (o : List Clus) (p : ℕ × List ℕ) (N : ℕ) :
    ∃ q : List (List ℕ), ((List.range N).foldl (fun o i =>
      let hs := (p.2.zip (scan p.2).2).filterMap (fun x => if x.2 = i then some x.1 else none)
      if hs = [] then o else o ++ [⟨o.length, p.1, hs⟩]) o) =
        o ++ (q.zipIdx o.length).map (fun x => (⟨x.2, p.1, x.1⟩ : Clus)) ∧
      q = ((List.range N).map (fun i =>
        (p.2.zip (scan p.2).2).filterMap (fun x => if x.2 = i then some x.1 else none))).filter (· ≠ []) := by
  induction N with
  | zero => exact ⟨[], by simp, by simp⟩
  | succ N ih =>
    obtain ⟨q, h1, h2⟩ := ih
    rw [List.range_succ, List.foldl_append, h1, List.foldl_cons, List.foldl_nil]
    dsimp only
    generalize hhs : (p.2.zip (scan p.2).2).filterMap (fun x => if x.2 = N then some x.1 else none) = hs
    by_cases hn : hs = []
    · rw [if_pos hn]
      refine ⟨q, rfl, ?_⟩
      rw [List.map_append, List.filter_append, ← h2, List.map_cons, hhs]
      simp [hn]
    · rw [if_neg hn]
      refine ⟨q ++ [hs], ?_, ?_⟩
      · rw [List.zipIdx_append, List.map_append, List.append_assoc]
        simp
      · rw [List.map_append, List.filter_append, ← h2, List.map_cons, hhs]
        simp [hn]

/-- Specification: the hits of a plane, in order, with the cluster that the scan of the plane gives them. -/
def labelled (scan : List ℕ → ℕ × List ℕ) (planes : List ℕ) (p : ℕ) : List (ℕ × ℕ) :=
  let hs := (List.range planes.length).filter (fun i => planes[i]? = some p)
  hs.zip (scan hs).2

/-- All the groups of hits of one plane and cluster that are not empty. -/
def groups (scan : List ℕ → ℕ × List ℕ) (p : ℕ × List ℕ) : List (ℕ × List ℕ) :=
  (((List.range (scan p.2).1).map (fun i =>
    (p.2.zip (scan p.2).2).filterMap (fun x => if x.2 = i then some x.1 else none))).filter (· ≠ [])).map
      (fun l => (p.1, l))

theorem db_eq (scan : List ℕ → ℕ × List ℕ) (m : List (ℕ × List ℕ)) (o : List Clus) :
    m.foldl (planeClus scan) o = o ++ ((m.flatMap (groups scan)).zipIdx o.length).map
      (fun x => (⟨x.2, x.1.1, x.1.2⟩ : Clus)) := by
  induction m generalizing o with
  | nil => simp
  | cons p m ih =>
    rw [List.foldl_cons, ih]
    obtain ⟨q, h1, h2⟩ := plane_fold scan o p (scan p.2).1
    have e : planeClus scan o p = o ++ (q.zipIdx o.length).map (fun x => (⟨x.2, p.1, x.1⟩ : Clus)) := h1
    have eg : groups scan p = q.map (fun l => (p.1, l)) := by rw [h2]; rfl
    rw [e, List.flatMap_cons, List.zipIdx_append, List.map_append, List.append_assoc, eg]
    congr 1
    congr 1
    · rw [List.zipIdx_map, List.map_map]; rfl
    · simp

theorem idxs_range (planes : List ℕ) (p : ℕ) :
    idxs p planes.zipIdx = (List.range planes.length).filter (fun i => planes[i]? = some p) := by
  have h1 := idxs_sorted planes p 0
  have h2 : ((List.range planes.length).filter (fun i => planes[i]? = some p)).Pairwise (· < ·) :=
    List.Pairwise.filter _ List.pairwise_lt_range
  refine List.Perm.eq_of_pairwise (le := (· < ·)) (fun a b _ _ x y => absurd x (lt_asymm y)) h1 h2
    ((List.perm_ext_iff_of_nodup (h1.imp ne_of_lt) (h2.imp ne_of_lt)).2 ?_)
  · intro i
    rw [group_idx, List.mem_filter, List.mem_range]
    constructor
    · intro h
      exact ⟨(List.getElem?_eq_some_iff.1 h).1, by simpa using h⟩
    · rintro ⟨_, h⟩; simpa using h

/-- **C459**: the clusters written are, for each plane with hits and each cluster number of its scan that has
hits, the hits with this number in order; they are numbered by their position. -/
theorem C459_clusters (scan : List ℕ → ℕ × List ℕ) (planes : List ℕ) :
    (∀ (k : ℕ) (c : Clus), (dbcluster scan planes)[k]? = some c → c.id = k) ∧
    (∀ p l, (∃ c ∈ dbcluster scan planes, c.plane = p ∧ c.hits = l) ↔
      l ≠ [] ∧ ∃ i < (scan ((List.range planes.length).filter (fun i => planes[i]? = some p))).1,
        l = (labelled scan planes p).filterMap (fun x => if x.2 = i then some x.1 else none)) := by
  unfold dbcluster
  obtain ⟨g1, g2⟩ := group_spec planes.zipIdx
  generalize planes.zipIdx.foldl (fun m x => addKey x.1 x.2 m) [] = m at *
  rw [db_eq, List.nil_append]
  constructor
  · intro k c hc
    rw [List.getElem?_map, List.getElem?_zipIdx] at hc
    cases h : (m.flatMap (groups scan))[k]? with
    | none => rw [h] at hc; simp at hc
    | some a => rw [h] at hc; simp at hc; rw [← hc]
  · intro p l
    have hmem : (∃ c ∈ ((m.flatMap (groups scan)).zipIdx ([] : List Clus).length).map
        (fun x => (⟨x.2, x.1.1, x.1.2⟩ : Clus)), c.plane = p ∧ c.hits = l) ↔ (p, l) ∈ m.flatMap (groups scan) := by
      constructor
      · rintro ⟨c, hc, rfl, rfl⟩
        rw [List.mem_map] at hc
        obtain ⟨x, hx, rfl⟩ := hc
        rw [List.length_nil, List.mem_zipIdx_iff_getElem?] at hx
        exact List.mem_of_getElem? hx
      · intro h
        obtain ⟨i, hi⟩ := List.mem_iff_getElem?.1 h
        refine ⟨⟨i, p, l⟩, ?_, rfl, rfl⟩
        rw [List.mem_map]
        exact ⟨((p, l), i), by rw [List.length_nil, List.mem_zipIdx_iff_getElem?]; exact hi, rfl⟩
    rw [hmem, List.mem_flatMap]
    constructor
    · rintro ⟨⟨p', hs⟩, hp, hg⟩
      unfold groups at hg
      rw [List.mem_map] at hg
      obtain ⟨l', hl', e⟩ := hg
      simp only [Prod.mk.injEq] at e
      obtain ⟨rfl, rfl⟩ := e
      rw [List.mem_filter, List.mem_map] at hl'
      obtain ⟨⟨i, hi, e⟩, hne⟩ := hl'
      obtain ⟨e1, _⟩ := (g2 p' hs).1 hp
      rw [idxs_range] at e1
      rw [List.mem_range] at hi
      refine ⟨by simpa using hne, i, by rw [← e1]; exact hi, ?_⟩
      unfold labelled
      dsimp only
      rw [← e1]; exact e.symm
    · rintro ⟨hne, i, hi, e⟩
      refine ⟨(p, (List.range planes.length).filter (fun i => planes[i]? = some p)), ?_, ?_⟩
      · rw [g2, idxs_range]
        refine ⟨rfl, fun hc => hne ?_⟩
        rw [e]
        unfold labelled
        dsimp only
        rw [hc]; rfl
      · unfold groups
        rw [List.mem_map]
        refine ⟨l, ?_, rfl⟩
        rw [List.mem_filter, List.mem_map]
        exact ⟨⟨i, List.mem_range.2 hi, e.symm⟩, by simpa using hne⟩

/-- Two planes; in plane 1 the second of three clusters has no hits. -/
example : dbcluster (fun l => (3, l.map (fun i => if i = 0 then 2 else 0))) [1, 0, 1, 1] =
    [⟨0, 0, [1]⟩, ⟨1, 1, [2, 3]⟩, ⟨2, 1, [0]⟩] := by decide +kernel

end Verif.Cheat

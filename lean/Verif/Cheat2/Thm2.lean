import Verif.Cheat2.Model
import Mathlib.Data.List.Induction
import Mathlib.Tactic.Linarith
import Mathlib.Data.List.Range

/-!
# Properties C487-C492
-/

namespace Verif.Cheat2

theorem addKey_spec (t : ℤ) (i : ℕ) (m : List (ℤ × List ℕ)) (h : m.Pairwise (fun a b => a.1 < b.1)) :
    (addKey t i m).Pairwise (fun a b => a.1 < b.1) ∧
    ∀ k l, (k, l) ∈ addKey t i m ↔ (k ≠ t ∧ (k, l) ∈ m) ∨
      (k = t ∧ ((∃ l0, (t, l0) ∈ m ∧ l = l0 ++ [i]) ∨ ((∀ l0, (t, l0) ∉ m) ∧ l = [i]))) := by
  induction m with
  | nil => simp [addKey]
  | cons a m ih =>
    obtain ⟨ka, la⟩ := a
    rw [List.pairwise_cons] at h
    obtain ⟨h1, h2⟩ := h
    obtain ⟨i1, i2⟩ := ih h2
    rw [addKey]
    by_cases c1 : t < ka
    · rw [if_pos c1]
      have hno : ∀ l0, (t, l0) ∉ (ka, la) :: m := by
        intro l0 hm
        rcases List.mem_cons.1 hm with hm | hm
        · simp only [Prod.mk.injEq] at hm; omega
        · have := h1 _ hm; simp only at this; omega
      refine ⟨List.pairwise_cons.2 ⟨fun a ha => ?_, List.pairwise_cons.2 ⟨h1, h2⟩⟩, fun k l => ?_⟩
      · rcases List.mem_cons.1 ha with rfl | ha
        · exact c1
        · have := h1 a ha; simp only at this ⊢; omega
      · rw [List.mem_cons]
        constructor
        · rintro (hh | hh)
          · simp only [Prod.mk.injEq] at hh
            exact Or.inr ⟨hh.1, Or.inr ⟨hno, hh.2⟩⟩
          · refine Or.inl ⟨?_, hh⟩
            rintro rfl; exact hno l hh
        · rintro (⟨_, hh⟩ | ⟨rfl, ⟨l0, hh, _⟩ | ⟨_, rfl⟩⟩)
          · exact Or.inr hh
          · exact absurd hh (hno l0)
          · exact Or.inl rfl
    · rw [if_neg c1]
      by_cases c2 : ka < t
      · rw [if_pos c2]
        refine ⟨List.pairwise_cons.2 ⟨fun a ha => ?_, i1⟩, fun k l => ?_⟩
        · obtain ⟨k, l⟩ := a
          rcases (i2 k l).1 ha with ⟨_, hm⟩ | ⟨rfl, _⟩
          · exact h1 _ hm
          · exact c2
        · rw [List.mem_cons, i2]
          constructor
          · rintro (hh | ⟨hk, hh⟩ | ⟨rfl, ⟨l0, hh, e⟩ | ⟨hh, e⟩⟩)
            · simp only [Prod.mk.injEq] at hh
              exact Or.inl ⟨by omega, by simp [hh.1, hh.2]⟩
            · exact Or.inl ⟨hk, List.mem_cons_of_mem _ hh⟩
            · exact Or.inr ⟨rfl, Or.inl ⟨l0, List.mem_cons_of_mem _ hh, e⟩⟩
            · refine Or.inr ⟨rfl, Or.inr ⟨fun l0 hm => ?_, e⟩⟩
              rcases List.mem_cons.1 hm with hm | hm
              · simp only [Prod.mk.injEq] at hm; omega
              · exact hh l0 hm
          · rintro (⟨hk, hh⟩ | ⟨rfl, ⟨l0, hh, e⟩ | ⟨hh, e⟩⟩)
            · rcases List.mem_cons.1 hh with hh | hh
              · exact Or.inl hh
              · exact Or.inr (Or.inl ⟨hk, hh⟩)
            · rcases List.mem_cons.1 hh with hh | hh
              · simp only [Prod.mk.injEq] at hh; omega
              · exact Or.inr (Or.inr ⟨rfl, Or.inl ⟨l0, hh, e⟩⟩)
            · exact Or.inr (Or.inr ⟨rfl, Or.inr ⟨fun l0 hm => hh l0 (List.mem_cons_of_mem _ hm), e⟩⟩)
      · rw [if_neg c2]
        have hk : ka = t := by omega
        subst hk
        have hno : ∀ l0, (ka, l0) ∉ m := by
          intro l0 hm
          have := h1 _ hm; simp only at this; omega
        refine ⟨List.pairwise_cons.2 ⟨h1, h2⟩, fun k l => ?_⟩
        rw [List.mem_cons]
        constructor
        · rintro (hh | hh)
          · simp only [Prod.mk.injEq] at hh
            exact Or.inr ⟨hh.1, Or.inl ⟨la, by simp, hh.2⟩⟩
          · refine Or.inl ⟨?_, List.mem_cons_of_mem _ hh⟩
            rintro rfl; exact hno l hh
        · rintro (⟨hk, hh⟩ | ⟨rfl, ⟨l0, hh, e⟩ | ⟨hh, e⟩⟩)
          · rcases List.mem_cons.1 hh with hh | hh
            · simp only [Prod.mk.injEq] at hh; exact absurd hh.1 hk
            · exact Or.inr hh
          · rcases List.mem_cons.1 hh with hh | hh
            · simp only [Prod.mk.injEq] at hh
              rw [e, hh.2]; exact Or.inl rfl
            · exact absurd hh (hno l0)
          · exact absurd (by simp) (hh la)

/-- Specification: the clusters of a particle, in order. -/
def clustersOf (ids : List ℤ) (e : ℤ) : List ℕ :=
  (List.range ids.length).filter (fun c => (ids[c]?).any (fun id => id / 1000 = e))

theorem clustersOf_snoc (ids : List ℤ) (id e : ℤ) :
    clustersOf (ids ++ [id]) e = clustersOf ids e ++ (if id / 1000 = e then [ids.length] else []) := by
  unfold clustersOf
  rw [List.length_append, List.length_singleton, List.range_succ, List.filter_append]
  congr 1
  · apply List.filter_congr
    intro c hc
    rw [List.getElem?_append_left (List.mem_range.1 hc)]
  · by_cases h : id / 1000 = e <;> simp [h]

/-- **C487**: the particles that have clusters, in ascending order, each with its clusters in order. -/
theorem C487_particles (ids : List ℤ) :
    (eveMap ids).Pairwise (fun a b => a.1 < b.1) ∧
    ∀ k l, (k, l) ∈ eveMap ids ↔ l = clustersOf ids k ∧ l ≠ [] := by
  induction ids using List.reverseRecOn with
  | nil => simp [eveMap, clustersOf]
  | append_singleton ids a ih =>
    have hs : eveMap (ids ++ [a]) = addKey (a / 1000) ids.length (eveMap ids) := by
      unfold eveMap
      rw [List.zipIdx_append, List.foldl_append]
      simp [eveID]
    obtain ⟨i1, i2⟩ := ih
    obtain ⟨k1, k2⟩ := addKey_spec (a / 1000) ids.length (eveMap ids) i1
    rw [hs]
    refine ⟨k1, fun k l => ?_⟩
    rw [k2, i2, clustersOf_snoc]
    by_cases hk : k = a / 1000
    · subst hk
      simp only [ne_eq, not_true, false_and, true_and, false_or, if_true, i2]
      constructor
      · rintro (⟨l0, ⟨rfl, _⟩, rfl⟩ | ⟨h, rfl⟩)
        · simp
        · have : clustersOf ids (a / 1000) = [] := by
            by_contra hc
            exact h _ ⟨rfl, hc⟩
          rw [this]; simp
      · rintro ⟨rfl, _⟩
        by_cases hc : clustersOf ids (a / 1000) = []
        · right
          rw [hc]
          refine ⟨?_, by simp⟩
          rintro l0 ⟨rfl, h⟩
          exact h rfl
        · exact Or.inl ⟨_, ⟨rfl, hc⟩, rfl⟩
    · have hk' : ¬ a / 1000 = k := fun h => hk h.symm
      simp [hk, hk']

example : eveMap [7001, 3000, 7110] = [(3, [1]), (7, [0, 2])] := by decide

/-! ### Showers -/

/-- Specification: an electron, a photon or a neutral pion. -/
def EM (pdg : ℤ) : Prop := pdg = 11 ∨ pdg = -11 ∨ pdg = 22 ∨ pdg = -22 ∨ pdg = 111 ∨ pdg = -111

theorem isEM_iff (pdg : ℤ) : isEM pdg = true ↔ EM pdg := by
  unfold isEM EM
  simp only [Bool.or_eq_true, beq_iff_eq]
  omega

theorem addSp_fold (id : ℤ) (xs : List (ℕ × ℕ)) (o : ShwOut) :
    (xs.foldl (addSp id) o).shws = o.shws ∧ (xs.foldl (addSp id) o).sc = o.sc ∧
    (xs.foldl (addSp id) o).sh = o.sh ∧ (xs.foldl (addSp id) o).ssp = o.ssp ∧
    (xs.foldl (addSp id) o).sps = o.sps ++ xs.map (fun x => id * 10000 + (x.2 : ℤ)) ∧
    (xs.foldl (addSp id) o).hsp = o.hsp ++ (xs.zipIdx o.sps.length).map (fun x => (x.1.1, x.2)) := by
  induction xs generalizing o with
  | nil => simp
  | cons x r ih =>
    rw [List.foldl_cons]
    obtain ⟨h1, h2, h3, h4, h5, h6⟩ := ih (addSp id o x)
    rw [h1, h2, h3, h4, h5, h6]
    simp [addSp, List.zipIdx_cons]

/-- Specification: the numbers of the space points of a cluster: its number, times 10000, and the index of the hit. -/
def spNumbers (ids : List ℤ) (hits : List (List ℕ)) (c : ℕ) : List ℤ :=
  (List.range (hits[c]?.getD []).length).map (fun i : ℕ => ids[c]?.getD 0 * 10000 + (i : ℤ))

theorem zipIdx_snd {α : Type} (l : List α) (f : ℕ → ℤ) : l.zipIdx.map (fun x => f x.2) = (List.range l.length).map f := by
  have h := List.zipIdx_map_snd 0 l
  rw [List.range_eq_range', ← h, List.map_map]
  rfl

theorem zipIdx_snd_fst {α : Type} (l : List α) (n : ℕ) (m : ℕ) :
    (((l.zipIdx m).zipIdx n).map (fun x => (x.1.1, x.2))) = l.zipIdx n := by
  induction l generalizing n m with
  | nil => rfl
  | cons a l ih => simp only [List.zipIdx_cons, List.map_cons]; rw [ih]

theorem addCl_fold (ids : List ℤ) (hits : List (List ℕ)) (cs : List ℕ) (o : ShwOut) :
    (cs.foldl (addCl ids hits) o).shws = o.shws ∧ (cs.foldl (addCl ids hits) o).sc = o.sc ∧
    (cs.foldl (addCl ids hits) o).sh = o.sh ∧ (cs.foldl (addCl ids hits) o).ssp = o.ssp ∧
    (cs.foldl (addCl ids hits) o).sps = o.sps ++ cs.flatMap (spNumbers ids hits) ∧
    (cs.foldl (addCl ids hits) o).hsp =
      o.hsp ++ (cs.flatMap (fun c => hits[c]?.getD [])).zipIdx o.sps.length := by
  induction cs generalizing o with
  | nil => simp
  | cons c r ih =>
    rw [List.foldl_cons]
    obtain ⟨h1, h2, h3, h4, h5, h6⟩ := ih (addCl ids hits o c)
    obtain ⟨g1, g2, g3, g4, g5, g6⟩ := addSp_fold (ids[c]?.getD 0) ((hits[c]?.getD []).zipIdx) o
    have hc : addCl ids hits o c = ((hits[c]?.getD []).zipIdx).foldl (addSp (ids[c]?.getD 0)) o := rfl
    rw [← hc] at g1 g2 g3 g4 g5 g6
    refine ⟨h1.trans g1, h2.trans g2, h3.trans g3, h4.trans g4, ?_, ?_⟩
    · rw [h5, g5, zipIdx_snd (hits[c]?.getD []) (fun i : ℕ => ids[c]?.getD 0 * 10000 + (i : ℤ)), List.flatMap_cons,
        List.append_assoc]
      rfl
    · rw [h6, g6, g5, zipIdx_snd_fst, List.flatMap_cons, List.zipIdx_append, List.append_assoc]
      simp

theorem shw_fold (ids : List ℤ) (hits : List (List ℕ)) (pdg : ℤ → ℤ) (es : List (ℤ × List ℕ)) :
    let o := es.foldl (shwStep ids hits pdg) {}
    let em := es.filter (fun e => isEM (pdg e.1))
    o.shws = em.map (·.1) ∧
    o.sc = em.zipIdx.flatMap (fun x => x.1.2.map (fun c => (x.2, c))) ∧
    o.sh = em.zipIdx.flatMap (fun x => (List.range x.1.2.length).flatMap (fun i =>
      (hits[i]?.getD []).map (fun h => (x.2, h)))) ∧
    o.sps = es.flatMap (fun e => e.2.flatMap (spNumbers ids hits)) ∧
    o.hsp = (es.flatMap (fun e => e.2.flatMap (fun c => hits[c]?.getD []))).zipIdx := by
  induction es using List.reverseRecOn with
  | nil => simp
  | append_singleton es e ih =>
    simp only at ih ⊢
    rw [List.foldl_append, List.foldl_cons, List.foldl_nil]
    generalize es.foldl (shwStep ids hits pdg) {} = o at ih ⊢
    obtain ⟨i1, i2, i3, i4, i5⟩ := ih
    obtain ⟨h1, h2, h3, _, h5, h6⟩ := addCl_fold ids hits e.2 o
    have hlen : (es.flatMap (fun e => e.2.flatMap (fun c => hits[c]?.getD []))).length = o.sps.length := by
      rw [i4]
      simp [List.length_flatMap, spNumbers]
    rw [List.filter_append]
    unfold shwStep
    by_cases hem : isEM (pdg e.1) = true
    · simp only [hem, if_true]
      rw [List.filter_cons_of_pos (by simpa using hem)]
      refine ⟨by rw [h1, i1]; simp, ?_, ?_, ?_, ?_⟩
      · rw [h2, i2, h1, i1, List.zipIdx_append, List.flatMap_append]; simp
      · rw [h3, i3, h1, i1, List.zipIdx_append, List.flatMap_append]; simp
      · rw [h5, i4, List.flatMap_append]; simp
      · rw [h6, i5, List.flatMap_append, List.zipIdx_append, hlen]; simp
    · simp only [hem]
      rw [List.filter_cons_of_neg (by simpa using hem)]
      refine ⟨by simp [h1, i1], by simp [h2, i2], by simp [h3, i3], ?_, ?_⟩
      · simp [h5, i4]
      · simp only [Bool.false_eq_true, if_false]
        rw [h6, i5, List.flatMap_append, List.zipIdx_append, hlen]; simp

theorem filter_particles (ids : List ℤ) (p : ℤ → Bool) (n : ℕ) (e : ℤ) (cs : List ℕ) :
    ((eveMap ids).filter (fun x => p x.1))[n]? = some (e, cs) →
      cs = clustersOf ids e ∧ cs ≠ [] ∧ p e = true := by
  intro h
  have := List.mem_of_getElem? h
  rw [List.mem_filter, (C487_particles ids).2] at this
  exact ⟨this.1.1, this.1.2, this.2⟩

/-- **C488**: the showers are the electrons, photons and neutral pions with clusters, in ascending order, and a shower is
associated with exactly its clusters. -/
theorem C488_showers (ids : List ℤ) (hits : List (List ℕ)) (pdg : ℤ → ℤ) :
    (showers ids hits pdg).shws.Pairwise (· < ·) ∧
    (∀ e, e ∈ (showers ids hits pdg).shws ↔ EM (pdg e) ∧ clustersOf ids e ≠ []) ∧
    ∀ n c, (n, c) ∈ (showers ids hits pdg).sc ↔
      ∃ e, (showers ids hits pdg).shws[n]? = some e ∧ c ∈ clustersOf ids e := by
  obtain ⟨h1, h2, _⟩ := shw_fold ids hits pdg (eveMap ids)
  have ho : showers ids hits pdg = (eveMap ids).foldl (shwStep ids hits pdg) {} := rfl
  rw [← ho] at h1 h2
  refine ⟨?_, fun e => ?_, fun n c => ?_⟩
  · rw [h1, List.pairwise_map]
    exact ((C487_particles ids).1.sublist List.filter_sublist)
  · rw [h1, List.mem_map]
    constructor
    · rintro ⟨⟨e', l⟩, hm, rfl⟩
      rw [List.mem_filter, (C487_particles ids).2] at hm
      exact ⟨(isEM_iff _).1 hm.2, by rw [← hm.1.1]; exact hm.1.2⟩
    · rintro ⟨ha, hb⟩
      exact ⟨(e, clustersOf ids e), List.mem_filter.2 ⟨((C487_particles ids).2 _ _).2 ⟨rfl, hb⟩, (isEM_iff _).2 ha⟩, rfl⟩
  · rw [h2, h1, List.mem_flatMap]
    constructor
    · rintro ⟨⟨⟨e, cs⟩, k⟩, hm, hk⟩
      rw [List.mem_zipIdx_iff_getElem?] at hm
      simp only at hm hk
      obtain ⟨c', hc', hq⟩ := List.mem_map.1 hk
      simp only [Prod.mk.injEq] at hq
      refine ⟨e, by rw [List.getElem?_map, ← hq.1, hm]; rfl, ?_⟩
      rw [← (filter_particles ids (fun x => isEM (pdg x)) k e cs hm).1, ← hq.2]
      exact hc'
    · rintro ⟨e, he, hc⟩
      rw [List.getElem?_map, Option.map_eq_some_iff] at he
      obtain ⟨⟨e', cs⟩, hg, rfl⟩ := he
      refine ⟨((e', cs), n), List.mem_zipIdx_iff_getElem?.2 hg, List.mem_map.2 ⟨c, ?_, rfl⟩⟩
      rw [(filter_particles ids (fun x => isEM (pdg x)) n e' cs hg).1]
      exact hc

/-- **C489**: part: the hits associated with a shower of `k` clusters are those of the first `k` clusters of the event;
these are the hits of its clusters if these are the first of the event. -/
theorem C489_hits_partial (ids : List ℤ) (hits : List (List ℕ)) (pdg : ℤ → ℤ) (n : ℕ) (e : ℤ)
    (he : (showers ids hits pdg).shws[n]? = some e) (h : ℕ) :
    ((n, h) ∈ (showers ids hits pdg).sh ↔ ∃ i < (clustersOf ids e).length, h ∈ hits[i]?.getD []) ∧
    ((∀ c, c ∈ clustersOf ids e ↔ c < (clustersOf ids e).length) →
      ((n, h) ∈ (showers ids hits pdg).sh ↔ ∃ c ∈ clustersOf ids e, h ∈ hits[c]?.getD [])) := by
  obtain ⟨h1, _, h3, _⟩ := shw_fold ids hits pdg (eveMap ids)
  have ho : showers ids hits pdg = (eveMap ids).foldl (shwStep ids hits pdg) {} := rfl
  rw [← ho] at h1 h3
  have key : (n, h) ∈ (showers ids hits pdg).sh ↔ ∃ i < (clustersOf ids e).length, h ∈ hits[i]?.getD [] := by
    rw [h1, List.getElem?_map, Option.map_eq_some_iff] at he
    obtain ⟨⟨e', cs⟩, hg, rfl⟩ := he
    have hcs := (filter_particles ids (fun x => isEM (pdg x)) n e' cs hg).1
    rw [h3, List.mem_flatMap]
    constructor
    · rintro ⟨⟨⟨a, b⟩, k⟩, hm, hk⟩
      rw [List.mem_zipIdx_iff_getElem?] at hm
      simp only at hm hk
      obtain ⟨i, hi, hq⟩ := List.mem_flatMap.1 hk
      obtain ⟨h', hh, hq⟩ := List.mem_map.1 hq
      simp only [Prod.mk.injEq] at hq
      rw [hq.1, hg] at hm
      simp only [Option.some.injEq, Prod.mk.injEq] at hm
      refine ⟨i, ?_, by rw [← hq.2]; exact hh⟩
      rw [← hcs, hm.2]
      exact List.mem_range.1 hi
    · rintro ⟨i, hi, hh⟩
      refine ⟨((e', cs), n), List.mem_zipIdx_iff_getElem?.2 hg, List.mem_flatMap.2 ⟨i, ?_, List.mem_map.2 ⟨h, hh, rfl⟩⟩⟩
      rw [List.mem_range, hcs]; exact hi
  refine ⟨key, fun hf => ?_⟩
  rw [key]
  exact exists_congr (fun c => and_congr_left (fun _ => (hf c).symm))

/-- **C489** fails: a shower made of the second cluster is associated with the hits of the first. -/
theorem C489_refuted : (showers [3000, 7000] [[10, 11], [20, 21]] (fun e => if e = 7 then 11 else 13)).sh =
      [(0, 10), (0, 11)] ∧
    (showers [3000, 7000] [[10, 11], [20, 21]] (fun e => if e = 7 then 11 else 13)).sc = [(0, 1)] ∧
    (showers [3000, 7000] [[10, 11], [20, 21]] (fun e => if e = 7 then 11 else 13)).ssp = [(0, 2), (0, 3)] := by
  decide

/-- **C490**: each hit of each cluster gives a space point, particle by particle and cluster by cluster; it is associated
with this hit and its number is that of the cluster, times 10000, and the index of the hit. -/
theorem C490_points (ids : List ℤ) (hits : List (List ℕ)) (pdg : ℤ → ℤ) :
    (showers ids hits pdg).sps = (eveMap ids).flatMap (fun e => e.2.flatMap (spNumbers ids hits)) ∧
    (showers ids hits pdg).hsp.map (·.1) = (eveMap ids).flatMap (fun e => e.2.flatMap (fun c => hits[c]?.getD [])) ∧
    (showers ids hits pdg).hsp.map (·.2) = List.range (showers ids hits pdg).sps.length := by
  obtain ⟨_, _, _, h4, h5⟩ := shw_fold ids hits pdg (eveMap ids)
  have ho : showers ids hits pdg = (eveMap ids).foldl (shwStep ids hits pdg) {} := rfl
  rw [← ho] at h4 h5
  refine ⟨h4, by rw [h5, List.zipIdx_map_fst], ?_⟩
  rw [h5, List.zipIdx_map_snd, h4, List.range_eq_range']
  congr 1
  simp [List.length_flatMap, spNumbers]

/-! ### Tracks -/

/-- Specification: the hits of the clusters of a particle whose first hit is on the collection plane. -/
def collection (hits : List (List ℕ)) (col : ℕ → Bool) (cs : List ℕ) : List ℕ :=
  (cs.filter (fun c => ((hits[c]?.getD []).head?).any col)).flatMap (fun c => hits[c]?.getD [])

theorem colHits_eq (hits : List (List ℕ)) (col : ℕ → Bool) (cs : List ℕ) :
    colHits hits col cs = collection hits col cs := by
  unfold colHits collection
  induction cs using List.reverseRecOn with
  | nil => simp
  | append_singleton cs c ih =>
    rw [List.foldl_append, List.foldl_cons, List.foldl_nil, ih, List.filter_append, List.flatMap_append]
    cases h : hits[c]?.getD [] with
    | nil => simp [List.filter_cons, h]
    | cons a r =>
      cases hc : col a <;> simp [List.filter_cons, h, hc]

/-- Specification: the particles that give a track, each with its clusters. -/
def trackParts (ids : List ℤ) (hits : List (List ℕ)) (col : ℕ → Bool) (pdg : ℤ → ℤ) : List (ℤ × List ℕ) :=
  (eveMap ids).filter (fun e => isEM (pdg e.1) = false ∧ 2 ≤ (collection hits col e.2).length)

theorem trk_fold (hits : List (List ℕ)) (col : ℕ → Bool) (pdg : ℤ → ℤ) (es : List (ℤ × List ℕ)) :
    let o := es.foldl (trkStep hits col pdg) {}
    let ts := es.filter (fun e => isEM (pdg e.1) = false ∧ 2 ≤ (collection hits col e.2).length)
    o.trks = ts.map (fun e => (e.1, collection hits col e.2)) ∧
    o.tc = ts.zipIdx.flatMap (fun x => x.1.2.map (fun c => (x.2, c))) ∧
    o.th = ts.zipIdx.flatMap (fun x => x.1.2.flatMap (fun c => (hits[c]?.getD []).map (fun h => (x.2, h)))) ∧
    o.sps = ts.flatMap (fun e => (List.range (collection hits col e.2).length).map (fun t : ℕ => e.1 * 10000 + (t : ℤ))) ∧
    o.tsp.map (·.1) = ts.zipIdx.flatMap (fun x => List.replicate (collection hits col x.1.2).length x.2) ∧
    o.tsp.map (·.2) = List.range o.sps.length := by
  induction es using List.reverseRecOn with
  | nil => simp
  | append_singleton es e ih =>
    simp only at ih ⊢
    rw [List.foldl_append, List.foldl_cons, List.foldl_nil]
    generalize es.foldl (trkStep hits col pdg) {} = o at ih ⊢
    obtain ⟨i1, i2, i3, i4, i5, i6⟩ := ih
    rw [List.filter_append]
    have hlen : (es.filter (fun e => isEM (pdg e.1) = false ∧ 2 ≤ (collection hits col e.2).length)).length =
        o.trks.length := by rw [i1, List.length_map]
    unfold trkStep
    rw [colHits_eq]
    by_cases hem : isEM (pdg e.1) = true
    · rw [if_pos hem, List.filter_cons_of_neg (by simp [hem])]
      simp only [List.filter_nil, List.append_nil]
      exact ⟨i1, i2, i3, i4, i5, i6⟩
    · rw [if_neg hem]
      have hem' : isEM (pdg e.1) = false := by simpa using hem
      by_cases h2 : (collection hits col e.2).length < 2
      · simp only [h2, if_true]
        rw [List.filter_cons_of_neg (by simp [hem']; omega)]
        simp only [List.filter_nil, List.append_nil]
        exact ⟨i1, i2, i3, i4, i5, i6⟩
      · simp only [h2, if_false]
        rw [List.filter_cons_of_pos (by simp [hem']; omega)]
        simp only [List.filter_nil]
        rw [List.zipIdx_append, hlen]
        refine ⟨by rw [i1]; simp, by rw [i2, List.flatMap_append]; simp, by rw [i3, List.flatMap_append]; simp,
          by rw [i4, List.flatMap_append]; simp, ?_, ?_⟩
        · rw [List.map_append, i5, List.flatMap_append]
          simp [List.map_const']
        · rw [List.map_append, i6, List.map_map]
          simp only [List.length_append, List.length_map, List.length_range]
          rw [List.range_add]
          congr 1
          rw [List.range'_eq_map_range]
          simp

/-- **C491**: the tracks are the other particles with two hits or more on the collection plane, in ascending order; the
number of a track is its particle, and it is associated with exactly the clusters of the particle and their hits. -/
theorem C491_tracks (ids : List ℤ) (hits : List (List ℕ)) (col : ℕ → Bool) (pdg : ℤ → ℤ) :
    ((tracks ids hits col pdg).trks.map (·.1)).Pairwise (· < ·) ∧
    (∀ e hs, (e, hs) ∈ (tracks ids hits col pdg).trks ↔
      ¬ EM (pdg e) ∧ hs = collection hits col (clustersOf ids e) ∧ 2 ≤ hs.length) ∧
    (∀ n c, (n, c) ∈ (tracks ids hits col pdg).tc ↔
      ∃ e hs, (tracks ids hits col pdg).trks[n]? = some (e, hs) ∧ c ∈ clustersOf ids e) ∧
    ∀ n h, (n, h) ∈ (tracks ids hits col pdg).th ↔
      ∃ e hs, (tracks ids hits col pdg).trks[n]? = some (e, hs) ∧ ∃ c ∈ clustersOf ids e, h ∈ hits[c]?.getD [] := by
  obtain ⟨h1, h2, h3, _⟩ := trk_fold hits col pdg (eveMap ids)
  have ho : tracks ids hits col pdg = (eveMap ids).foldl (trkStep hits col pdg) {} := rfl
  rw [← ho] at h1 h2 h3
  generalize hts : (eveMap ids).filter (fun e => isEM (pdg e.1) = false ∧ 2 ≤ (collection hits col e.2).length) = ts
    at h1 h2 h3
  have hmem : ∀ e cs, (e, cs) ∈ ts ↔ ¬ EM (pdg e) ∧ cs = clustersOf ids e ∧ 2 ≤ (collection hits col cs).length := by
    intro e cs
    rw [← hts, List.mem_filter, (C487_particles ids).2, ← isEM_iff]
    simp only [decide_eq_true_eq, Bool.not_eq_true]
    constructor
    · rintro ⟨⟨a, _⟩, b, c⟩; exact ⟨b, a, c⟩
    · rintro ⟨b, a, c⟩
      refine ⟨⟨a, ?_⟩, b, c⟩
      rintro rfl
      simp [collection] at c
  have hget : ∀ (n : ℕ) (e : ℤ) (hs : List ℕ), (tracks ids hits col pdg).trks[n]? = some (e, hs) →
      ts[n]? = some (e, clustersOf ids e) := by
    intro n e hs hh
    rw [h1, List.getElem?_map, Option.map_eq_some_iff] at hh
    obtain ⟨⟨e', cs⟩, hg, hq⟩ := hh
    simp only [Prod.mk.injEq] at hq
    have := (hmem e' cs).1 (List.mem_of_getElem? hg)
    rw [hg, ← hq.1, this.2.1]
  have hget' : ∀ (n : ℕ) (e : ℤ) (cs : List ℕ), ts[n]? = some (e, cs) → cs = clustersOf ids e ∧
      (tracks ids hits col pdg).trks[n]? = some (e, collection hits col cs) := by
    intro n e cs hg
    refine ⟨((hmem e cs).1 (List.mem_of_getElem? hg)).2.1, ?_⟩
    rw [h1, List.getElem?_map, hg]; rfl
  refine ⟨?_, fun e hs => ?_, fun n c => ?_, fun n h => ?_⟩
  · rw [h1, List.map_map, List.pairwise_map]
    rw [← hts]
    exact (C487_particles ids).1.sublist List.filter_sublist
  · rw [h1, List.mem_map]
    constructor
    · rintro ⟨⟨e', cs⟩, hm, hq⟩
      simp only [Prod.mk.injEq] at hq
      obtain ⟨a, b, c⟩ := (hmem e' cs).1 hm
      rw [← hq.1, ← hq.2, ← b]
      exact ⟨a, rfl, c⟩
    · rintro ⟨a, rfl, c⟩
      exact ⟨(e, clustersOf ids e), (hmem _ _).2 ⟨a, rfl, c⟩, rfl⟩
  · rw [h2, List.mem_flatMap]
    constructor
    · rintro ⟨⟨⟨e, cs⟩, k⟩, hm, hk⟩
      rw [List.mem_zipIdx_iff_getElem?] at hm
      simp only at hm hk
      obtain ⟨c', hc', hq⟩ := List.mem_map.1 hk
      simp only [Prod.mk.injEq] at hq
      obtain ⟨g1, g2⟩ := hget' k e cs hm
      exact ⟨e, _, by rw [← hq.1]; exact g2, by rw [← g1, ← hq.2]; exact hc'⟩
    · rintro ⟨e, hs, he, hc⟩
      exact ⟨((e, clustersOf ids e), n), List.mem_zipIdx_iff_getElem?.2 (hget n e hs he), List.mem_map.2 ⟨c, hc, rfl⟩⟩
  · rw [h3, List.mem_flatMap]
    constructor
    · rintro ⟨⟨⟨e, cs⟩, k⟩, hm, hk⟩
      rw [List.mem_zipIdx_iff_getElem?] at hm
      simp only at hm hk
      obtain ⟨c', hc', hq⟩ := List.mem_flatMap.1 hk
      obtain ⟨h', hh', hq⟩ := List.mem_map.1 hq
      simp only [Prod.mk.injEq] at hq
      obtain ⟨g1, g2⟩ := hget' k e cs hm
      exact ⟨e, _, by rw [← hq.1]; exact g2, c', by rw [← g1]; exact hc', by rw [← hq.2]; exact hh'⟩
    · rintro ⟨e, hs, he, c, hc, hh⟩
      exact ⟨((e, clustersOf ids e), n), List.mem_zipIdx_iff_getElem?.2 (hget n e hs he),
        List.mem_flatMap.2 ⟨c, hc, List.mem_map.2 ⟨h, hh, rfl⟩⟩⟩

/-- **C492**: track by track, each hit of a track gives a space point associated with it; its number is the particle,
times 10000, and the index of the hit. -/
theorem C492_points (ids : List ℤ) (hits : List (List ℕ)) (col : ℕ → Bool) (pdg : ℤ → ℤ) :
    (tracks ids hits col pdg).sps = (tracks ids hits col pdg).trks.flatMap (fun t =>
      (List.range t.2.length).map (fun i : ℕ => t.1 * 10000 + (i : ℤ))) ∧
    (tracks ids hits col pdg).tsp.map (·.1) = (tracks ids hits col pdg).trks.zipIdx.flatMap (fun t =>
      List.replicate t.1.2.length t.2) ∧
    (tracks ids hits col pdg).tsp.map (·.2) = List.range (tracks ids hits col pdg).sps.length := by
  obtain ⟨h1, _, _, h4, h5, h6⟩ := trk_fold hits col pdg (eveMap ids)
  have ho : tracks ids hits col pdg = (eveMap ids).foldl (trkStep hits col pdg) {} := rfl
  rw [← ho] at h1 h4 h5 h6
  refine ⟨?_, ?_, h6⟩
  · rw [h4, h1, List.flatMap_map]
  · rw [h5, h1, List.zipIdx_map, List.flatMap_map]
    rfl

example : tracks [7000, 7100, 3000] [[10], [20, 21], [30, 31]] (fun h => h ≥ 20) (fun e => if e = 3 then 11 else 13) =
    ⟨[(7, [20, 21])], [70000, 70001], [(0, 0), (0, 1)], [(0, 10), (0, 20), (0, 21)], [(0, 0), (0, 1)]⟩ := by decide

end Verif.Cheat2

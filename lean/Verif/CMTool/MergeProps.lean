import Verif.CMTool.MergeInv
/-!
# Properties C01–C06 of `CMergeBookKeeper`
`Reach n s M P` (MergeSpec.lean): `s` is reachable from `Reset(n)` by any sequence of `Merge`,
`ProhibitMerge` and `Combine` calls, rejected ones included; `M`/`P` are the accepted merges/prohibitions.
-/
namespace Verif.CMTool
open Verif BK

/-- a non-trivial history used as non-vacuity witness: 5 inputs, a prohibition, two accepted merges,
one refused merge -/
def demo : BK :=
  (merge 4 0 (merge 1 3 (prohibitMerge 0 3 (reset 5)).2).2).2

theorem demo_reach : Reach 5 demo [(4, 0), (1, 3)] [(0, 3)] :=
  Reach.merge 4 0 (Reach.merge 1 3 (Reach.prohibit 0 3 (Reach.reset 5)))

/-- **C01** `GetResult()` is an ordered partition of the inputs in every reachable state. -/
theorem C01_result_is_partition {n s M P} (h : Reach n s M P) :
    ∃ gs, s.getResult = .ok gs ∧ OrderedPartition n gs := by
  have hi := reach_inv h
  refine ⟨_, getResult_ok hi, ?_, ?_, ?_, ?_, ?_, ?_⟩
  · intro g hg
    obtain ⟨k, hk, rfl⟩ := List.mem_map.1 hg
    obtain ⟨x, hx, hxk⟩ := hi.surj k (List.mem_range.1 hk)
    exact List.ne_nil_of_mem (mem_group.2 ⟨by rw [hi.len]; exact hx, hxk⟩)
  · intro g hg
    obtain ⟨k, hk, rfl⟩ := List.mem_map.1 hg
    exact List.Pairwise.filter _ List.pairwise_lt_range
  · intro g hg i hgi
    obtain ⟨k, hk, rfl⟩ := List.mem_map.1 hg
    have := (mem_group.1 hgi).1
    rwa [hi.len] at this
  · intro i hin
    exact ⟨group s (lab s i), List.mem_map.2 ⟨_, List.mem_range.2 (hi.lt i hin), rfl⟩,
      mem_group.2 ⟨by rw [hi.len]; exact hin, rfl⟩⟩
  · rw [List.pairwise_map]
    refine List.pairwise_lt_range.imp ?_
    intro a b hab i hia hib
    rw [mem_group] at hia hib
    omega
  · rw [List.pairwise_map]
    refine List.pairwise_lt_range.imp ?_
    intro a b hab x hx y hy
    have hy' := mem_group.1 (List.mem_of_mem_head? hy)
    obtain ⟨z, hz, hza⟩ := hi.rg y (by rw [← hi.len]; exact hy'.1) a (by omega)
    have hzm : z ∈ group s a := mem_group.2 ⟨by omega, hza⟩
    have hsort : (group s a).Pairwise (· < ·) := List.Pairwise.filter _ List.pairwise_lt_range
    rcases hg : group s a with _ | ⟨x0, rest⟩
    · rw [hg] at hzm; simp at hzm
    · rw [hg] at hx hzm hsort
      simp at hx
      subst hx
      rcases List.mem_cons.1 hzm with rfl | hzm
      · exact hz
      · exact Nat.lt_trans ((List.pairwise_cons.1 hsort).1 z hzm) hz

example : ∃ gs, demo.getResult = .ok gs ∧ OrderedPartition 5 gs := C01_result_is_partition demo_reach
example : demo.getResult = .ok [[0, 4], [1, 3], [2]] := by decide

/-- **C02** `IsMerged(i,j)` is true exactly for pairs connected by accepted merges; it throws exactly
for out-of-range arguments. -/
theorem C02_isMerged_iff_connected {n s M P} (h : Reach n s M P) (i j : Nat) :
    (i < n ∧ j < n → s.isMerged i j ≠ .throw ∧ s.isMerged i j ≠ .ub ∧
      (s.isMerged i j = .ok true ↔ Conn M i j)) ∧
    (¬ (i < n ∧ j < n) → s.isMerged i j = .throw) := by
  have hi := reach_inv h
  constructor
  · rintro ⟨h1, h2⟩
    have e1 : s.labels[i]? = some (lab s i) := by simp [lab, hi.len, h1]
    have e2 : s.labels[j]? = some (lab s j) := by simp [lab, hi.len, h2]
    simp only [isMerged, e1, e2, ← hi.eqv i j h1 h2]
    simp
  · intro hn
    have hl := hi.len
    unfold isMerged
    by_cases h1 : i < n
    · have e2 : s.labels[j]? = none := by simp; omega
      rw [e2]; split <;> simp_all
    · have e1 : s.labels[i]? = none := by simp; omega
      rw [e1]

example : demo.isMerged 4 0 = .ok true ∧ demo.isMerged 4 1 = .ok false ∧ demo.isMerged 5 0 = .throw := by
  decide

/-- **C03** (queries) `MergeAllowed(i,j)` is false exactly when `i` and `j` are in different groups and an
accepted prohibition relates these groups. -/
theorem C03_mergeAllowed_exact {n s M P} (h : Reach n s M P) {i j : Nat}
    (hij : i ≠ j) (hi : i < n) (hj : j < n) :
    ∃ b, mergeAllowed i j s = (.ok b, s) ∧ (b = false ↔ ¬ Conn M i j ∧ Barred M P i j) := by
  have hv := reach_inv h
  have hli := hv.lt i hi
  have hlj := hv.lt j hj
  have hcn := hv.cnt_le
  by_cases he : lab s i = lab s j
  · refine ⟨true, ?_, ?_⟩
    · unfold mergeAllowed
      rw [Exec.bind_of_ok (checkArgs_ok hv hij hi hj), Exec.bind_of_ok (labelAt_ok hv hi),
        Exec.bind_of_ok (labelAt_ok hv hj), if_pos he]; rfl
    · simp [(hv.eqv i j hi hj).1 he]
  · refine ⟨!cell s (min (lab s i) (lab s j)) (max (lab s i) (lab s j) - min (lab s i) (lab s j)), ?_, ?_⟩
    · unfold mergeAllowed
      rw [Exec.bind_of_ok (checkArgs_ok hv hij hi hj), Exec.bind_of_ok (labelAt_ok hv hi),
        Exec.bind_of_ok (labelAt_ok hv hj), if_neg he,
        Exec.bind_of_ok (tabGet_ok hv.shape (i := min (lab s i) (lab s j))
        (j := max (lab s i) (lab s j) - min (lab s i) (lab s j)) (by omega) (by omega))]; rfl
    · rw [Bool.not_eq_false', cell_iff_barred hv hi hj he, ← hv.eqv i j hi hj]
      exact ⟨fun h => ⟨he, h⟩, fun h => h.2⟩

/-- **C03** (enforcement) `Merge(i,j)` on distinct in-range indices is refused exactly in that case, and no
accepted prohibition is ever violated. -/
theorem C03_prohibitions_enforced {n s M P} (h : Reach n s M P) :
    (∀ i j, i ≠ j → i < n → j < n →
      ((merge i j s).1 = .throw ↔ ¬ Conn M i j ∧ Barred M P i j)) ∧
    (∀ p ∈ P, s.isMerged p.1 p.2 = .ok false) := by
  have hv := reach_inv h
  constructor
  · intro i j hij hi hj
    rw [merge_outcome hv, if_pos ⟨hij, hi, hj⟩]
    by_cases he : lab s i = lab s j
    · have := (hv.eqv i j hi hj).1 he
      rw [if_neg (by tauto)]
      simp [this]
    · have hb := cell_iff_barred hv hi hj he
      have hc : ¬ Conn M i j := fun h => he ((hv.eqv i j hi hj).2 h)
      split
      · rename_i hx; simp [hc, hb.1 hx.2]
      · rename_i hx
        have : ¬ Barred M P i j := fun h => hx ⟨he, hb.2 h⟩
        simp [this]
  · intro p hp
    have hr := hv.pRange p hp
    have e1 : s.labels[p.1]? = some (lab s p.1) := by simp [lab, hv.len, hr.1]
    have e2 : s.labels[p.2]? = some (lab s p.2) := by simp [lab, hv.len, hr.2]
    simp only [isMerged, e1, e2]
    simp [hv.sep p hp]

/-- in `demo`, merging 4 (group {0,4}) with 1 (group {1,3}) is barred by the prohibition (0,3) -/
example : mergeAllowed 4 1 demo = (.ok false, demo) ∧ (merge 4 1 demo).1 = .throw ∧
    mergeAllowed 4 2 demo = (.ok true, demo) := by decide

/-- **C04** A `Merge` or `ProhibitMerge` call that throws leaves the object untouched; it throws
exactly for the documented reasons (identical or out-of-range indices; prohibited; already merged), hence
never because of an internal access. -/
theorem C04_rejected_calls_change_nothing {n s M P} (h : Reach n s M P) (i j : Nat) :
    ((merge i j s).1 ≠ .ok () → merge i j s = (.throw, s)) ∧
    ((merge i j s).1 ≠ .ok () ↔ (i = j ∨ n ≤ i ∨ n ≤ j ∨ (¬ Conn M i j ∧ Barred M P i j))) ∧
    ((prohibitMerge i j s).1 ≠ .ok () → prohibitMerge i j s = (.throw, s)) ∧
    ((prohibitMerge i j s).1 ≠ .ok () ↔ (i = j ∨ n ≤ i ∨ n ≤ j ∨ Conn M i j)) := by
  have hv := reach_inv h
  by_cases hb : i ≠ j ∧ i < n ∧ j < n
  · obtain ⟨hij, hi, hj⟩ := hb
    have hthrow := (C03_prohibitions_enforced h).1 i j hij hi hj
    have hshape : (merge i j s).1 ≠ .ok () → merge i j s = (.throw, s) := by
      intro hne
      by_cases he : lab s i = lab s j
      · rw [merge_same hv hij hi hj he] at hne; exact absurd rfl hne
      · cases hc : cell s (min (lab s i) (lab s j)) (max (lab s i) (lab s j) - min (lab s i) (lab s j)) with
        | true => exact merge_barred hv hij hi hj he hc
        | false =>
          obtain ⟨s', e, _⟩ := merge_ok hv hij hi hj he hc
          rw [e] at hne; exact absurd rfl hne
    refine ⟨hshape, ?_, ?_, ?_⟩
    · constructor
      · intro hne
        have := hshape hne
        exact .inr (.inr (.inr (hthrow.1 (by rw [this]))))
      · rintro (h | h | h | h)
        · exact absurd h hij
        · omega
        · omega
        · rw [hthrow.2 h]; simp
    · intro hne
      by_cases he : lab s i = lab s j
      · exact prohibit_same hv hij hi hj he
      · obtain ⟨s', e, _⟩ := prohibit_ok hv hij hi hj he
        rw [e] at hne; exact absurd rfl hne
    · rw [← hv.eqv i j hi hj]
      constructor
      · intro hne
        by_cases he : lab s i = lab s j
        · exact .inr (.inr (.inr he))
        · obtain ⟨s', e, _⟩ := prohibit_ok hv hij hi hj he
          rw [e] at hne; exact absurd rfl hne
      · rintro (h | h | h | h)
        · exact absurd h hij
        · omega
        · omega
        · rw [prohibit_same hv hij hi hj h]; simp
  · have hbad : i = j ∨ n ≤ i ∨ n ≤ j := by omega
    rw [merge_bad hv hb, prohibit_bad hv hb]
    refine ⟨fun _ => rfl, ?_, fun _ => rfl, ?_⟩
    · simp only [ne_eq, reduceCtorEq, not_false_eq_true, true_iff]; tauto
    · simp only [ne_eq, reduceCtorEq, not_false_eq_true, true_iff]; tauto

example : merge 4 1 demo = (.throw, demo) ∧ prohibitMerge 1 3 demo = (.throw, demo) ∧
    (merge 4 2 demo).1 = .ok () ∧ (prohibitMerge 4 2 demo).1 = .ok () := by decide

/-- **C06** `GetMergedSet(i)` is the ascending list of the `j` with `IsMerged(i,j)`, and is one of the groups
of `GetResult()`. -/
theorem C06_mergedSet_agrees {n s M P} (h : Reach n s M P) {i : Nat} (hi : i < n) :
    ∃ g gs, s.getMergedSet i = .ok g ∧ s.getResult = .ok gs ∧ g ∈ gs ∧ g.Pairwise (· < ·) ∧
      ∀ j, j ∈ g ↔ s.isMerged i j = .ok true := by
  have hv := reach_inv h
  have hl := hv.len
  have e1 : s.labels[i]? = some (lab s i) := by simp [lab, hl, hi]
  refine ⟨group s (lab s i), _, ?_, getResult_ok hv, ?_, ?_, ?_⟩
  · simp only [getMergedSet, e1, group]
    congr 1
    apply List.filter_congr
    intro j hj
    have hj' : j < s.labels.length := List.mem_range.1 hj
    simp [lab, hj']; rfl
  · exact List.mem_map.2 ⟨_, List.mem_range.2 (hv.lt i hi), rfl⟩
  · exact List.Pairwise.filter _ List.pairwise_lt_range
  · intro j
    rw [mem_group]
    constructor
    · rintro ⟨h1, h2⟩
      rw [hl] at h1
      have := ((C02_isMerged_iff_connected h i j).1 ⟨hi, h1⟩).2.2
      rw [this, ← hv.eqv i j hi h1]; exact h2.symm
    · intro hm
      by_cases hj : j < n
      · rw [((C02_isMerged_iff_connected h i j).1 ⟨hi, hj⟩).2.2, ← hv.eqv i j hi hj] at hm
        exact ⟨by omega, hm.symm⟩
      · rw [(C02_isMerged_iff_connected h i j).2 (by tauto)] at hm; simp at hm

example : demo.getMergedSet 4 = .ok [0, 4] := by decide

theorem mem_combineRequests {n M P s m M' P' b} (h : Inv n M P s) (hb : Inv m M' P' b) (hm : s.cnt = m)
    {x y : Nat} (hxy : (x, y) ∈ combineRequests ((List.range s.cnt).map (group s)) ((List.range b.cnt).map (group b))) :
    x ≠ y ∧ x < n ∧ y < n ∧ lab b (lab s x) = lab b (lab s y) := by
  unfold combineRequests at hxy
  rw [List.mem_flatMap] at hxy
  obtain ⟨hh, hhm, hxy⟩ := hxy
  obtain ⟨k, hk, rfl⟩ := List.mem_map.1 hhm
  rw [List.mem_range] at hk
  split at hxy
  · simp at hxy
  · dsimp only at hxy
    rw [List.mem_flatMap] at hxy
    obtain ⟨r, hr, hxy⟩ := hxy
    have hbl := hb.len
    have hmem : ∀ r ∈ group b k, r < s.cnt := by
      intro r hr; rw [mem_group] at hr; omega
    rw [List.mem_map] at hxy
    obtain ⟨o, ho, heq⟩ := hxy
    rw [List.mem_filter] at ho
    simp only [List.getElem?_map, List.getElem?_range (hmem r hr), Option.map_some, Option.getD_some] at ho
    obtain ⟨r0, rest, hg⟩ : ∃ r0 rest, group b k = r0 :: rest := by
      rcases hg : group b k with _ | ⟨r0, rest⟩
      · rw [hg] at hr; simp at hr
      · exact ⟨_, _, rfl⟩
    have hr0 : r0 ∈ group b k := by rw [hg]; simp
    rw [hg] at ho heq
    simp only [List.headD_cons, List.getElem?_map, List.getElem?_range (hmem r0 hr0), Option.map_some,
      Option.getD_some] at ho heq
    obtain ⟨z, hz, hzk⟩ := h.surj r0 (hmem r0 hr0)
    have hzm : z ∈ group s r0 := mem_group.2 ⟨by rw [h.len]; exact hz, hzk⟩
    obtain ⟨t, rest', hg'⟩ : ∃ t rest', group s r0 = t :: rest' := by
      rcases hg' : group s r0 with _ | ⟨t, rest'⟩
      · rw [hg'] at hzm; simp at hzm
      · exact ⟨_, _, rfl⟩
    have ht : t ∈ group s r0 := by rw [hg']; simp
    rw [hg'] at ho heq
    simp only [List.headD_cons, Prod.mk.injEq] at ho heq
    obtain ⟨rfl, rfl⟩ := heq
    rw [mem_group, h.len] at ht
    have ho1 := mem_group.1 ho.1
    rw [h.len] at ho1
    refine ⟨of_decide_eq_true ho.2, ht.1, ho1.1, ?_⟩
    rw [ht.2, ho1.2]
    rw [mem_group] at hr0 hr
    rw [hr0.2, hr.2]

/-- After all of `Combine`'s requests, connection is equality of the other's labels. -/
theorem combine_conn {n M P s m M' P' b} (h : Inv n M P s) (hb : Inv m M' P' b) (hm : s.cnt = m)
    {A : List (Nat × Nat)} (hA : ∀ p, p ∈ A ↔
      p ∈ combineRequests ((List.range s.cnt).map (group s)) ((List.range b.cnt).map (group b)))
    {x y : Nat} (hx : x < n) (hy : y < n) :
    Conn (A ++ M) x y ↔ lab b (lab s x) = lab b (lab s y) := by
  constructor
  · intro hc
    have : ∀ x y, Conn (A ++ M) x y → x < n → lab b (lab s x) = lab b (lab s y) ∧ y < n ∨ ¬ x < n := by
      intro x y hc
      suffices hsuff : (x < n ↔ y < n) ∧ (x < n → lab b (lab s x) = lab b (lab s y)) by
        intro hxn; exact .inl ⟨hsuff.2 hxn, hsuff.1.1 hxn⟩
      induction hc with
      | rel a c hac =>
        rcases List.mem_append.1 hac with hac | hac
        · have := mem_combineRequests h hb hm ((hA _).1 hac)
          exact ⟨⟨fun _ => this.2.2.1, fun _ => this.2.1⟩, fun _ => this.2.2.2⟩
        · have hr := h.mRange _ hac
          refine ⟨⟨fun _ => hr.2, fun _ => hr.1⟩, fun _ => ?_⟩
          rw [(h.eqv a c hr.1 hr.2).2 (Relation.EqvGen.rel _ _ hac)]
      | refl a => simp
      | symm a c _ ih => exact ⟨ih.1.symm, fun hc => (ih.2 (ih.1.2 hc)).symm⟩
      | trans a c d _ _ ih1 ih2 =>
        exact ⟨ih1.1.trans ih2.1, fun ha => (ih1.2 ha).trans (ih2.2 (ih1.1.1 ha))⟩
    rcases this x y hc hx with h | h
    · exact h.1
    · exact absurd hx h
  · intro heq
    have hbl := hb.len
    have hsx := h.lt x hx
    have hsy := h.lt y hy
    generalize hk : lab b (lab s x) = k at *
    have hkc : k < b.cnt := by rw [← hk]; exact hb.lt _ (by omega)
    have hxg : lab s x ∈ group b k := mem_group.2 ⟨by omega, hk⟩
    have hyg : lab s y ∈ group b k := mem_group.2 ⟨by omega, heq.symm⟩
    have hMA : ∀ {a c}, Conn M a c → Conn (A ++ M) a c :=
      fun hc => conn_mono (fun p hp => List.mem_append.2 (.inr hp)) hc
    by_cases hlen : (group b k).length = 1
    · obtain ⟨r, hr⟩ := List.length_eq_one_iff.1 hlen
      rw [hr] at hxg hyg
      simp only [List.mem_singleton] at hxg hyg
      exact hMA ((h.eqv x y hx hy).1 (by rw [hxg, hyg]))
    · have hmem : ∀ r ∈ group b k, r < s.cnt := by
        intro r hr; rw [mem_group] at hr; omega
      have key : ∃ t, ∀ z, z < n → lab s z ∈ group b k → Conn (A ++ M) t z := by
        refine ⟨((((List.range s.cnt).map (group s))[(group b k).headD 0]?).getD []).headD 0, ?_⟩
        intro z hz hzg
        by_cases htz : ((((List.range s.cnt).map (group s))[(group b k).headD 0]?).getD []).headD 0 = z
        · rw [htz]; exact conn_refl _ _
        · apply Relation.EqvGen.rel
          apply List.mem_append.2
          left
          rw [hA]
          unfold combineRequests
          rw [List.mem_flatMap]
          refine ⟨group b k, List.mem_map.2 ⟨k, List.mem_range.2 hkc, rfl⟩, ?_⟩
          rw [if_neg hlen]
          dsimp only
          rw [List.mem_flatMap]
          refine ⟨lab s z, hzg, ?_⟩
          rw [List.mem_map]
          refine ⟨z, ?_, rfl⟩
          rw [List.mem_filter]
          refine ⟨?_, by simpa using htz⟩
          simp only [List.getElem?_map, List.getElem?_range (h.lt z hz), Option.map_some, Option.getD_some]
          exact mem_group.2 ⟨by rw [h.len]; exact hz, rfl⟩
      obtain ⟨t, ht⟩ := key
      exact conn_trans (conn_symm (ht x hx hxg)) (ht y hy hyg)

/-- **C05** (when) `Combine(b)` succeeds exactly when `b` has one input per own group, `b` has merged
something, and no accepted prohibition relates two inputs whose groups `b` merges. -/
theorem C05_combine_succeeds_iff {n s M P m b M' P'} (h : Reach n s M P) (hb : Reach m b M' P')
    {gs hs : List (List Nat)} (hgs : s.getResult = .ok gs) (hhs : b.getResult = .ok hs) :
    (combine b s).1 = .ok () ↔
      (gs.length = m ∧ hs.length < m ∧
        ¬ ∃ p ∈ P, ∃ u v, b.isMerged u v = .ok true ∧ (∃ g, gs[u]? = some g ∧ p.1 ∈ g) ∧
          (∃ g, gs[v]? = some g ∧ p.2 ∈ g)) := by
  have hv := reach_inv h
  have hw := reach_inv hb
  rw [getResult_ok hv] at hgs
  rw [getResult_ok hw] at hhs
  have hgs : (List.range s.cnt).map (group s) = gs := by simpa using hgs
  have hhs : (List.range b.cnt).map (group b) = hs := by simpa using hhs
  have hl1 : gs.length = s.cnt := by rw [← hgs]; simp
  have hl2 : hs.length = b.cnt := by rw [← hhs]; simp
  have hcomb := combine_eq hv hw
  rw [hgs, hhs] at hcomb
  have hgrp : ∀ x u, x < n → ((∃ g, gs[u]? = some g ∧ x ∈ g) ↔ lab s x = u) := by
    intro x u hx
    constructor
    · rintro ⟨g, hg, hxg⟩
      rw [← hgs] at hg
      simp only [List.getElem?_map, Option.map_eq_some_iff] at hg
      obtain ⟨a, ha, rfl⟩ := hg
      have := List.getElem?_eq_some_iff.1 ha
      obtain ⟨hlt, rfl⟩ := this
      simpa using (mem_group.1 hxg).2
    · rintro rfl
      refine ⟨group s (lab s x), ?_, mem_group.2 ⟨by rw [hv.len]; exact hx, rfl⟩⟩
      rw [← hgs]; simp [hv.lt x hx]
  have hbar : (∃ p ∈ P, ∃ u v, b.isMerged u v = .ok true ∧ (∃ g, gs[u]? = some g ∧ p.1 ∈ g) ∧
          (∃ g, gs[v]? = some g ∧ p.2 ∈ g)) ↔ ∃ p ∈ P, b.isMerged (lab s p.1) (lab s p.2) = .ok true := by
    constructor
    · rintro ⟨p, hp, u, v, h1, h2, h3⟩
      have hr := hv.pRange p hp
      rw [hgrp _ _ hr.1] at h2
      rw [hgrp _ _ hr.2] at h3
      exact ⟨p, hp, by rw [h2, h3]; exact h1⟩
    · rintro ⟨p, hp, h1⟩
      have hr := hv.pRange p hp
      exact ⟨p, hp, _, _, h1, (hgrp _ _ hr.1).2 rfl, (hgrp _ _ hr.2).2 rfl⟩
  rw [hbar]
  by_cases hc : s.cnt ≠ m ∨ b.cnt ≥ s.cnt
  · rw [hcomb, if_pos hc]
    constructor
    · intro h; simp at h
    · rintro ⟨h1, h2, _⟩; omega
  · rw [if_neg hc] at hcomb
    have hsm : s.cnt = m := by omega
    have hbm : ∀ p ∈ P, (b.isMerged (lab s p.1) (lab s p.2) = .ok true ↔ lab b (lab s p.1) = lab b (lab s p.2)) := by
      intro p hp
      have hr := hv.pRange p hp
      have l1 := hv.lt _ hr.1
      have l2 := hv.lt _ hr.2
      rw [((C02_isMerged_iff_connected hb _ _).1 ⟨by omega, by omega⟩).2.2,
        ← hw.eqv _ _ (by omega) (by omega)]
    rw [hcomb]
    constructor
    · intro hok
      refine ⟨by omega, by omega, ?_⟩
      rintro ⟨p, hp, hmg⟩
      have hr := hv.pRange p hp
      rw [hbm p hp, ← combine_conn hv hw hsm (A := accepted (combineRequests gs hs) s) (by
        intro q; rw [hgs, hhs]; exact mergeAll_accepted hv _ hok q) hr.1 hr.2] at hmg
      have hfin := inv_mergeAll hv (combineRequests gs hs)
      exact hfin.sep p hp ((hfin.eqv _ _ hr.1 hr.2).2 hmg)
    · rintro ⟨_, _, hno⟩
      by_contra hne
      have hwf : ∀ p ∈ combineRequests gs hs, p.1 ≠ p.2 ∧ p.1 < n ∧ p.2 < n := by
        intro p hp
        have := mem_combineRequests hv hw hsm (x := p.1) (y := p.2) (by rw [hgs, hhs]; exact hp)
        exact ⟨this.1, this.2.1, this.2.2.1⟩
      obtain ⟨_, q, hq, M'', hM, p, hp, hbarred⟩ := mergeAll_fail hv _ hne hwf
      apply hno
      refine ⟨p, hp, ?_⟩
      rw [hbm p hp]
      have hr := hv.pRange p hp
      have hq' := mem_combineRequests hv hw hsm (x := q.1) (y := q.2) (by rw [hgs, hhs]; exact hq)
      have hup : ∀ {x y}, Conn M'' x y → Conn (combineRequests gs hs ++ M) x y :=
        fun hc => conn_mono (fun z hz => List.mem_append.2 (hM z hz)) hc
      have hcc : ∀ {x y}, x < n → y < n → Conn M'' x y → lab b (lab s x) = lab b (lab s y) := by
        intro x y hx hy hc
        exact (combine_conn hv hw hsm (A := combineRequests gs hs) (by intro q; rw [hgs, hhs]) hx hy).1 (hup hc)
      rcases hbarred with ⟨h1, h2⟩ | ⟨h1, h2⟩
      · rw [hcc hr.1 hq'.2.1 h1, hcc hr.2 hq'.2.2.1 h2]; exact hq'.2.2.2
      · rw [hcc hr.1 hq'.2.2.1 h1, hcc hr.2 hq'.2.1 h2]; exact hq'.2.2.2.symm

/-- Two canonical labellings with the same equivalence are equal. -/
theorem rg_unique {n : Nat} {f g : Nat → Nat}
    (hf : ∀ i, i < n → ∀ k, k < f i → ∃ j, j < i ∧ f j = k)
    (hg : ∀ i, i < n → ∀ k, k < g i → ∃ j, j < i ∧ g j = k)
    (he : ∀ i j, i < n → j < n → (f i = f j ↔ g i = g j)) : ∀ i, i < n → f i = g i := by
  intro i
  induction i using Nat.strong_induction_on with
  | _ i ih =>
    intro hi
    rcases Nat.lt_trichotomy (f i) (g i) with hlt | heq | hgt
    · obtain ⟨j, hj, hgj⟩ := hg i hi _ hlt
      rw [← ih j hj (by omega)] at hgj
      have := (he i j hi (by omega)).1 hgj.symm
      rw [← ih j hj (by omega)] at this
      omega
    · exact heq
    · obtain ⟨j, hj, hfj⟩ := hf i hi _ hgt
      rw [ih j hj (by omega)] at hfj
      have := (he i j hi (by omega)).2 hfj.symm
      rw [ih j hj (by omega)] at this
      omega

/-- labels after a successful `Combine` -/
theorem combine_labels {n s M P m b M' P'} (hv : Inv n M P s) (hw : Inv m M' P' b)
    (hok : (combine b s).1 = .ok ()) :
    s.cnt = m ∧ ∀ i, i < n → lab (combine b s).2 i = lab b (lab s i) := by
  have hcomb := combine_eq hv hw
  by_cases hc : s.cnt ≠ m ∨ b.cnt ≥ s.cnt
  · rw [hcomb, if_pos hc] at hok; simp at hok
  · rw [if_neg hc] at hcomb
    have hsm : s.cnt = m := by omega
    refine ⟨hsm, ?_⟩
    rw [hcomb] at hok ⊢
    have hfin := inv_mergeAll hv (combineRequests ((List.range s.cnt).map (group s)) ((List.range b.cnt).map (group b)))
    apply rg_unique (fun i hi k hk => hfin.rg i hi k hk)
    · intro i hi k hk
      have l1 := hv.lt i hi
      obtain ⟨j', hj', e⟩ := hw.rg (lab s i) (by omega) k hk
      obtain ⟨j, hj, e'⟩ := hv.rg i hi j' hj'
      exact ⟨j, hj, by rw [e']; exact e⟩
    · intro i j hi hj
      rw [hfin.eqv i j hi hj]
      exact combine_conn hv hw hsm (mergeAll_accepted hv _ hok) hi hj

/-- **C05** (what) After a successful `Combine(b)` the k-th group of the result consists exactly of the members
of the old groups listed in `b`'s k-th group, and two inputs are merged iff `b` merges their old groups. -/
theorem C05_combine_composes {n s M P m b M' P'} (h : Reach n s M P) (hb : Reach m b M' P')
    (hok : (combine b s).1 = .ok ()) {gs hs : List (List Nat)}
    (hgs : s.getResult = .ok gs) (hhs : b.getResult = .ok hs) :
    (∃ ks, (combine b s).2.getResult = .ok ks ∧ ks.length = hs.length ∧
      ∀ (k : Nat) (hk : k < ks.length) (hk' : k < hs.length) (x : Nat), x ∈ ks[k] ↔
        ∃ r ∈ hs[k], ∃ g, gs[r]? = some g ∧ x ∈ g) ∧
    (∀ x y u v gx gy, gs[u]? = some gx → x ∈ gx → gs[v]? = some gy → y ∈ gy →
      ((combine b s).2.isMerged x y = .ok true ↔ b.isMerged u v = .ok true)) := by
  have hv := reach_inv h
  have hw := reach_inv hb
  have hr := Reach.combine h hb
  have hf := reach_inv hr
  obtain ⟨hsm, hlab⟩ := combine_labels hv hw hok
  rw [getResult_ok hv] at hgs
  rw [getResult_ok hw] at hhs
  have hgs : (List.range s.cnt).map (group s) = gs := by simpa using hgs
  have hhs : (List.range b.cnt).map (group b) = hs := by simpa using hhs
  subst hgs
  subst hhs
  have hcnt : (combine b s).2.cnt = b.cnt := by
    -- both are the number of distinct labels
    have key : ∀ k, k < (combine b s).2.cnt ↔ k < b.cnt := by
      intro k
      constructor
      · intro hk
        obtain ⟨i, hi, e⟩ := hf.surj k hk
        rw [hlab i hi] at e
        rw [← e]
        have := hv.lt i hi
        exact hw.lt _ (by omega)
      · intro hk
        obtain ⟨u, hu, e⟩ := hw.surj k hk
        obtain ⟨i, hi, e'⟩ := hv.surj u (by omega)
        have := hf.lt i hi
        rw [hlab i hi, e', e] at this
        exact this
    have h1 := key b.cnt
    have h2 := key (combine b s).2.cnt
    omega
  have gmem : ∀ x u, (∃ g, ((List.range s.cnt).map (group s))[u]? = some g ∧ x ∈ g) ↔ (x < n ∧ lab s x = u) := by
    intro x u
    constructor
    · rintro ⟨g, hg, hxg⟩
      simp only [List.getElem?_map, Option.map_eq_some_iff] at hg
      obtain ⟨a, ha, rfl⟩ := hg
      obtain ⟨hlt, rfl⟩ := List.getElem?_eq_some_iff.1 ha
      have := mem_group.1 hxg
      rw [hv.len] at this
      simpa using this
    · rintro ⟨hx, rfl⟩
      refine ⟨group s (lab s x), ?_, mem_group.2 ⟨by rw [hv.len]; exact hx, rfl⟩⟩
      simp [hv.lt x hx]
  constructor
  · refine ⟨_, getResult_ok hf, by simp [hcnt], ?_⟩
    intro k hk hk' x
    simp only [List.getElem_map, List.getElem_range]
    rw [mem_group, hf.len]
    constructor
    · rintro ⟨hx, e⟩
      rw [hlab x hx] at e
      have := hv.lt x hx
      exact ⟨lab s x, mem_group.2 ⟨by rw [hw.len]; omega, e⟩, (gmem x _).2 ⟨hx, rfl⟩⟩
    · rintro ⟨r, hr, hg⟩
      obtain ⟨hx, e⟩ := (gmem x r).1 hg
      exact ⟨hx, by rw [hlab x hx, e]; exact (mem_group.1 hr).2⟩
  · intro x y u v gx gy hgx hx hgy hy
    obtain ⟨hxn, ex⟩ := (gmem x u).1 ⟨gx, hgx, hx⟩
    obtain ⟨hyn, ey⟩ := (gmem y v).1 ⟨gy, hgy, hy⟩
    have l1 := hv.lt x hxn
    have l2 := hv.lt y hyn
    rw [((C02_isMerged_iff_connected hr x y).1 ⟨hxn, hyn⟩).2.2, ← hf.eqv x y hxn hyn,
      ((C02_isMerged_iff_connected hb u v).1 ⟨by omega, by omega⟩).2.2, ← hw.eqv u v (by omega) (by omega),
      hlab x hxn, hlab y hyn, ex, ey]

/-- combining `demo` (groups {0,4},{1,3},{2}) with a keeper that merges outputs 1 and 2 -/
example : (combine (merge 1 2 (reset 3)).2 demo).1 = .ok () ∧
    (combine (merge 1 2 (reset 3)).2 demo).2.getResult = .ok [[0, 4], [1, 2, 3]] ∧
    Reach 3 (merge 1 2 (reset 3)).2 [(1, 2)] [] :=
  ⟨by decide, by decide, Reach.merge 1 2 (Reach.reset 3)⟩
/-- and one that is refused half-way because of the prohibition (0,3) -/
example : (combine (merge 0 1 (reset 3)).2 demo).1 = .throw := by decide

end Verif.CMTool

import Verif.LineClus.Model
import Mathlib.Data.List.Basic
import Mathlib.Data.List.Induction
import Mathlib.Tactic.Linarith
import Mathlib.Tactic.Push

namespace Verif.LineClus

/-! ### End points and vertices -/

/-- Specification: the indices of the 2D vertices that have clusters. -/
def used (ns : List ℕ) : List ℕ := (ns.zipIdx.filter (fun x => x.1 ≠ 0)).map (·.2)

theorem end_inv (ns : List ℕ) (k : ℕ) (hk : k ≤ ns.length) :
    let s := (ns.zipIdx.take k).foldl endStep (List.replicate ns.length 0, 0, [])
    let u := ((ns.zipIdx.take k).filter (fun x => x.1 ≠ 0)).map (·.2)
    s.1.length = ns.length ∧ s.2.1 = u.length ∧ s.2.2 = u.zipIdx.map (fun x => (x.1, x.2 + 1)) ∧
    (∀ v ∈ u, ∃ i, s.1[v]? = some i ∧ u[i]? = some v) ∧
    (∀ v, v < ns.length → v ∉ u → s.1[v]? = some 0) ∧ ∀ v ∈ u, v < k := by
  induction k with
  | zero =>
    refine ⟨by simp, rfl, rfl, by simp, ?_, by simp⟩
    intro v hv _
    simp [hv]
  | succ k ih =>
    have hk' : k < ns.zipIdx.length := by simp; omega
    obtain ⟨h1, h2, h3, h4, h5, h6⟩ := ih (by omega)
    rw [List.take_succ_eq_append_getElem hk', List.foldl_append, List.filter_append, List.map_append]
    simp only [List.foldl_cons, List.foldl_nil]
    generalize hs : (ns.zipIdx.take k).foldl endStep (List.replicate ns.length 0, 0, []) = s at *
    generalize hu : ((ns.zipIdx.take k).filter (fun x => x.1 ≠ 0)).map (·.2) = u at *
    have hg : ns.zipIdx[k] = (ns[k], k) := by simp
    rw [hg]
    by_cases h0 : ns[k] = 0
    · simp only [endStep, h0, if_true]
      simp only [List.filter_cons, List.filter_nil]
      simp only [ne_eq, not_true_eq_false, decide_false, Bool.false_eq_true, if_false, List.map_nil,
        List.append_nil]
      exact ⟨h1, h2, h3, h4, h5, fun v hv => by have := h6 v hv; omega⟩
    · simp only [endStep, h0, if_false]
      have hf : [(ns[k], k)].filter (fun x => decide (x.1 ≠ 0)) = [(ns[k], k)] := by simp [h0]
      rw [hf]
      simp only [List.map_cons, List.map_nil]
      have hkn : k ∉ u := fun h => by have := h6 k h; omega
      refine ⟨by simp [h1], by simp [h2], ?_, ?_, ?_, ?_⟩
      · rw [h3, List.zipIdx_append]
        simp [h2]
      · intro v hv
        rcases List.mem_append.1 hv with hv | hv
        · obtain ⟨i, e1, e2⟩ := h4 v hv
          refine ⟨i, ?_, ?_⟩
          · have : k ≠ v := by rintro rfl; exact hkn hv
            rw [List.getElem?_set_ne this]
            exact e1
          · rw [List.getElem?_append_left (List.getElem?_eq_some_iff.1 e2).1]
            exact e2
        · obtain rfl : v = k := by simpa using hv
          refine ⟨u.length, ?_, by simp⟩
          rw [List.getElem?_set_self (by rw [h1]; omega), h2]
      · intro v hv hn
        have hne : k ≠ v := by rintro rfl; exact hn (by simp)
        rw [List.getElem?_set_ne hne]
        exact h5 v hv (fun h => hn (by simp [h]))
      · intro v hv
        rcases List.mem_append.1 hv with hv | hv
        · have := h6 v hv; omega
        · obtain rfl : v = k := by simpa using hv
          omega

/-- **C433**: the end points written are exactly the 2D vertices that have clusters, in their order, with
numbers from 1. -/
theorem C433_endpoints (ns : List ℕ) :
    (endPoints ns).2.2 = (used ns).zipIdx.map (fun x => (x.1, x.2 + 1)) ∧
    ∀ v, v ∈ used ns ↔ ∃ n, ns[v]? = some n ∧ n ≠ 0 := by
  have h := end_inv ns ns.length (le_refl _)
  rw [List.take_of_length_le (by simp)] at h
  refine ⟨h.2.2.1, fun v => ?_⟩
  unfold used
  simp only [List.mem_map, List.mem_filter]
  constructor
  · rintro ⟨⟨n, w⟩, ⟨h1, h2⟩, rfl⟩
    rw [List.mem_zipIdx_iff_getElem?] at h1
    exact ⟨n, h1, by simpa using h2⟩
  · rintro ⟨n, h1, h2⟩
    exact ⟨(n, v), ⟨by rw [List.mem_zipIdx_iff_getElem?]; exact h1, by simpa using h2⟩, rfl⟩

theorem indx_spec (ns : List ℕ) : (endPoints ns).1.length = ns.length ∧
    (∀ v ∈ used ns, ∃ i, (endPoints ns).1[v]? = some i ∧ (used ns)[i]? = some v) ∧
    (∀ v, v < ns.length → v ∉ used ns → (endPoints ns).1[v]? = some 0) := by
  have h := end_inv ns ns.length (le_refl _)
  rw [List.take_of_length_le (by simp)] at h
  exact ⟨h.1, h.2.2.2.1, h.2.2.2.2.1⟩

/-- **C433**: the vertices written are exactly those with a 2D vertex in each plane, in their order, with
numbers from 1. -/
theorem C433_vertices (vs : List Vtx3) :
    vertices vs = (vs.filter (fun v => 0 ≤ v.p0 ∧ 0 ≤ v.p1 ∧ 0 ≤ v.p2)).zipIdx.map
      (fun x => (x.1, x.2 + 1)) := by
  have key : vs.foldl (fun (s : ℕ × List (Vtx3 × ℕ)) v =>
      if !complete v then s else (s.1 + 1, s.2 ++ [(v, s.1 + 1)])) (0, []) =
      ((vs.filter (fun v => 0 ≤ v.p0 ∧ 0 ≤ v.p1 ∧ 0 ≤ v.p2)).length,
        (vs.filter (fun v => 0 ≤ v.p0 ∧ 0 ≤ v.p1 ∧ 0 ≤ v.p2)).zipIdx.map (fun x => (x.1, x.2 + 1))) := by
    induction vs using List.reverseRecOn with
    | nil => rfl
    | append_singleton l v ih =>
      rw [List.foldl_append, ih]
      simp only [List.foldl_cons, List.foldl_nil]
      by_cases hc : 0 ≤ v.p0 ∧ 0 ≤ v.p1 ∧ 0 ≤ v.p2
      · have : complete v = true := by simpa [complete, and_assoc] using hc
        simp [this, List.filter_append, hc, List.zipIdx_append]
      · have : complete v = false := by
          rw [Bool.eq_false_iff]
          intro h
          apply hc
          simpa [complete, and_assoc] using h
        simp [this, List.filter_append, hc]
  unfold vertices
  rw [key]

theorem vtxGo_spec (plane : ℕ) (e : ℤ) (vs : List Vtx3) (k : ℕ) :
    (vtxGo plane e k vs = none → (vs.filter complete).find? (fun v => ptr v plane = e) = none) ∧
    ∀ j, vtxGo plane e k vs = some j → k ≤ j ∧ ∃ v, (vs.filter complete)[j - k]? = some v ∧
      (vs.filter complete).find? (fun v => ptr v plane = e) = some v := by
  induction vs generalizing k with
  | nil => simp [vtxGo]
  | cons v r ih =>
    rw [vtxGo]
    by_cases hc : complete v = true
    · simp only [hc, Bool.not_true, Bool.false_eq_true, if_false]
      rw [List.filter_cons_of_pos hc]
      by_cases hp : ptr v plane = e
      · simp only [hp, if_true]
        refine ⟨by simp, fun j hj => ?_⟩
        simp only [Option.some.injEq] at hj
        subst hj
        exact ⟨le_refl _, v, by simp, by simp [hp]⟩
      · simp only [hp, if_false]
        obtain ⟨i1, i2⟩ := ih (k + 1)
        refine ⟨fun h => ?_, fun j hj => ?_⟩
        · rw [List.find?_cons_of_neg (by simpa using hp)]; exact i1 h
        · obtain ⟨h1, w, h2, h3⟩ := i2 j hj
          refine ⟨by omega, w, ?_, ?_⟩
          · rw [show j - k = (j - (k + 1)) + 1 by omega, List.getElem?_cons_succ]; exact h2
          · rw [List.find?_cons_of_neg (by simpa using hp)]; exact h3
    · have hc' : complete v = false := by simpa using hc
      simp only [hc', Bool.not_false, if_true]
      rw [List.filter_cons_of_neg hc]
      exact ih k

/-! ### Clusters -/

/-- Specification: the sums over the hits of a cluster. -/
def charge (hs : List Hit) (l : List ℕ) (f : Hit → ℚ) : ℚ := ((l.filterMap (fun i => hs[i]?)).map f).sum

theorem sums_spec (hs : List Hit) (l : List ℕ) :
    ((∀ i ∈ l, i < hs.length) → sums hs l = some (charge hs l (·.chg), charge hs l (·.adc))) ∧
    ((∃ i ∈ l, hs.length ≤ i) → sums hs l = none) := by
  unfold sums
  induction l using List.reverseRecOn with
  | nil => simp [charge]
  | append_singleton l a ih =>
    rw [List.foldlM_append]
    refine ⟨fun h => ?_, fun h => ?_⟩
    · rw [ih.1 (fun i hi => h i (by simp [hi]))]
      have ha : a < hs.length := h a (by simp)
      have e : hs[a]? = some hs[a] := List.getElem?_eq_getElem ha
      simp only [Option.bind_eq_bind, Option.bind_some, List.foldlM_cons, List.foldlM_nil, e,
        Option.map_some, Option.pure_def]
      unfold charge
      simp [List.filterMap_append, e]
    · by_cases hl : ∃ i ∈ l, hs.length ≤ i
      · rw [ih.2 hl]; rfl
      · push Not at hl
        rw [ih.1 hl]
        obtain ⟨i, hi, hge⟩ := h
        rcases List.mem_append.1 hi with hi | hi
        · exact absurd hge (not_le.2 (hl i hi))
        · obtain rfl : i = a := by simpa using hi
          simp [List.getElem?_eq_none hge]

/-- Specification: the live clusters. -/
def live (cs : List Clus) : List Clus := cs.filter (fun c => 0 ≤ c.id)

/-- The ends of a cluster that have a 2D vertex. -/
def ends (c : Clus) : List (ℤ × ℕ) :=
  (if 0 ≤ c.beg then [(c.beg, 0)] else []) ++ (if 0 ≤ c.en then [(c.en, 1)] else [])

/-- A cluster can be written. -/
def Good (hs : List Hit) (n : ℕ) (c : Clus) : Prop :=
  c.hits ≠ [] ∧ (∀ i ∈ c.hits, i < hs.length) ∧ ∀ e ∈ ends c, e.1.toNat < n

/-- The associations with end points of a cluster at position `k`. -/
def epOf (indx : List ℕ) (k : ℕ) (c : Clus) : List (ℕ × ℕ × ℕ) :=
  (ends c).map (fun e => (k, indx.getD e.1.toNat 0, e.2))

def vOf (vs : List Vtx3) (k : ℕ) (c : Clus) : List (ℕ × ℕ × ℕ) :=
  (ends c).filterMap (fun e => (vtxGo c.plane e.1 0 vs).map (fun j => (k, j, e.2)))

theorem doEnd_spec (indx : List ℕ) (vs : List Vtx3) (plane : ℕ) (e : ℤ) (k en : ℕ) (o : Out) :
    (0 ≤ e → indx.length ≤ e.toNat → doEnd indx vs plane e k en o = none) ∧
    ((0 ≤ e → e.toNat < indx.length) → doEnd indx vs plane e k en o = some { o with
      cep := o.cep ++ (if 0 ≤ e then [(e, en)] else []).map (fun x => (k, indx.getD x.1.toNat 0, x.2))
      cv := o.cv ++ (if 0 ≤ e then [(e, en)] else []).filterMap
        (fun x => (vtxGo plane x.1 0 vs).map (fun j => (k, j, x.2))) }) := by
  unfold doEnd
  refine ⟨fun h0 h => ?_, fun h => ?_⟩
  · simp [h0, List.getElem?_eq_none h]
  · by_cases h0 : 0 ≤ e
    · have hl := h h0
      simp only [ge_iff_le, h0, if_true, List.getElem?_eq_getElem hl]
      cases hv : vtxGo plane e 0 vs with
      | none => simp [hv, hl]
      | some j => simp [hv, hl]
    · simp [h0]

theorem doClus_spec (hs : List Hit) (indx : List ℕ) (vs : List Vtx3) (o : Out) (c : Clus)
    (hid : 0 ≤ c.id) (hn : o.n = o.cls.length) :
    (Good hs indx.length c → doClus hs indx vs o c = some ⟨o.n + 1,
      o.cls ++ [⟨c, o.cls.length + 1, charge hs c.hits (·.chg), charge hs c.hits (·.adc)⟩],
      o.hc ++ c.hits.map (fun h => (o.cls.length, h)),
      o.cep ++ epOf indx o.cls.length c, o.cv ++ vOf vs o.cls.length c⟩) ∧
    (¬ Good hs indx.length c → doClus hs indx vs o c = none) := by
  have hid' : ¬ c.id < 0 := not_lt.2 hid
  obtain ⟨s1, s2⟩ := sums_spec hs c.hits
  unfold doClus
  simp only [hid', if_false, hn, Nat.add_sub_cancel]
  refine ⟨fun hg => ?_, fun hg => ?_⟩
  · obtain ⟨g1, g2, g3⟩ := hg
    rw [s1 g2]
    simp only [g1, if_false]
    rw [(doEnd_spec indx vs c.plane c.beg o.cls.length 0 _).2
      (fun h => g3 (c.beg, 0) (by simp [ends, h]))]
    dsimp only
    rw [(doEnd_spec indx vs c.plane c.en o.cls.length 1 _).2
      (fun h => g3 (c.en, 1) (by simp [ends, h]))]
    simp [epOf, vOf, ends, List.map_append, List.filterMap_append]
  · by_cases h2 : ∀ i ∈ c.hits, i < hs.length
    · rw [s1 h2]
      by_cases h1 : c.hits = []
      · simp [h1]
      · simp only [h1, if_false]
        by_cases hb : 0 ≤ c.beg → c.beg.toNat < indx.length
        · rw [(doEnd_spec indx vs c.plane c.beg o.cls.length 0 _).2 hb]
          dsimp only
          have he : ¬ (0 ≤ c.en → c.en.toNat < indx.length) := by
            intro he
            apply hg
            refine ⟨h1, h2, ?_⟩
            intro e hm
            unfold ends at hm
            rcases List.mem_append.1 hm with hm | hm
            · by_cases h : 0 ≤ c.beg
              · simp only [h, if_true, List.mem_singleton] at hm
                rw [hm]; exact hb h
              · simp [h] at hm
            · by_cases h : 0 ≤ c.en
              · simp only [h, if_true, List.mem_singleton] at hm
                rw [hm]; exact he h
              · simp [h] at hm
          push Not at he
          exact (doEnd_spec indx vs c.plane c.en o.cls.length 1 _).1 he.1 he.2
        · push Not at hb
          rw [(doEnd_spec indx vs c.plane c.beg o.cls.length 0 _).1 hb.1 hb.2]
    · push Not at h2
      rw [s2 h2]

theorem doClus_dead (hs : List Hit) (indx : List ℕ) (vs : List Vtx3) (o : Out) (c : Clus)
    (hid : c.id < 0) : doClus hs indx vs o c = some o := by
  unfold doClus
  rw [if_pos hid]

theorem fold_spec (hs : List Hit) (indx : List ℕ) (vs : List Vtx3) (cs : List Clus) :
    ((∀ c ∈ live cs, Good hs indx.length c) → cs.foldlM (doClus hs indx vs) {} = some
      ⟨(live cs).length,
       (live cs).zipIdx.map (fun x => ⟨x.1, x.2 + 1, charge hs x.1.hits (·.chg), charge hs x.1.hits (·.adc)⟩),
       (live cs).zipIdx.flatMap (fun x => x.1.hits.map (fun h => (x.2, h))),
       (live cs).zipIdx.flatMap (fun x => epOf indx x.2 x.1),
       (live cs).zipIdx.flatMap (fun x => vOf vs x.2 x.1)⟩) ∧
    ((∃ c ∈ live cs, ¬ Good hs indx.length c) → cs.foldlM (doClus hs indx vs) {} = none) := by
  induction cs using List.reverseRecOn with
  | nil => simp [live]
  | append_singleton l c ih =>
    have hlive : live (l ++ [c]) = live l ++ (if 0 ≤ c.id then [c] else []) := by
      unfold live
      by_cases h : 0 ≤ c.id <;> simp [List.filter_append, h]
    rw [List.foldlM_append, hlive]
    by_cases hl : ∃ d ∈ live l, ¬ Good hs indx.length d
    · rw [ih.2 hl]
      refine ⟨fun h => ?_, fun _ => rfl⟩
      obtain ⟨d, hd, hd'⟩ := hl
      exact absurd (h d (by simp [hd])) hd'
    · have hl' : ∀ d ∈ live l, Good hs indx.length d := by
        intro d hd
        by_contra hc
        exact hl ⟨d, hd, hc⟩
      rw [ih.1 hl']
      simp only [Option.bind_eq_bind, Option.bind_some, List.foldlM_cons, List.foldlM_nil]
      by_cases hid : 0 ≤ c.id
      · simp only [hid, if_true]
        obtain ⟨d1, d2⟩ := doClus_spec hs indx vs ⟨(live l).length,
          (live l).zipIdx.map (fun x => ⟨x.1, x.2 + 1, charge hs x.1.hits (·.chg), charge hs x.1.hits (·.adc)⟩),
          (live l).zipIdx.flatMap (fun x => x.1.hits.map (fun h => (x.2, h))),
          (live l).zipIdx.flatMap (fun x => epOf indx x.2 x.1),
          (live l).zipIdx.flatMap (fun x => vOf vs x.2 x.1)⟩ c hid (by simp)
        refine ⟨fun h => ?_, fun h => ?_⟩
        · rw [d1 (h c (by simp))]
          simp [List.zipIdx_append]
        · rw [d2 ?_]
          · rfl
          · obtain ⟨d, hd, hd'⟩ := h
            rcases List.mem_append.1 hd with hd | hd
            · exact absurd (hl' d hd) hd'
            · obtain rfl : d = c := by simpa using hd
              exact hd'
      · rw [doClus_dead hs indx vs _ c (not_le.1 hid)]
        simp only [hid, if_false, List.append_nil]
        exact ⟨fun _ => rfl, fun h => absurd h hl⟩

/-- **C434**: the module succeeds exactly if each live cluster has hits, all of them existing, and 2D
vertices that exist; the clusters written are then the live ones in their order, numbered from 1, with
the charge of their hits, and each is associated with exactly its hits, in order. -/
theorem C434_clusters (hs : List Hit) (ns : List ℕ) (vs : List Vtx3) (cs : List Clus) :
    (write hs ns vs cs ≠ none ↔ ∀ c ∈ live cs, Good hs ns.length c) ∧
    ∀ o, write hs ns vs cs = some o →
      o.cls = (live cs).zipIdx.map
        (fun x => ⟨x.1, x.2 + 1, charge hs x.1.hits (·.chg), charge hs x.1.hits (·.adc)⟩) ∧
      o.hc = (live cs).zipIdx.flatMap (fun x => x.1.hits.map (fun h => (x.2, h))) := by
  obtain ⟨f1, f2⟩ := fold_spec hs (endPoints ns).1 vs cs
  rw [(indx_spec ns).1] at f1 f2
  unfold write
  refine ⟨⟨fun h c hc => ?_, fun h => ?_⟩, fun o ho => ?_⟩
  · by_contra hn
    exact h (f2 ⟨c, hc, hn⟩)
  · rw [f1 h]; simp
  · by_cases hg : ∀ c ∈ live cs, Good hs ns.length c
    · rw [f1 hg] at ho
      simp only [Option.some.injEq] at ho
      subst ho
      exact ⟨rfl, rfl⟩
    · push Not at hg
      rw [f2 hg] at ho
      simp at ho

theorem write_ok {hs : List Hit} {ns : List ℕ} {vs : List Vtx3} {cs : List Clus} {o : Out}
    (h : write hs ns vs cs = some o) : (∀ c ∈ live cs, Good hs ns.length c) ∧
    o.cep = (live cs).zipIdx.flatMap (fun x => epOf (endPoints ns).1 x.2 x.1) ∧
    o.cv = (live cs).zipIdx.flatMap (fun x => vOf vs x.2 x.1) := by
  obtain ⟨f1, f2⟩ := fold_spec hs (endPoints ns).1 vs cs
  rw [(indx_spec ns).1] at f1 f2
  unfold write at h
  by_cases hg : ∀ c ∈ live cs, Good hs ns.length c
  · rw [f1 hg] at h
    simp only [Option.some.injEq] at h
    subst h
    exact ⟨hg, rfl, rfl⟩
  · push Not at hg
    rw [f2 hg] at h
    simp at h

/-- **C435**, part: if the 2D vertices of the live clusters have clusters, each end of a cluster with a 2D
vertex is associated with exactly the end point of this vertex, marked with the end, and there are no
other associations.  Missing: 2D vertices without clusters, see the counterexample. -/
theorem C435_ends_partial {hs : List Hit} {ns : List ℕ} {vs : List Vtx3} {cs : List Clus} {o : Out}
    (h : write hs ns vs cs = some o)
    (hu : ∀ c ∈ live cs, ∀ e ∈ ends c, e.1.toNat ∈ used ns) :
    o.cep.map (fun a => (a.1, ((endPoints ns).2.2)[a.2.1]?.map (·.1), a.2.2)) =
      (live cs).zipIdx.flatMap (fun x => (ends x.1).map (fun e => (x.2, some e.1.toNat, e.2))) := by
  rw [(write_ok h).2.1, List.map_flatMap]
  rw [(C433_endpoints ns).1]
  apply List.flatMap_congr
  intro x hx
  unfold epOf
  rw [List.map_map]
  apply List.map_congr_left
  intro e he
  obtain ⟨i, h1, h2⟩ := (indx_spec ns).2.1 _ (hu x.1 (List.fst_mem_of_mem_zipIdx hx) e he)
  dsimp only [Function.comp]
  rw [List.getD_eq_getElem?_getD, h1]
  simp [h2]

/-- **C436**: the 2D vertex of a vertex in each of the three planes. -/
theorem C436_planes (v : Vtx3) : [ptr v 0, ptr v 1, ptr v 2] = [v.p0, v.p1, v.p2] := rfl

/-- **C436**: each end of a cluster with a 2D vertex is associated with the first of the written vertices
that has this 2D vertex in the plane of the cluster, if there is one, marked with the end, and there are
no other associations. -/
theorem C436_vertices {hs : List Hit} {ns : List ℕ} {vs : List Vtx3} {cs : List Clus} {o : Out}
    (h : write hs ns vs cs = some o) :
    o.cv.map (fun a => (a.1, (vertices vs)[a.2.1]?.map (·.1), a.2.2)) =
      (live cs).zipIdx.flatMap (fun x => (ends x.1).filterMap (fun e =>
        (((vertices vs).map (·.1)).find? (fun v => ptr v x.1.plane = e.1)).map
          (fun v => (x.2, some v, e.2)))) := by
  have hv : (vertices vs).map (·.1) = vs.filter complete := by
    rw [C433_vertices, List.map_map]
    have : ((fun x : Vtx3 × ℕ => x.1) ∘ fun x : Vtx3 × ℕ => (x.1, x.2 + 1)) = Prod.fst := rfl
    rw [this, List.zipIdx_map_fst]
    apply List.filter_congr
    intro v _
    rw [Bool.eq_iff_iff]
    simp [complete, and_assoc]
  have hget : ∀ j : ℕ, (vertices vs)[j]?.map (·.1) = (vs.filter complete)[j]? := by
    intro j
    rw [← hv, List.getElem?_map]
  rw [(write_ok h).2.2, List.map_flatMap]
  apply List.flatMap_congr
  intro x _
  unfold vOf
  rw [List.map_filterMap]
  apply List.filterMap_congr
  intro e _
  obtain ⟨g1, g2⟩ := vtxGo_spec x.1.plane e.1 vs 0
  rw [hv]
  cases hg : vtxGo x.1.plane e.1 0 vs with
  | none => rw [g1 hg]; rfl
  | some j =>
    obtain ⟨_, v, h1, h2⟩ := g2 j hg
    rw [Nat.sub_zero] at h1
    rw [h2]
    simp only [Option.map_some, hget, h1]

/-- Two clusters at a common 2D vertex, the third 2D vertex; the second is not used. -/
def exC : List Clus := [⟨1, 0, [0, 1], 2, -1⟩, ⟨-2, 0, [2], 0, 0⟩, ⟨3, 0, [2], 0, 2⟩]

def exH : List Hit := [⟨1, 2, 0⟩, ⟨10, 20, 0⟩, ⟨100, 200, 0⟩]

example : write exH [1, 0, 2] [⟨-1, 1, 1, 9⟩, ⟨2, 5, 6, 7⟩] exC =
    some ⟨2, [⟨⟨1, 0, [0, 1], 2, -1⟩, 1, 11, 22⟩, ⟨⟨3, 0, [2], 0, 2⟩, 2, 100, 200⟩],
      [(0, 0), (0, 1), (1, 2)], [(0, 1, 0), (1, 0, 0), (1, 1, 1)], [(0, 0, 0), (1, 0, 1)]⟩ ∧
    (∀ c ∈ live exC, ∀ e ∈ ends c, e.1.toNat ∈ used [1, 0, 2]) := by
  decide +kernel

/-- **C435**, counterexample: a cluster whose 2D vertex has no clusters is associated with the first end
point, that of another vertex. -/
theorem C435_refuted : (write exH [1, 0] [] [⟨1, 0, [0], 1, -1⟩]).map (·.cep) = some [(0, 0, 0)] ∧
    (endPoints [1, 0]).2.2 = [(0, 1)] := by decide +kernel

/-- **C435**, counterexample: and if there is no end point at all, with one that does not exist. -/
theorem C435_refuted_dangling :
    (write exH [0] [] [⟨1, 0, [0], 0, -1⟩]).map (·.cep) = some [(0, 0, 0)] ∧
    (endPoints [0]).2.2 = [] := by decide +kernel

/-- **C437**: the check before the products are made succeeds exactly if each hit of each live cluster
exists, is in the plane of the cluster and is marked with its number. -/
theorem C437_check (hs : List Hit) (inClus : List ℤ) (cs : List Clus) :
    consistent hs inClus cs = true ↔ ∀ c ∈ live cs, ∀ i ∈ c.hits, ∃ h, hs[i]? = some h ∧
      h.plane = c.plane ∧ inClus[i]? = some c.id := by
  unfold consistent live
  simp only [List.all_eq_true, List.mem_filter, Bool.or_eq_true, decide_eq_true_eq]
  constructor
  · rintro h c ⟨hc, hid⟩ i hi
    rcases h c hc with h' | h'
    · exact absurd h' (not_lt.2 (by simpa using hid))
    · have := h' i hi
      split at this
      · rename_i a b e1 e2
        simp only [Bool.and_eq_true, decide_eq_true_eq] at this
        exact ⟨a, e1, this.1, by rw [e2, this.2]⟩
      · simp at this
  · intro h c hc
    by_cases hid : c.id < 0
    · exact Or.inl hid
    · right
      intro i hi
      obtain ⟨a, e1, e2, e3⟩ := h c ⟨hc, by simpa using hid⟩ i hi
      rw [e1, e3]
      simp [e2]

/-- **C437**: so if it succeeds, no hit is in two written clusters of different number. -/
theorem C437_disjoint (hs : List Hit) (inClus : List ℤ) (cs : List Clus)
    (h : consistent hs inClus cs = true) (c d : Clus) (hc : c ∈ live cs) (hd : d ∈ live cs)
    (hne : c.id ≠ d.id) (i : ℕ) (hi : i ∈ c.hits) : i ∉ d.hits := by
  intro hj
  obtain ⟨_, _, _, e1⟩ := (C437_check hs inClus cs).1 h c hc i hi
  obtain ⟨_, _, _, e2⟩ := (C437_check hs inClus cs).1 h d hd i hj
  rw [e1] at e2
  exact hne (by simpa using e2)

example : consistent exH [1, 1, 3] exC = true := by decide +kernel

end Verif.LineClus

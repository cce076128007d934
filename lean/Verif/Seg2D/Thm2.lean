import Verif.Seg2D.Thm

namespace Verif.Seg2D
open List (Perm)
open scoped List

/-! ## What the choice of parts to merge gives -/

/-- Part `j` is not a shower, is not part `i`, and has an end nearer than the radius to the point. -/
def isNear (c : Cfg) (g : List Part) (i : Nat) (p0 : P2) (j : Nat) : Bool :=
  match g[j]? with
  | none => false
  | some q => !q.em && decide (i ≠ j) && (decide (d2 p0 q.start < c.vtxRadius * c.vtxRadius) || (decide (q.hits.length > 1) && decide (d2 p0 q.stop < c.vtxRadius * c.vtxRadius)))

/-- How often part `j` counts. -/
def wt (c : Cfg) (g : List Part) (i : Nat) (p0 : P2) (j : Nat) : Nat :=
  match g[j]? with
  | none => 0
  | some q =>
    if q.em then 0
    else if i = j then (if q.hits.length > 1 ∧ d2 q.start q.stop < c.vtxRadius * c.vtxRadius then 1 else 0)
    else (if d2 p0 q.start < c.vtxRadius * c.vtxRadius then 1 else 0) + (if q.hits.length > 1 ∧ d2 p0 q.stop < c.vtxRadius * c.vtxRadius then 1 else 0)

theorem countNear_eq (c : Cfg) (g : List Part) (i : Nat) (p0 : P2) :
    countNear c g i p0 = (((List.range g.length).map (wt c g i p0)).sum, (List.range g.length).filter (isNear c g i p0)) := by
  have key : ∀ (js : List Nat) (n : Nat) (L : List Nat), js.foldl (fun (st : Nat × List Nat) j =>
    match g[j]? with
    | none => st
    | some q =>
      if q.em then st
      else if i = j then (if q.hits.length > 1 ∧ d2 q.start q.stop < c.vtxRadius * c.vtxRadius then (st.1 + 1, st.2) else st)
      else
        let a := decide (d2 p0 q.start < c.vtxRadius * c.vtxRadius)
        let b := decide (q.hits.length > 1) && decide (d2 p0 q.stop < c.vtxRadius * c.vtxRadius)
        (st.1 + (if a then 1 else 0) + (if b then 1 else 0), if a || b then st.2 ++ [j] else st.2)) (n, L) = (n + (js.map (wt c g i p0)).sum, L ++ js.filter (isNear c g i p0)) := by
    intro js
    induction js with
    | nil => intro n L; simp
    | cons j js ih =>
      intro n L
      rw [List.foldl_cons]
      have hstep : (match g[j]? with
        | none => (n, L)
        | some q =>
          if q.em then (n, L)
          else if i = j then (if q.hits.length > 1 ∧ d2 q.start q.stop < c.vtxRadius * c.vtxRadius then (n + 1, L) else (n, L))
          else
            let a := decide (d2 p0 q.start < c.vtxRadius * c.vtxRadius)
            let b := decide (q.hits.length > 1) && decide (d2 p0 q.stop < c.vtxRadius * c.vtxRadius)
            (n + (if a then 1 else 0) + (if b then 1 else 0), if a || b then L ++ [j] else L)) = (n + wt c g i p0 j, if isNear c g i p0 j then L ++ [j] else L) := by
        unfold wt isNear
        cases g[j]? with
        | none => simp
        | some q =>
          dsimp only
          by_cases h1 : q.em = true
          · simp [h1]
          · by_cases h2 : i = j
            · by_cases h3 : q.hits.length > 1 ∧ d2 q.start q.stop < c.vtxRadius * c.vtxRadius
              · simp [h1, h2, h3]
              · simp [h1, h2, h3]
            · simp [h1, h2, Nat.add_assoc]
      refine Eq.trans (congrArg (fun st => List.foldl _ st js) hstep) ?_
      rw [ih]
      by_cases hn : isNear c g i p0 j = true
      · simp [hn, Nat.add_assoc]
      · simp [hn, Nat.add_assoc]
  have := key (List.range g.length) 0 []
  exact (show countNear c g i p0 = _ from this).trans (by simp)

theorem sum_zero_of (f : Nat → Nat) : ∀ l : List Nat, (∀ j ∈ l, f j = 0) → (l.map f).sum = 0
  | [], _ => rfl
  | j :: l, h => by
    rw [List.map_cons, List.sum_cons, h j (by simp), sum_zero_of f l (fun k hk => h k (by simp [hk]))]

theorem countNear_le (c : Cfg) (g : List Part) (i : Nat) (p0 : P2) (h : (countNear c g i p0).2 = []) : (countNear c g i p0).1 ≤ 1 := by
  rw [countNear_eq] at h ⊢
  simp only at h ⊢
  have hz : ∀ j ∈ List.range g.length, j ≠ i → wt c g i p0 j = 0 := by
    intro j hj hji
    have := (List.filter_eq_nil_iff.1 h) j hj
    revert this
    unfold isNear wt
    cases g[j]? with
    | none => simp
    | some q =>
      dsimp only
      by_cases h1 : q.em = true
      · simp [h1]
      · have h2 : i ≠ j := fun e => hji e.symm
        by_cases h3 : d2 p0 q.start < c.vtxRadius * c.vtxRadius
        · simp [h1, h2, h3]
        · by_cases h4 : q.hits.length > 1 ∧ d2 p0 q.stop < c.vtxRadius * c.vtxRadius
          · simp [h1, h2, h4]
          · rw [if_neg h1, if_neg h2, if_neg h3, if_neg h4]
            simp
  have h1 : wt c g i p0 i ≤ 1 := by
    unfold wt
    cases g[i]? with
    | none => simp
    | some q => dsimp only; split <;> simp; split <;> simp
  by_cases hi : i ∈ List.range g.length
  · obtain ⟨s, t, e⟩ := List.append_of_mem hi
    have hnd := List.nodup_range (n := g.length)
    rw [e] at hz hnd ⊢
    rw [List.map_append, List.map_cons, List.sum_append, List.sum_cons]
    have hd := List.nodup_append.1 hnd
    have hi2 := List.nodup_cons.1 hd.2.1
    rw [sum_zero_of _ s (fun j hj => hz j (by simp [hj]) (fun e => hd.2.2 j hj i (by simp) e)), sum_zero_of _ t (fun j hj => hz j (by simp [hj]) (fun e => hi2.1 (e ▸ hj)))]
    omega
  · rw [sum_zero_of _ _ (fun j hj => hz j hj (fun e => hi (e ▸ hj)))]
    omega

/-- What is known of the best part so far: it is not a shower, it has neighbours, which are not showers. -/
def BestOK (g : List Part) (b : Best) : Prop := 1 ≤ b.n ∧ ∀ i, b.idx = some i → b.merge ≠ [] ∧ ∀ j ∈ b.merge, ∃ q, g[j]? = some q ∧ q.em = false

theorem near_nonem {c : Cfg} {g : List Part} {i : Nat} {p0 : P2} {j : Nat} (h : isNear c g i p0 j = true) : ∃ q, g[j]? = some q ∧ q.em = false := by
  unfold isNear at h
  cases e : g[j]? with
  | none => simp [e] at h
  | some q => simp only [e, Bool.and_eq_true] at h; exact ⟨q, rfl, by simpa using h.1.1⟩

theorem upd_ok (c : Cfg) (g : List Part) (i : Nat) (p0 : P2) (b : Best) (hb : BestOK g b) :
    BestOK g (if (countNear c g i p0).1 > b.n then ⟨(countNear c g i p0).1, some i, (countNear c g i p0).2⟩ else b) := by
  split
  · rename_i h
    refine ⟨by have := hb.1; simp only; omega, ?_⟩
    intro k hk
    refine ⟨?_, ?_⟩
    · intro h0
      have := countNear_le c g i p0 h0
      have := hb.1
      omega
    · intro j hj
      rw [countNear_eq] at hj
      exact near_nonem (List.mem_filter.1 hj).2
  · exact hb

theorem scan_ok (c : Cfg) (g : List Part) (st : Best × Best) (i : Nat) (h : BestOK g st.1 ∧ BestOK g st.2) : BestOK g (scan c g st i).1 ∧ BestOK g (scan c g st i).2 := by
  unfold scan
  split
  · exact h
  · split
    · exact h
    · dsimp only
      constructor
      · split
        · exact upd_ok c g i _ _ h.1
        · exact h.1
      · split
        · exact upd_ok c g i _ _ h.2
        · exact h.2

theorem scans_ok (c : Cfg) (g : List Part) : ∀ (is : List Nat) (st : Best × Best), BestOK g st.1 ∧ BestOK g st.2 → BestOK g (is.foldl (scan c g) st).1 ∧ BestOK g (is.foldl (scan c g) st).2
  | [], st, h => h
  | i :: is, st, h => by rw [List.foldl_cons]; exact scans_ok c g is _ (scan_ok c g st i h)

/-- What is chosen has at least two parts, and the first is not a shower. -/
theorem choose_ok (c : Cfg) (hm : 1 ≤ c.minVtx) (g : List Part) (idxs : List Nat) (h : choose ((List.range g.length).foldl (scan c g) (⟨c.minVtx, none, []⟩, ⟨c.minVtx, none, []⟩)) = some idxs) :
    ∃ k k' l q, idxs = k :: k' :: l ∧ g[k]? = some q ∧ q.em = false := by
  have hok := scans_ok c g (List.range g.length) (⟨c.minVtx, none, []⟩, ⟨c.minVtx, none, []⟩) ⟨⟨hm, by simp⟩, ⟨hm, by simp⟩⟩
  revert h hok
  generalize (List.range g.length).foldl (scan c g) (⟨c.minVtx, none, []⟩, ⟨c.minVtx, none, []⟩) = st
  intro h hok
  have fin : ∀ (b : Best) (i : Nat), BestOK g b → b.idx = some i → ∃ k k' l q, b.merge ++ [i] = k :: k' :: l ∧ g[k]? = some q ∧ q.em = false := by
    intro b i hb hi
    obtain ⟨hne, hall⟩ := hb.2 i hi
    cases hM : b.merge with
    | nil => exact absurd hM hne
    | cons k l =>
      obtain ⟨q, h1, h2⟩ := hall k (by simp [hM])
      cases l with
      | nil => exact ⟨k, i, [], q, rfl, h1, h2⟩
      | cons k' l => exact ⟨k, k', l ++ [i], q, rfl, h1, h2⟩
  unfold choose at h
  split at h
  · simp at h
  · rename_i i e1 _
    simp only [Option.some.injEq] at h
    rw [← h]
    exact fin _ _ hok.1 e1
  · rename_i j _ e2
    simp only [Option.some.injEq] at h
    rw [← h]
    exact fin _ _ hok.2 e2
  · rename_i i j e1 e2
    split at h
    · simp only [Option.some.injEq] at h
      rw [← h]
      exact fin _ _ hok.2 e2
    · simp only [Option.some.injEq] at h
      rw [← h]
      exact fin _ _ hok.1 e1

/-- The number of parts that are not showers. -/
def plain (g : List Part) : Nat := g.countP fun p => !p.em

theorem plain_map (g g' : List Part) (h : g.map Part.em = g'.map Part.em) : plain g = plain g' := by
  unfold plain
  have e : ∀ l : List Part, l.countP (fun p => !p.em) = (l.map Part.em).countP (fun b => !b) := by
    intro l
    rw [List.countP_map]
    rfl
  rw [e, e, h]

theorem mergeParts_plain (g : List Part) (k k' : Nat) (l : List Nat) (q : Part) (hq : g[k]? = some q) (he : q.em = false) : plain (mergeParts g (k :: k' :: l)) < plain g := by
  unfold mergeParts
  dsimp only
  have hmap := setTags_map Part.em (fun _ => rfl) (k :: k' :: l) g
  rw [← plain_map _ _ hmap]
  revert hmap
  generalize setTags g (k :: k' :: l) = g1
  intro hmap
  have hk : g1[k]?.map Part.em = some false := by
    have := congrArg (fun l => l[k]?) hmap
    simp only [List.getElem?_map, hq, Option.map_some, he] at this
    exact this
  cases e : g1[k]? with
  | none => rw [e] at hk; simp at hk
  | some pk =>
    rw [e] at hk
    simp only [Option.map_some, Option.some.injEq] at hk
    dsimp only
    rw [absorb_eq]
    have hs := flat_split g1 k pk e
    have hc : plain g1 = plain (g1.take k) + 1 + plain (g1.drop (k + 1)) := by
      conv_lhs => rw [hs]
      unfold plain
      rw [List.countP_append, List.countP_cons]
      simp [hk]
      omega
    rw [hc]
    unfold plain
    simp only [List.countP_append, List.countP_cons, List.countP_nil]
    have := List.Sublist.countP_le (p := fun p : Part => !p.em) (List.filter_sublist (l := g1.drop (k + 1)) (p := fun p => !p.tag))
    simp
    omega

theorem mergeDense_ends (c : Cfg) (hm : 1 ≤ c.minVtx) : ∀ (n : Nat) (g : List Part), plain g ≤ n → (mergeDense c n g).isSome = true
  | 0, g, h => by
    unfold mergeDense
    split
    · rfl
    · rename_i hn
      exfalso
      obtain ⟨idxs, he⟩ := Option.ne_none_iff_exists'.1 hn
      obtain ⟨k, k', l, q, _, hq, hem⟩ := choose_ok c hm g idxs he
      have : 0 < plain g := by
        unfold plain
        rw [List.countP_pos_iff]
        obtain ⟨hlt, rfl⟩ := List.getElem?_eq_some_iff.1 hq
        exact ⟨_, List.getElem_mem hlt, by simp [hem]⟩
      omega
  | n + 1, g, h => by
    unfold mergeDense
    split
    · rfl
    · rename_i idxs he
      obtain ⟨k, k', l, q, rfl, hq, hem⟩ := choose_ok c hm g idxs he
      have := mergeParts_plain g k k' l q hq hem
      exact mergeDense_ends c hm n _ (by omega)

/-- C405: the search for segments ends for every cluster if the ring leaves out the centre and the line has a width (and then as many rounds as there are hits suffice). -/
theorem C405_ends_partial (c : Cfg) (hcl : Clusters c.cl) (hl : c.line ≠ 0) (hr : 0 < c.rmin) (inp : List Hit) : (outer c inp.length inp []).isSome = true :=
  outer_ends c hcl hl hr inp.length inp [] (le_refl _)

example : Clusters exC.cl ∧ exC.line ≠ 0 ∧ 0 < exC.rmin := ⟨alone_clusters, by decide +kernel, by decide +kernel⟩

/-- The settings of the examples with a line without width. -/
def thinC : Cfg := ⟨1, 5, 0, 2, 1, 2, 1, fun a b => decide (d2 a.pt b.pt ≤ 1), alone⟩

/-- C405: with lines of no width the search does not end: no number of rounds suffices. -/
theorem C405_refuted : ∃ inp : List Hit, ∀ n, outer thinC n inp [] = none := by
  refine ⟨[⟨0, 0, 0⟩, ⟨1, 2, 0⟩], ?_⟩
  intro n
  induction n with
  | zero => decide +kernel
  | succ n ih =>
    have e : inner thinC 3 ⟨[⟨0, 0, 0⟩, ⟨1, 2, 0⟩], [], [(0, 0)]⟩ = some ⟨[⟨0, 0, 0⟩, ⟨1, 2, 0⟩], [], []⟩ := by decide +kernel
    have e2 : outermost [⟨0, 0, 0⟩, ⟨1, 2, 0⟩] = some ⟨0, 0, 0⟩ := by decide +kernel
    unfold outer
    rw [if_pos (by decide)]
    rw [e2]
    dsimp only [List.length_cons, List.length_nil, Hit.pt]
    rw [e]
    exact ih

/-- C407: merging keeps the hits, and each part that is not a shower afterwards was a part before. -/
theorem C407_merge (c : Cfg) (n : Nat) (g g' : List Part) (h : mergeDense c n g = some g') : hitsOf g' ~ hitsOf g ∧ ∀ p ∈ g', p.em = false → ∃ q ∈ g, q.hits = p.hits ∧ q.em = false := by
  refine ⟨mergeDense_hits c n g g' h, ?_⟩
  have one : ∀ (g : List Part) (idxs : List Nat), ∀ p ∈ mergeParts g idxs, p.em = false → ∃ q ∈ g, q.hits = p.hits ∧ q.em = false := by
    intro g idxs p hp he
    have m1 : ∀ (i : Nat) (p : Part), p ∈ g.modify i (fun p => { p with em := true }) → p.em = false → p ∈ g := by
      intro i p hp he
      obtain ⟨m, hm, rfl⟩ := List.mem_iff_getElem.1 hp
      rw [List.getElem_modify] at he ⊢
      split at he
      · simp at he
      · split
        · contradiction
        · exact List.getElem_mem _
    unfold mergeParts at hp
    split at hp
    · exact ⟨p, m1 _ _ hp he, rfl, he⟩
    · exact ⟨p, m1 _ _ hp he, rfl, he⟩
    · rename_i k l _
      dsimp only at hp
      have hmap := setTags_map (fun p : Part => (p.hits, p.em)) (fun _ => rfl) (k :: l) g
      revert hp hmap
      generalize setTags g (k :: l) = g1
      intro hp hmap
      have back : ∀ p ∈ g1, ∃ q ∈ g, q.hits = p.hits ∧ q.em = p.em := by
        intro p hp
        have : (p.hits, p.em) ∈ g.map (fun p : Part => (p.hits, p.em)) := by rw [← hmap]; exact List.mem_map.2 ⟨p, hp, rfl⟩
        obtain ⟨q, hq, e⟩ := List.mem_map.1 this
        simp only [Prod.mk.injEq] at e
        exact ⟨q, hq, e⟩
      have : p ∈ g1 := by
        split at hp
        · exact hp
        · rename_i pk e
          rw [absorb_eq] at hp
          simp only [List.mem_append, List.mem_singleton] at hp
          rcases hp with (hp | rfl) | hp
          · exact List.mem_of_mem_take hp
          · simp at he
          · exact List.mem_of_mem_drop (List.mem_filter.1 hp).1
      obtain ⟨q, hq, h1, h2⟩ := back p this
      exact ⟨q, hq, h1, by rw [h2, he]⟩
  induction n generalizing g with
  | zero =>
    unfold mergeDense at h
    split at h
    · simp at h; subst h; intro p hp he; exact ⟨p, hp, rfl, he⟩
    · simp at h
  | succ n ih =>
    unfold mergeDense at h
    split at h
    · simp at h; subst h; intro p hp he; exact ⟨p, hp, rfl, he⟩
    · intro p hp he
      obtain ⟨q, hq, h1, h2⟩ := ih _ h p hp he
      obtain ⟨q', hq', h3, h4⟩ := one _ _ q hq h2
      exact ⟨q', hq', h3.trans h1, h4⟩

/-- Three parts that start near one point. -/
def exG : List Part := [⟨[⟨0, 0, 0⟩, ⟨1, 9, 0⟩], false, true, false, false⟩, ⟨[⟨2, 0, 1⟩, ⟨3, 0, 9⟩], false, true, false, false⟩, ⟨[⟨4, 1, 0⟩, ⟨5, 9, 9⟩], false, true, false, false⟩]

example : (mergeDense exC 3 exG).isSome = true := by decide +kernel

/-- C408: merging ends if at least two neighbours are asked for (`DenseMinNVtx` is not 0): as many rounds as there are parts suffice. -/
theorem C408_ends_partial (c : Cfg) (hm : 1 ≤ c.minVtx) (g : List Part) : (mergeDense c g.length g).isSome = true := by
  apply mergeDense_ends c hm
  exact List.countP_le_length

example : 1 ≤ exC.minVtx := by decide

/-- C404, C405, C408: with such settings the whole algorithm gives a result for every cluster. -/
theorem C405_run_partial (c : Cfg) (hcl : Clusters c.cl) (hl : c.line ≠ 0) (hr : 0 < c.rmin) (hm : 1 ≤ c.minVtx) (inp : List Hit) : (run c inp).isSome = true := by
  have h := C405_ends_partial c hcl hl hr inp
  unfold run
  split
  · rename_i hn
    rw [hn] at h
    simp at h
  · dsimp only
    rw [Option.isSome_map]
    exact C408_ends_partial c hm _

/-- The settings of the examples with no neighbours asked for. -/
def zeroC : Cfg := ⟨1, 5, 1, 2, 0, 2, 1, fun a b => decide (d2 a.pt b.pt ≤ 1), alone⟩

/-- C408: with `DenseMinNVtx` 0 merging does not end: a short part is a neighbour of itself, and part 0 is marked instead of it, in each round. -/
theorem C408_refuted : ∃ g : List Part, ∀ n, mergeDense zeroC n g = none := by
  refine ⟨[⟨[⟨0, 90, 0⟩], false, false, false, true⟩, ⟨[⟨1, 0, 0⟩, ⟨2, 1, 0⟩], false, true, false, false⟩], ?_⟩
  intro n
  induction n with
  | zero => decide +kernel
  | succ n ih =>
    unfold mergeDense
    have e : choose ((List.range ([⟨[⟨0, 90, 0⟩], false, false, false, true⟩, ⟨[⟨1, 0, 0⟩, ⟨2, 1, 0⟩], false, true, false, false⟩] : List Part).length).foldl
      (scan zeroC [⟨[⟨0, 90, 0⟩], false, false, false, true⟩, ⟨[⟨1, 0, 0⟩, ⟨2, 1, 0⟩], false, true, false, false⟩]) (⟨zeroC.minVtx, none, []⟩, ⟨zeroC.minVtx, none, []⟩)) = some [1] := by decide +kernel
    rw [e]
    exact ih

end Verif.Seg2D

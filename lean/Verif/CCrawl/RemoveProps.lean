import Verif.CCrawl.MergeProps

/-! Properties of the removal of obsolete hits in ClusterCrawler: C272. -/

namespace Verif.CCrawl

/-- the new place of a hit: the number of hits kept before it -/
def rank (m : Nat → Int) (k : Nat) : Nat := ((List.range k).filter fun h => decide (0 ≤ m h)).length

theorem rank_succ (m : Nat → Int) (k : Nat) : rank m (k + 1) = rank m k + if 0 ≤ m k then 1 else 0 := by
  unfold rank
  rw [List.range_succ, List.filter_append, List.length_append]
  by_cases h : 0 ≤ m k <;> simp [h]

theorem rank_le (m : Nat → Int) (k : Nat) : rank m k ≤ k := by
  unfold rank
  calc _ ≤ (List.range k).length := List.length_filter_le _ _
    _ = k := List.length_range

theorem rank_lt {m : Nat → Int} {a b : Nat} (h : a < b) (ha : 0 ≤ m a) : rank m a < rank m b := by
  induction b with
  | zero => omega
  | succ b ih =>
    rw [rank_succ]
    rcases Nat.lt_or_ge a b with h' | h'
    · have := ih h'; omega
    · have : a = b := by omega
      subst this
      rw [if_pos ha]; omega

theorem rank_inj {m : Nat → Int} {a b : Nat} (ha : 0 ≤ m a) (hb : 0 ≤ m b) (h : rank m a = rank m b) : a = b := by
  rcases Nat.lt_trichotomy a b with hl | hl | hl
  · have := rank_lt hl ha; omega
  · exact hl
  · have := rank_lt hl hb; omega

theorem replaceFirst_map (src dest : Nat) (f g : Nat → Nat) : ∀ l : List Nat, l.Nodup →
    (∀ h ∈ l, h ≠ src → f h ≠ src ∧ g h = f h) → f src = src → g src = dest →
    replaceFirst src dest (l.map f) = l.map g := by
  intro l
  induction l with
  | nil => intros; rfl
  | cons a t ih =>
    intro hn hf e1 e2
    have hn' := List.nodup_cons.mp hn
    rw [List.map_cons, List.map_cons]
    unfold replaceFirst
    by_cases ha : a = src
    · subst ha
      rw [if_pos e1, e2]
      congr 1
      apply List.map_congr_left
      intro h hh
      exact ((hf h (by simp [hh]) (by rintro rfl; exact hn'.1 hh)).2).symm
    · have := hf a (by simp) ha
      rw [if_neg this.1, this.2, ih hn'.2 (fun h hh => hf h (by simp [hh])) e1 e2]

/-- what holds after the hits before `k` are done -/
structure Mid (s t : St) (k : Nat) : Prop where
  low : ∀ h < k, 0 ≤ s.inClus h → t.hit (rank s.inClus h) = s.hit h ∧ t.inClus (rank s.inClus h) = s.inClus h
  high : ∀ h, k ≤ h → t.hit h = s.hit h ∧ t.inClus h = s.inClus h
  live : ∀ (i : Nat) c, s.tcl[i]? = some c → 0 < c.id →
    t.tcl[i]? = some { c with hits := c.hits.map fun h => if h < k then rank s.inClus h else h }
  dead : ∀ (i : Nat) c, s.tcl[i]? = some c → c.id < 0 → t.tcl[i]? = some c
  len : t.tcl.length = s.tcl.length
  other : t.n = s.n ∧ t.num = s.num

theorem mid_step {s t : St} (I : Inv s) (E : Exact s) {k : Nat} (M : Mid s t k) :
    (removeStep (rank s.inClus k, t) k).1 = rank s.inClus (k + 1) ∧ Mid s (removeStep (rank s.inClus k, t) k).2 (k + 1) := by
  have hk := M.high k le_rfl
  have hsame : s.inClus k ≤ 0 ∨ rank s.inClus k = k → ∀ (c : Cl), c ∈ s.tcl → 0 < c.id →
      (c.hits.map fun h => if h < k then rank s.inClus h else h) =
      (c.hits.map fun h => if h < k + 1 then rank s.inClus h else h) := by
    intro h0 c hc hcl
    apply List.map_congr_left
    intro h hh
    by_cases hlt : h < k
    · rw [if_pos hlt, if_pos (by omega)]
    · rw [if_neg hlt]
      by_cases he : h = k
      · subst he
        have := I.live c hc hcl h hh
        rcases h0 with h0 | h0
        · omega
        · rw [if_pos (by omega), h0]
      · rw [if_neg (by omega)]
  unfold removeStep
  dsimp only
  rw [hk.2, rank_succ]
  by_cases h1 : s.inClus k < 0
  · rw [if_pos h1, if_neg (by omega)]
    refine ⟨rfl, ?_, ?_, ?_, M.dead, M.len, M.other⟩
    · intro h hh h0
      have : h ≠ k := by rintro rfl; omega
      exact M.low h (by omega) h0
    · intro h hh; exact M.high h (by omega)
    · intro i c hc hcl
      rw [M.live i c hc hcl, hsame (Or.inl (by omega)) c (List.mem_of_getElem? hc) hcl]
  · rw [if_neg h1, if_pos (by omega : 0 ≤ s.inClus k)]
    by_cases h2 : k ≠ rank s.inClus k
    · rw [if_pos h2]
      have hle := rank_le s.inClus k
      refine ⟨rfl, ?_, ?_, ?_, ?_, ?_, M.other⟩
      · intro h hh h0
        dsimp only
        by_cases he : h = k
        · subst he
          rw [Function.update_self, Function.update_self, hk.1]
          exact ⟨rfl, rfl⟩
        · have hlt : h < k := by omega
          have := rank_lt hlt h0
          rw [Function.update_of_ne (by omega), Function.update_of_ne (by omega)]
          exact M.low h hlt h0
      · intro h hh
        dsimp only
        rw [Function.update_of_ne (by omega), Function.update_of_ne (by omega)]
        exact M.high h (by omega)
      · intro i c hc hcl
        have hmem := List.mem_of_getElem? hc
        have hid : c.id = (i : Int) + 1 := by rcases I.ids i c hc with e | e <;> omega
        dsimp only
        by_cases h3 : s.inClus k > 0
        · rw [if_pos h3, List.getElem?_modify, M.live i c hc hcl]
          by_cases h4 : (s.inClus k - 1).toNat = i
          · have hkc : s.inClus k = c.id := by omega
            have hin : k ∈ c.hits := by
              obtain ⟨d, hd, e1, e2⟩ := E k h3
              obtain ⟨j, hj⟩ := List.getElem?_of_mem hd
              have hji : j = i := by rcases I.ids j d hj with e | e <;> omega
              subst hji
              rw [hc] at hj
              cases hj
              exact e2
            simp only [Option.map_eq_map, Option.map_some, if_pos h4, Option.some.injEq]
            congr 1
            refine replaceFirst_map k _ _ _ c.hits (I.nodup c hmem) ?_ (by rw [if_neg (by omega)]) (by rw [if_pos (by omega)])
            intro h hh hne
            by_cases hlt : h < k
            · rw [if_pos hlt, if_pos (by omega)]
              have h5 := I.live c hmem hcl h hh
              have h6 := rank_lt hlt (by omega : 0 ≤ s.inClus h)
              exact ⟨by omega, rfl⟩
            · rw [if_neg hlt, if_neg (by omega)]
              exact ⟨hne, rfl⟩
          · simp only [Option.map_eq_map, Option.map_some, if_neg h4, Option.some.injEq]
            congr 1
            apply List.map_congr_left
            intro h hh
            by_cases hlt : h < k
            · rw [if_pos hlt, if_pos (by omega)]
            · have : h ≠ k := by
                rintro rfl
                have := I.live c hmem hcl h hh
                omega
              rw [if_neg hlt, if_neg (by omega)]
        · rw [if_neg h3, M.live i c hc hcl, hsame (Or.inl (by omega)) c hmem hcl]
      · intro i c hc hcl
        dsimp only
        split
        · rename_i h3
          rw [List.getElem?_modify, M.dead i c hc hcl]
          have h4 : (s.inClus k - 1).toNat ≠ i := by
            intro h4
            obtain ⟨d, hd, e1, e2⟩ := E k h3
            obtain ⟨j, hj⟩ := List.getElem?_of_mem hd
            have hji : j = i := by rcases I.ids j d hj with e | e <;> omega
            subst hji
            rw [hc] at hj
            cases hj
            omega
          simp only [Option.map_eq_map, Option.map_some, if_neg h4]
        · exact M.dead i c hc hcl
      · dsimp only
        split
        · rw [List.length_modify]; exact M.len
        · exact M.len
    · rw [if_neg h2]
      push Not at h2
      refine ⟨rfl, ?_, ?_, ?_, M.dead, M.len, M.other⟩
      · intro h hh h0
        by_cases he : h = k
        · subst he
          rw [← h2]; exact hk
        · exact M.low h (by omega) h0
      · intro h hh; exact M.high h (by omega)
      · intro i c hc hcl
        rw [M.live i c hc hcl, hsame (Or.inr h2.symm) c (List.mem_of_getElem? hc) hcl]

theorem mid_range {s : St} (I : Inv s) (E : Exact s) (k : Nat) :
    ((List.range k).foldl removeStep (0, s)).1 = rank s.inClus k ∧ Mid s ((List.range k).foldl removeStep (0, s)).2 k := by
  induction k with
  | zero =>
    refine ⟨rfl, by intro h hh; omega, fun h _ => ⟨rfl, rfl⟩, ?_, fun i c hc _ => hc, rfl, rfl, rfl⟩
    intro i c hc _
    show s.tcl[i]? = _
    rw [hc]; simp
  | succ k ih =>
    rw [List.range_succ, List.foldl_append]
    obtain ⟨e, M⟩ := ih
    generalize (List.range k).foldl removeStep (0, s) = p at *
    obtain ⟨d, t⟩ := p
    dsimp only at e M
    subst e
    exact mid_step I E M

/-- C272 (part): if the marks are exact, removing the obsolete hits keeps every other hit, in order, with its mark, and every
live cluster keeps exactly its hits under their new numbers; deleted clusters are not touched, and the check of the module still
passes. -/
theorem C272_remove_partial {s : St} (I : Inv s) (E : Exact s) (hb : ∀ c ∈ s.tcl, 0 < c.id → ∀ h ∈ c.hits, h < s.n) :
    let t := removeObsolete s
    t.n = rank s.inClus s.n ∧
    (∀ h < s.n, 0 ≤ s.inClus h → rank s.inClus h < t.n ∧ t.hit (rank s.inClus h) = s.hit h ∧
      t.inClus (rank s.inClus h) = s.inClus h) ∧
    (∀ (i : Nat) c, s.tcl[i]? = some c → 0 < c.id → t.tcl[i]? = some { c with hits := c.hits.map (rank s.inClus) }) ∧
    (∀ (i : Nat) c, s.tcl[i]? = some c → c.id < 0 → t.tcl[i]? = some c) ∧
    t.tcl.length = s.tcl.length ∧ moduleCheck t = true := by
  intro t
  obtain ⟨e, M⟩ := mid_range I E s.n
  have ht : t.n = rank s.inClus s.n ∧ t.hit = ((List.range s.n).foldl removeStep (0, s)).2.hit ∧
      t.inClus = ((List.range s.n).foldl removeStep (0, s)).2.inClus ∧
      t.tcl = ((List.range s.n).foldl removeStep (0, s)).2.tcl := ⟨e, rfl, rfl, rfl⟩
  generalize ((List.range s.n).foldl removeStep (0, s)).2 = u at *
  obtain ⟨t1, t2, t3, t4⟩ := ht
  have hlow : ∀ h < s.n, 0 ≤ s.inClus h → rank s.inClus h < t.n ∧ t.hit (rank s.inClus h) = s.hit h ∧
      t.inClus (rank s.inClus h) = s.inClus h := by
    intro h hh h0
    rw [t1, t2, t3]
    exact ⟨rank_lt hh h0, M.low h hh h0⟩
  have hlive : ∀ (i : Nat) c, s.tcl[i]? = some c → 0 < c.id →
      t.tcl[i]? = some { c with hits := c.hits.map (rank s.inClus) } := by
    intro i c hc hcl
    rw [t4, M.live i c hc hcl]
    congr 2
    apply List.map_congr_left
    intro h hh
    rw [if_pos (hb c (List.mem_of_getElem? hc) hcl h hh)]
  have hdead : ∀ (i : Nat) c, s.tcl[i]? = some c → c.id < 0 → t.tcl[i]? = some c := by
    intro i c hc hcl
    rw [t4]; exact M.dead i c hc hcl
  refine ⟨t1, hlow, hlive, hdead, by rw [t4]; exact M.len, ?_⟩
  unfold moduleCheck
  rw [List.all_eq_true]
  intro d hd
  obtain ⟨i, hi⟩ := List.getElem?_of_mem hd
  have hil : i < s.tcl.length := by
    have := (List.getElem?_eq_some_iff.mp hi).1
    rw [t4, M.len] at this; exact this
  obtain ⟨c, hc⟩ : ∃ c, s.tcl[i]? = some c := ⟨_, List.getElem?_eq_getElem hil⟩
  have hids := I.ids i c hc
  by_cases hneg : c.id < 0
  · rw [hdead i c hc hneg] at hi
    cases hi
    simp [hneg]
  · have hcl : 0 < c.id := by omega
    rw [hlive i c hc hcl] at hi
    cases hi
    simp only [Bool.or_eq_true, List.all_eq_true, Bool.and_eq_true, beq_iff_eq]
    right
    intro x hx
    obtain ⟨h, hh, rfl⟩ := List.mem_map.mp hx
    have hmem := List.mem_of_getElem? hc
    have h5 := I.live c hmem hcl h hh
    obtain ⟨_, k2, k3⟩ := hlow h (hb c hmem hcl h hh) (by omega)
    rw [k2, k3]
    exact ⟨I.plane c hmem h hh, h5⟩

/-- C272 (refuted): after a store that failed, a stray mark makes the removal look at a cluster that does not exist. -/
theorem C272_refuted : ¬ ∀ (H : Nat → Hit) (n : Nat) (ops : List Op),
    ∀ i ∈ removeReads (ops.foldl step (start H n)), i < (ops.foldl step (start H n)).tcl.length := by
  intro h
  have := h exHit 10 [Op.dropHit 0, Op.store [2, 1] 0] 0 (by decide +kernel)
  revert this
  decide +kernel

/-- hits 1 and 4 obsolete: the hits of the cluster are renumbered -/
example : let s := [Op.store [2, 3, 5] 0, Op.dropHit 1, Op.dropHit 4].foldl step (start exHit 7)
    (removeObsolete s).n = 5 ∧ (removeObsolete s).tcl.map (fun c => (c.id, c.hits)) = [(1, [1, 2, 3])] ∧
    (List.range 5).map (removeObsolete s).inClus = [0, 1, 1, 1, 0] := by decide +kernel

end Verif.CCrawl

import Verif.Cluster.DBScan3DModel
import Mathlib.Data.List.Nodup
import Mathlib.Data.List.Range
import Mathlib.Logic.Relation
/-! Invariants of the DBSCAN loops -/
namespace Verif.DBScan3D

variable {n minpts : Nat} {nr : Nat → Nat → Bool}

theorem mem_nbrs {i j : Nat} : j ∈ nbrs n nr i ↔ j < n ∧ j ≠ i ∧ nr i j = true := by
  simp [nbrs]

theorem nodup_nbrs (i : Nat) : (nbrs n nr i).Nodup := List.nodup_range.filter _

/-- the point has at least `minpts` neighbours -/
def Core (n minpts : Nat) (nr : Nat → Nat → Bool) (i : Nat) : Prop := minpts ≤ (nbrs n nr i).length

/-- core points one step apart -/
def CoreStep (n minpts : Nat) (nr : Nat → Nat → Bool) (i j : Nat) : Prop :=
  i < n ∧ Core n minpts nr i ∧ Core n minpts nr j ∧ j ∈ nbrs n nr i

def Conn (n minpts : Nat) (nr : Nat → Nat → Bool) : Nat → Nat → Prop :=
  Relation.ReflTransGen (CoreStep n minpts nr)

theorem nb_symm (hs : ∀ i j, nr i j = nr j i) {i j : Nat} (hi : i < n) (h : j ∈ nbrs n nr i) : i ∈ nbrs n nr j := by
  rw [mem_nbrs] at h ⊢
  exact ⟨hi, fun e => h.2.1 e.symm, by rw [hs]; exact h.2.2⟩

theorem coreStep_symm (hs : ∀ i j, nr i j = nr j i) {i j : Nat} (h : CoreStep n minpts nr i j) :
    CoreStep n minpts nr j i :=
  ⟨(mem_nbrs.1 h.2.2.2).1, h.2.2.1, h.2.1, nb_symm hs h.1 h.2.2.2⟩

theorem conn_symm (hs : ∀ i j, nr i j = nr j i) {i j : Nat} (h : Conn n minpts nr i j) : Conn n minpts nr j i := by
  induction h with
  | refl => exact .refl
  | tail _ hbc ih => exact .head (coreStep_symm hs hbc) ih

/-- invariant of the main loop with `c` clusters found -/
structure Inv (n minpts : Nat) (nr : Nat → Nat → Bool) (lab : Labels) (c : Nat) : Prop where
  range : ∀ j, j < n → lab j = -1 ∨ lab j = -2 ∨ (0 ≤ lab j ∧ lab j < c)
  closed : ∀ j, j < n → Core n minpts nr j → 0 ≤ lab j →
    ∀ k ∈ nbrs n nr j, 0 ≤ lab k ∧ (Core n minpts nr k → lab k = lab j)
  border : ∀ j, j < n → ¬ Core n minpts nr j → 0 ≤ lab j → ∃ k ∈ nbrs n nr j, Core n minpts nr k ∧ lab k = lab j
  noise : ∀ j, j < n → lab j = -2 → ¬ Core n minpts nr j
  used : ∀ id : Nat, id < c → ∃ j, j < n ∧ Core n minpts nr j ∧ lab j = id
  conn : ∀ i j, i < n → j < n → Core n minpts nr i → Core n minpts nr j → 0 ≤ lab i → lab i = lab j →
    Conn n minpts nr i j

/-- closed form of a pass of `spread` -/
theorem foldl_touch (c : Int) (hc : 0 ≤ c) (l : List Nat) (hl : l.Nodup) (lab : Labels) (pend : List Nat)
    (hr : ∀ j ∈ l, lab j = -1 ∨ lab j = -2 ∨ 0 ≤ lab j) :
    l.foldl (touch c) (lab, pend) =
      (fun j => if j ∈ l ∧ lab j < 0 then c else lab j, pend ++ l.filter (fun j => decide (lab j = -1))) := by
  induction l generalizing lab pend with
  | nil => simp
  | cons d l ih =>
    obtain ⟨hd, hl'⟩ := List.nodup_cons.1 hl
    rw [List.foldl_cons]
    have hrd := hr d (List.mem_cons_self ..)
    have key : ∀ lab' : Labels, (∀ j, j ≠ d → lab' j = lab j) → lab' d = (if lab d < 0 then c else lab d) →
        ∀ pend', l.foldl (touch c) (lab', pend') =
        (fun j => if j ∈ d :: l ∧ lab j < 0 then c else lab j, pend' ++ l.filter (fun j => decide (lab j = -1))) := by
      intro lab' h1 h2 pend'
      rw [ih hl' lab' pend' (by
        intro j hj
        rw [h1 j (by rintro rfl; exact hd hj)]
        exact hr j (List.mem_cons_of_mem _ hj))]
      refine Prod.ext ?_ ?_
      · funext j
        dsimp only
        by_cases hj : j = d
        · subst hj
          rw [if_neg (fun h => hd h.1), h2]
          simp
        · rw [h1 j hj]
          simp [hj]
      · dsimp only
        congr 1
        apply List.filter_congr
        intro j hj
        rw [h1 j (by rintro rfl; exact hd hj)]
    have ht : touch c (lab, pend) d = if lab d = NOISE ∨ lab d = UNCLASSIFIED then
        (upd lab d c, if lab d = UNCLASSIFIED then pend ++ [d] else pend) else (lab, pend) := rfl
    rw [ht]
    rcases hrd with h | h | h
    · rw [if_pos (Or.inr h), if_pos h,
        key (upd lab d c) (fun j hj => by simp [upd, hj]) (by simp [upd, h]) (pend ++ [d])]
      simp [h]
    · rw [if_pos (Or.inl h), if_neg (by rw [h]; decide),
        key (upd lab d c) (fun j hj => by simp [upd, hj]) (by simp [upd, h]) pend]
      simp [h]
    · rw [if_neg (by simp only [NOISE, UNCLASSIFIED]; omega), key lab (fun _ _ => rfl) (by rw [if_neg (by omega)]) pend]
      rw [List.filter_cons_of_neg (by simp; omega)]

theorem foldl_upd (c : Int) (l : List Nat) (lab : Labels) (j : Nat) :
    l.foldl (fun l j => upd l j c) lab j = if j ∈ l then c else lab j := by
  induction l generalizing lab with
  | nil => simp
  | cons d l ih =>
    rw [List.foldl_cons, ih]
    by_cases h : j ∈ l
    · simp [h]
    · by_cases hd : j = d
      · simp [hd, upd]
      · simp [h, hd, upd]

/-- invariant while the cluster `c` around core point `s` grows; `lab0` are the labels before -/
structure Grow (n minpts : Nat) (nr : Nat → Nat → Bool) (lab0 : Labels) (c : Nat) (s : Nat) (lab : Labels)
    (pend : List Nat) : Prop where
  same : ∀ j, j < n → lab j = c ∨ lab j = lab0 j
  keep : ∀ j, j < n → Core n minpts nr j → 0 ≤ lab0 j → lab j = lab0 j
  done : ∀ j, j < n → Core n minpts nr j → lab j = c → j ∉ pend →
    ∀ k ∈ nbrs n nr j, 0 ≤ lab k ∧ (Core n minpts nr k → lab k = c)
  border : ∀ j, j < n → ¬ Core n minpts nr j → lab j = c → ∃ k ∈ nbrs n nr j, Core n minpts nr k ∧ lab k = c
  conn : ∀ j, j < n → Core n minpts nr j → lab j = c → Conn n minpts nr s j
  pend_lt : ∀ j ∈ pend, j < n ∧ lab j = c
  start : lab s = c

theorem spread_noncore {c : Int} {lab : Labels} {pend : List Nat} {i : Nat} (h : ¬ Core n minpts nr i) :
    spread n minpts nr c lab pend i = (lab, pend) := by
  unfold spread; exact if_neg h

/-- number of points still unclassified -/
def unclassified (n : Nat) (lab : Labels) : Nat := ((List.range n).filter (fun j => decide (lab j = -1))).length

theorem grow_step (hs : ∀ i j, nr i j = nr j i) {lab0 : Labels} {c s : Nat} (hi : Inv n minpts nr lab0 c)
    {lab : Labels} {h : Nat} {t : List Nat} (hg : Grow n minpts nr lab0 c s lab (h :: t)) :
    let r := spread n minpts nr c lab t h
    Grow n minpts nr lab0 c s r.1 r.2 ∧ r.2.length + unclassified n r.1 = t.length + unclassified n lab := by
  obtain ⟨hhn, hhc⟩ := hg.pend_lt h (List.mem_cons_self ..)
  have hcn : (0 : Int) ≤ c := by omega
  by_cases hcore : Core n minpts nr h
  · have hrange : ∀ j, j < n → lab j = -1 ∨ lab j = -2 ∨ 0 ≤ lab j := by
      intro j hj
      rcases hg.same j hj with e | e
      · right; right; omega
      · rw [e]; rcases hi.range j hj with h | h | h
        · exact Or.inl h
        · exact Or.inr (Or.inl h)
        · exact Or.inr (Or.inr h.1)
    have hsp : spread n minpts nr c lab t h =
        (fun j => if j ∈ nbrs n nr h ∧ lab j < 0 then (c : Int) else lab j,
          t ++ (nbrs n nr h).filter (fun j => decide (lab j = -1))) := by
      unfold spread
      rw [if_pos (show (nbrs n nr h).length ≥ minpts from hcore)]
      exact foldl_touch c hcn _ (nodup_nbrs h) lab t (fun j hj => hrange j (mem_nbrs.1 hj).1)
    rw [hsp]
    dsimp only
    set lab' : Labels := fun j => if j ∈ nbrs n nr h ∧ lab j < 0 then (c : Int) else lab j with hlab'
    have hnew : ∀ j, lab' j = c → lab j = c ∨ (j ∈ nbrs n nr h ∧ lab j < 0) := by
      intro j hj
      simp only [hlab'] at hj
      split at hj
      · rename_i hc'; exact Or.inr hc'
      · exact Or.inl hj
    have hold : ∀ j, lab j = c → lab' j = c := by
      intro j hj; simp only [hlab']; rw [if_neg (by omega)]; exact hj
    have hmono : ∀ j, 0 ≤ lab j → lab' j = lab j := by
      intro j hj; simp only [hlab']; rw [if_neg (by omega)]
    -- a core neighbour of h never carries an older label
    have hnbcore : ∀ k ∈ nbrs n nr h, Core n minpts nr k → ¬ (0 ≤ lab0 k) := by
      intro k hk hkc h0
      have hkn := (mem_nbrs.1 hk).1
      have := (hi.closed k hkn hkc h0 h (nb_symm hs hhn hk)).2 hcore
      have h0h : 0 ≤ lab0 h := by omega
      have := hg.keep h hhn hcore h0h
      rcases hi.range h hhn with e | e | e <;> omega
    have hnb : ∀ k ∈ nbrs n nr h, 0 ≤ lab' k ∧ (Core n minpts nr k → lab' k = c) := by
      intro k hk
      have hkn := (mem_nbrs.1 hk).1
      by_cases hneg : lab k < 0
      · have : lab' k = c := by simp only [hlab']; rw [if_pos ⟨hk, hneg⟩]
        exact ⟨by omega, fun _ => this⟩
      · have h0 : 0 ≤ lab k := by omega
        rw [hmono k h0]
        refine ⟨h0, fun hkc => ?_⟩
        rcases hg.same k hkn with e | e
        · exact e
        · exact absurd (e ▸ h0) (hnbcore k hk hkc)
    refine ⟨⟨?_, ?_, ?_, ?_, ?_, ?_, hold s hg.start⟩, ?_⟩
    · intro j hj
      simp only [hlab']
      split
      · exact Or.inl rfl
      · exact hg.same j hj
    · intro j hj hjc h0
      have := hg.keep j hj hjc h0
      rw [hmono j (by omega), this]
    · intro j hj hjc hjl hjp k hk
      by_cases hjh : j = h
      · subst hjh; exact hnb k hk
      · rcases hnew j hjl with e | ⟨e1, e2⟩
        · obtain ⟨g1, g2⟩ := hg.done j hj hjc e (by
            intro hm
            rcases List.mem_cons.1 hm with h' | h'
            · exact hjh h'
            · exact hjp (List.mem_append_left _ h')) k hk
          exact ⟨by rw [hmono k g1]; exact g1, fun hkc => hold k (g2 hkc)⟩
        · exfalso
          rcases hrange j hj with e | e | e
          · exact hjp (List.mem_append_right _ (List.mem_filter.2 ⟨e1, by simpa using e⟩))
          · rcases hg.same j hj with e' | e'
            · omega
            · exact hi.noise j hj (by rw [← e']; exact e) hjc
          · omega
    · intro j hj hjc hjl
      rcases hnew j hjl with e | ⟨e1, _⟩
      · obtain ⟨k, hk, hkc, hkl⟩ := hg.border j hj hjc e
        exact ⟨k, hk, hkc, hold k hkl⟩
      · exact ⟨h, nb_symm hs hhn e1, hcore, hold h hhc⟩
    · intro j hj hjc hjl
      rcases hnew j hjl with e | ⟨e1, _⟩
      · exact hg.conn j hj hjc e
      · exact (hg.conn h hhn hcore hhc).tail ⟨hhn, hcore, hjc, e1⟩
    · intro j hj
      rcases List.mem_append.1 hj with h' | h'
      · obtain ⟨a, b⟩ := hg.pend_lt j (List.mem_cons_of_mem _ h')
        exact ⟨a, hold j b⟩
      · obtain ⟨a, b⟩ := List.mem_filter.1 h'
        have b : lab j = -1 := by simpa using b
        exact ⟨(mem_nbrs.1 a).1, by simp only [hlab']; rw [if_pos ⟨a, by omega⟩]⟩
    · have e1 : unclassified n lab =
          ((List.range n).filter (fun j => decide (lab' j = -1))).length +
          ((nbrs n nr h).filter (fun j => decide (lab j = -1))).length := by
        unfold unclassified
        rw [List.length_eq_length_filter_add (l := (List.range n).filter (fun j => decide (lab j = -1)))
          (fun j => decide (j ∉ nbrs n nr h)), List.filter_filter, List.filter_filter]
        congr 2
        · apply List.filter_congr
          intro j hj
          simp only [hlab']
          by_cases hm : j ∈ nbrs n nr h
          · by_cases hneg : lab j < 0
            · simp [hm, hneg]
            · simp [hm, hneg]; omega
          · simp [hm]
        · unfold nbrs
          rw [List.filter_filter]
          apply List.filter_congr
          intro j hj
          have hjn : j < n := List.mem_range.1 hj
          simp [hjn, Bool.and_comm]
      rw [e1]
      unfold unclassified
      rw [List.length_append]
      omega
  · rw [spread_noncore hcore]
    dsimp only
    refine ⟨⟨hg.same, hg.keep, ?_, hg.border, hg.conn, fun j hj => hg.pend_lt j (List.mem_cons_of_mem _ hj), hg.start⟩, rfl⟩
    intro j hj hjc hjl hjp
    exact hg.done j hj hjc hjl (by
      intro hm
      rcases List.mem_cons.1 hm with h' | h'
      · subst h'; exact hcore hjc
      · exact hjp h')

theorem seedLoop_spec (hs : ∀ i j, nr i j = nr j i) {lab0 : Labels} {c s : Nat} (hi : Inv n minpts nr lab0 c)
    (fuel : Nat) {lab : Labels} {pend : List Nat} (hg : Grow n minpts nr lab0 c s lab pend)
    (hf : pend.length + unclassified n lab ≤ fuel) :
    ∃ lab', seedLoop n minpts nr c fuel lab pend = some lab' ∧ Grow n minpts nr lab0 c s lab' [] := by
  induction fuel generalizing lab pend with
  | zero =>
    have : pend = [] := List.length_eq_zero_iff.1 (by omega)
    subst this
    exact ⟨lab, rfl, hg⟩
  | succ fuel ih =>
    cases pend with
    | nil => exact ⟨lab, rfl, hg⟩
    | cons h t =>
      obtain ⟨g1, g2⟩ := grow_step hs hi hg
      unfold seedLoop
      exact ih g1 (by rw [g2]; simp at hf; omega)

theorem unclassified_le (lab : Labels) : unclassified n lab ≤ n := by
  unfold unclassified
  exact (List.length_filter_le _ _).trans (by simp)

/-- a grown cluster restores the main invariant -/
theorem grow_inv (hs : ∀ i j, nr i j = nr j i) {lab0 lab : Labels} {c s : Nat} (hi : Inv n minpts nr lab0 c)
    (hsn : s < n) (hsc : Core n minpts nr s) (hg : Grow n minpts nr lab0 c s lab []) :
    Inv n minpts nr lab (c + 1) := by
  have hcases : ∀ j, j < n → (lab j = c) ∨ (lab j = lab0 j ∧ lab j ≠ c) := by
    intro j hj
    by_cases h : lab j = c
    · exact Or.inl h
    · exact Or.inr ⟨(hg.same j hj).resolve_left h, h⟩
  have hnn : ∀ k, k < n → 0 ≤ lab0 k → 0 ≤ lab k := by
    intro k hk h0
    rcases hg.same k hk with e | e <;> omega
  constructor
  · intro j hj
    rcases hcases j hj with e | ⟨e, _⟩
    · right; right; push_cast; omega
    · rw [e]; rcases hi.range j hj with h | h | h
      · exact Or.inl h
      · exact Or.inr (Or.inl h)
      · right; right; push_cast; omega
  · intro j hj hjc hjl k hk
    rcases hcases j hj with e | ⟨e, hne⟩
    · rw [e]; exact hg.done j hj hjc e (by simp) k hk
    · have hkn := (mem_nbrs.1 hk).1
      obtain ⟨a, b⟩ := hi.closed j hj hjc (by omega) k hk
      refine ⟨hnn k hkn a, fun hkc => ?_⟩
      rw [hg.keep k hkn hkc a, b hkc, e]
  · intro j hj hjc hjl
    rcases hcases j hj with e | ⟨e, hne⟩
    · rw [e]; exact hg.border j hj hjc e
    · obtain ⟨k, hk, hkc, hkl⟩ := hi.border j hj hjc (by omega)
      exact ⟨k, hk, hkc, by rw [hg.keep k (mem_nbrs.1 hk).1 hkc (by omega), hkl, e]⟩
  · intro j hj hjl
    rcases hcases j hj with e | ⟨e, hne⟩
    · omega
    · exact hi.noise j hj (by rw [← e]; exact hjl)
  · intro id hid
    by_cases h : id = c
    · subst h; exact ⟨s, hsn, hsc, hg.start⟩
    · obtain ⟨j, hj, hjc, hjl⟩ := hi.used id (by omega)
      exact ⟨j, hj, hjc, by rw [hg.keep j hj hjc (by omega), hjl]⟩
  · intro i j hi' hj hic hjc hl he
    rcases hcases i hi' with e | ⟨e, hne⟩
    · exact (conn_symm hs (hg.conn i hi' hic e)).trans (hg.conn j hj hjc (by rw [← he]; exact e))
    · rcases hcases j hj with e' | ⟨e', _⟩
      · exact absurd (he.trans e') hne
      · exact hi.conn i j hi' hj hic hjc (by omega) (by omega)

theorem expand_spec (hs : ∀ i j, nr i j = nr j i) {lab : Labels} {c i : Nat} (hi : Inv n minpts nr lab c)
    (hin : i < n) (hl : lab i = -1) (fuel : Nat) (hf : 2 * n ≤ fuel) :
    ∃ lab' core, expand n minpts nr fuel lab i c = some (lab', core) ∧
      Inv n minpts nr lab' (if core then c + 1 else c) ∧ lab' i ≠ -1 ∧
      (∀ j, j < n → lab j ≠ -1 → lab' j ≠ -1) := by
  unfold expand
  by_cases hc : (nbrs n nr i).length < minpts
  · rw [if_pos hc]
    have hnc : ¬ Core n minpts nr i := by unfold Core; omega
    refine ⟨_, _, rfl, ?_, by simp [upd], ?_⟩
    · have hu : ∀ j, j ≠ i → upd lab i NOISE j = lab j := fun j hj => by simp [upd, hj]
      have hui : upd lab i NOISE i = -2 := by simp [upd]
      have hne : ∀ j, 0 ≤ upd lab i NOISE j → j ≠ i := by rintro j hj rfl; rw [hui] at hj; omega
      have hne' : ∀ j, 0 ≤ lab j → j ≠ i := by rintro j hj rfl; omega
      simp only [Bool.false_eq_true, if_false]
      constructor
      · intro j hj
        by_cases h : j = i
        · subst h; rw [hui]; simp
        · rw [hu j h]; exact hi.range j hj
      · intro j hj hjc hjl k hk
        have h := hne j hjl
        rw [hu j h] at hjl ⊢
        obtain ⟨a, b⟩ := hi.closed j hj hjc hjl k hk
        rw [hu k (hne' k a)]
        exact ⟨a, b⟩
      · intro j hj hjc hjl
        have h := hne j hjl
        rw [hu j h] at hjl ⊢
        obtain ⟨k, hk, hkc, hkl⟩ := hi.border j hj hjc hjl
        exact ⟨k, hk, hkc, by rw [hu k (hne' k (by omega))]; exact hkl⟩
      · intro j hj hjl
        by_cases h : j = i
        · subst h; exact hnc
        · rw [hu j h] at hjl; exact hi.noise j hj hjl
      · intro id hid
        obtain ⟨j, hj, hjc, hjl⟩ := hi.used id hid
        exact ⟨j, hj, hjc, by rw [hu j (hne' j (by omega))]; exact hjl⟩
      · intro a b ha hb hac hbc hal he
        have h1 := hne a hal
        have h2 := hne b (by rw [← he]; exact hal)
        rw [hu a h1] at hal he
        rw [hu b h2] at he
        exact hi.conn a b ha hb hac hbc hal he
    · intro j _ hj
      by_cases h : j = i
      · subst h; simp [upd]
      · simp [upd, h, hj]
  · rw [if_neg hc]
    have hcore : Core n minpts nr i := by unfold Core; omega
    dsimp only
    set lab1 := (nbrs n nr i).foldl (fun l j => upd l j (c : Int)) (upd lab i c) with hlab1
    have hl1 : ∀ j, lab1 j = if j ∈ nbrs n nr i ∨ j = i then (c : Int) else lab j := by
      intro j
      rw [hlab1, foldl_upd]
      by_cases h : j ∈ nbrs n nr i
      · simp [h]
      · simp [h, upd]
    have hg : Grow n minpts nr lab c i lab1 (nbrs n nr i) := by
      constructor
      · intro j _
        rw [hl1]
        split
        · exact Or.inl rfl
        · exact Or.inr rfl
      · intro j hj hjc h0
        rw [hl1, if_neg]
        rintro (h | h)
        · have := (hi.closed j hj hjc h0 i (nb_symm hs hin h)).1
          omega
        · subst h; omega
      · intro j hj hjc hjl hjp k hk
        have hji : j = i := by
          rw [hl1] at hjl
          split at hjl
          · rename_i h; exact h.resolve_left hjp
          · rcases hi.range j hj with h | h | h <;> omega
        subst hji
        have : lab1 k = c := by rw [hl1, if_pos (Or.inl hk)]
        exact ⟨by omega, fun _ => this⟩
      · intro j hj hjc hjl
        rw [hl1] at hjl
        split at hjl
        · rename_i h
          rcases h with h | h
          · exact ⟨i, nb_symm hs hin h, hcore, by rw [hl1, if_pos (Or.inr rfl)]⟩
          · subst h; exact absurd hcore hjc
        · rcases hi.range j hj with h | h | h <;> omega
      · intro j hj hjc hjl
        rw [hl1] at hjl
        split at hjl
        · rename_i h
          rcases h with h | h
          · exact .single ⟨hin, hcore, hjc, h⟩
          · subst h; exact .refl
        · rcases hi.range j hj with h | h | h <;> omega
      · intro j hj
        exact ⟨(mem_nbrs.1 hj).1, by rw [hl1, if_pos (Or.inl hj)]⟩
      · rw [hl1, if_pos (Or.inr rfl)]
    have hlen : (nbrs n nr i).length ≤ n := (List.length_filter_le _ _).trans (by simp)
    obtain ⟨lab', e1, e2⟩ := seedLoop_spec hs hi fuel hg (by have := unclassified_le (n := n) lab1; omega)
    refine ⟨lab', true, by rw [e1]; rfl, by simpa using grow_inv hs hi hin hcore e2, ?_, ?_⟩
    · rw [e2.start]; omega
    · intro j hj hjl
      rcases e2.same j hj with e | e
      · omega
      · rw [e]; exact hjl

theorem scanLoop_spec (hs : ∀ i j, nr i j = nr j i) (fuel : Nat) (hf : 2 * n ≤ fuel) (is : List Nat)
    (his : ∀ i ∈ is, i < n) {lab : Labels} {c : Nat} (hi : Inv n minpts nr lab c) :
    ∃ lab' c', scanLoop n minpts nr fuel is lab c = some (lab', c') ∧ Inv n minpts nr lab' c' ∧
      (∀ i ∈ is, lab' i ≠ -1) ∧ (∀ j, j < n → lab j ≠ -1 → lab' j ≠ -1) := by
  induction is generalizing lab c with
  | nil => exact ⟨lab, c, rfl, hi, by simp, fun _ _ h => h⟩
  | cons i is ih =>
    have hin := his i (List.mem_cons_self ..)
    have his' := fun j hj => his j (List.mem_cons_of_mem _ hj)
    unfold scanLoop
    by_cases hl : lab i = UNCLASSIFIED
    · rw [if_pos hl]
      obtain ⟨lab1, core, e1, e2, e3, e4⟩ := expand_spec hs hi hin hl fuel hf
      rw [e1]
      dsimp only
      obtain ⟨lab', c', f1, f2, f3, f4⟩ := ih his' e2
      refine ⟨lab', c', f1, f2, ?_, fun j hj h => f4 j hj (e4 j hj h)⟩
      intro j hj
      rcases List.mem_cons.1 hj with h | h
      · subst h; exact f4 j hin e3
      · exact f3 j h
    · rw [if_neg hl]
      obtain ⟨lab', c', f1, f2, f3, f4⟩ := ih his' hi
      refine ⟨lab', c', f1, f2, ?_, f4⟩
      intro j hj
      rcases List.mem_cons.1 hj with h | h
      · subst h; exact f4 j hin hl
      · exact f3 j h

theorem inv_init : Inv n minpts nr (fun _ => UNCLASSIFIED) 0 := by
  constructor
  · intro j _; exact Or.inl rfl
  · intro j _ _ h; simp [UNCLASSIFIED] at h
  · intro j _ _ h; simp [UNCLASSIFIED] at h
  · intro j _ h; simp [UNCLASSIFIED] at h
  · intro id h; omega
  · intro i j _ _ _ _ h; simp [UNCLASSIFIED] at h

theorem dbscanOn_spec (hs : ∀ i j, nr i j = nr j i) (fuel : Nat) (hf : 2 * n ≤ fuel) :
    ∃ lab c, dbscanOn n minpts nr fuel = some (lab, c) ∧ Inv n minpts nr lab c ∧ ∀ i, i < n → lab i ≠ -1 := by
  obtain ⟨lab, c, h1, h2, h3, _⟩ := scanLoop_spec hs fuel hf (List.range n) (fun i hi => List.mem_range.1 hi)
    (inv_init (n := n) (minpts := minpts) (nr := nr))
  exact ⟨lab, c, h1, h2, fun i hi => h3 i (List.mem_range.2 hi)⟩

theorem dist_comm (w : ℚ) (a b : Pt) : dist w a b = dist w b a := by
  unfold dist
  congr 1
  rw [Nat.add_comm a.bad b.bad]
  ring

theorem near_symm (eps w : ℚ) (pts : List Pt) (i j : Nat) : near eps w pts i j = near eps w pts j i := by
  unfold near
  cases pts[i]? <;> cases pts[j]? <;> simp [dist_comm]

end Verif.DBScan3D

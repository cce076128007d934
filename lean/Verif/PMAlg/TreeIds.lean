import Verif.PMAlg.TreeWalk
/-! # Track trees: tree identifiers -/
namespace Verif.PMAlg.Tree
open Relation

variable {g : Graph} {T : List Nat}

/-- the track of candidate `i` -/
def trackAt (c : List Cand) (i : Nat) : Option Nat := c[i]?.bind Cand.track

/-- the tree identifier of candidate `i` -/
def idAt (c : List Cand) (i : Nat) : Int := (c[i]?.map Cand.treeId).getD (-1)

/-- everything but the tree identifiers -/
def noId (x : Cand) : Option Nat × Int × List Nat × List Nat := (x.track, x.parent, x.daughters, x.clusters)

theorem mark_noId (P : Nat → Prop) (id : Int) (c : List Cand) : (mark P id c).map noId = c.map noId := by
  simp only [mark, List.map_map]
  apply List.map_congr_left
  intro x _
  simp only [Function.comp, markOne]
  split <;> rfl

theorem trackAt_noId {c c' : List Cand} (h : c'.map noId = c.map noId) (i : Nat) : trackAt c' i = trackAt c i := by
  have : (c'.map noId)[i]? = (c.map noId)[i]? := by rw [h]
  simp only [List.getElem?_map] at this
  unfold trackAt
  cases h1 : c'[i]? <;> cases h2 : c[i]? <;> simp [h1, h2, noId] at this ⊢
  exact this.1

theorem distinct_noId {c c' : List Cand} (h : c'.map noId = c.map noId) (hd : Distinct c) : Distinct c' := by
  intro i j t h1 h2
  have e := trackAt_noId h
  unfold trackAt at e
  rw [e] at h1 h2
  exact hd i j t h1 h2

theorem inC_noId {c c' : List Cand} (h : c'.map noId = c.map noId) (u : Nat) : InC c' u ↔ InC c u := by
  have e := trackAt_noId h
  unfold trackAt at e
  simp only [InC, e]

theorem idAt_mark (P : Nat → Prop) (id : Int) (c : List Cand) (i t : Nat) (h : trackAt c i = some t) :
    (P t → idAt (mark P id c) i = id) ∧ (¬ P t → idAt (mark P id c) i = idAt c i) := by
  unfold trackAt at h
  unfold idAt
  simp only [mark, List.getElem?_map]
  cases hx : c[i]? with
  | none => rw [hx] at h; cases h
  | some x =>
    rw [hx] at h
    simp only [Option.map_some, Option.getD_some]
    refine ⟨fun hP => by rw [markOne_pos h hP], fun hP => ?_⟩
    rw [markOne_neg]
    intro u hu
    have : some u = some t := hu.symm.trans h
    cases this
    exact hP

theorem reach_below {S : Nat → Prop} (hS : ∀ u ∈ T, S u) {r x : Nat} : Reach g T S r x ↔ Below g T r x := by
  constructor
  · intro h
    induction h with
    | refl => exact ReflTransGen.refl
    | tail _ h2 ih => exact ReflTransGen.tail ih h2.1
  · intro h
    induction h with
    | refl => exact ReflTransGen.refl
    | tail _ h2 ih => exact ReflTransGen.tail ih ⟨h2, hS _ h2.1⟩

/-- what holds after the candidates before `k` -/
structure IdInv (g : Graph) (T : List Nat) (c : List Cand) (k : Nat) (st : List Cand × Int) : Prop where
  same : st.1.map noId = c.map noId
  nonneg : 0 ≤ st.2
  range : ∀ i t, trackAt c i = some t → idAt st.1 i = -1 ∨ (0 ≤ idAt st.1 i ∧ idAt st.1 i < st.2)
  done : ∀ i t, i < k → trackAt c i = some t → 0 ≤ idAt st.1 i
  conn : ∀ i j t u, trackAt c i = some t → trackAt c j = some u → 0 ≤ idAt st.1 i →
    (idAt st.1 i = idAt st.1 j ↔ Conn g T t u)
  used : ∀ m, 0 ≤ m → m < st.2 → ∃ i t, trackAt c i = some t ∧ idAt st.1 i = m
  invalid : ∀ i, trackAt c i = none → idAt st.1 i = -1

theorem Forest.ids_step (hF : Forest g T) {c : List Cand} (hd : Distinct c) (hT : ∀ u, InC c u ↔ u ∈ T) :
    ∃ N, ∀ f, N ≤ f → ∀ k st, IdInv g T c k st → ∃ st', idsStep g f st k = some st' ∧ IdInv g T c (k + 1) st' := by
  obtain ⟨N1, hN1⟩ := bound (Q := fun t f => ∃ r, IsRoot g T r ∧ Below g T r t ∧ getRoot g f t = some r) T
    (fun t ht => by
      obtain ⟨r, N, h1, h2, h3⟩ := hF.getRoot_spec t ht
      exact ⟨N, fun f hf => ⟨r, h1, h2, h3 f hf⟩⟩)
  obtain ⟨N2, hN2⟩ := bound (Q := fun t f => ∀ v0, front g t = some v0 → g.prev v0 = none →
      ∀ (id : Int) c, Distinct c → (∀ u, InC c u ↔ u ∈ T) → ∀ j : Nat, c[j]?.bind Cand.track = some t →
      setTreeId g id f c j true =
        some (mark (fun x => ∃ r ∈ T, r ∈ T ∧ front g r = some v0 ∧ Reach g T (· ∈ T) r x) id c)) T
    (fun t ht => by
      obtain ⟨v, _, _, _, h0⟩ := hF.front_some ht
      by_cases hp : g.prev v = none
      · obtain ⟨N, hN⟩ := hF.setTreeId_root (· ∈ T) ht h0 hp
        refine ⟨N, fun f hf v0 h1 _ => ?_⟩
        rw [h0] at h1
        cases h1
        exact hN f hf
      · refine ⟨0, fun f _ v0 h1 h2 => ?_⟩
        rw [h0] at h1
        cases h1
        exact absurd h2 hp)
  refine ⟨max N1 N2, ?_⟩
  rintro f hf k ⟨cs, m⟩ hI
  have htr := trackAt_noId hI.same
  simp only at htr
  unfold idsStep
  simp only
  cases hx : cs[k]? with
  | none =>
    refine ⟨_, rfl, { hI with done := fun i t hi h => ?_ }⟩
    rcases Nat.lt_succ_iff_lt_or_eq.1 hi with hi | rfl
    · exact hI.done i t hi h
    · rw [← htr] at h
      simp [trackAt, hx] at h
  | some x =>
    simp only
    cases hxt : x.track with
    | none =>
      refine ⟨_, rfl, { hI with done := fun i t hi h => ?_ }⟩
      rcases Nat.lt_succ_iff_lt_or_eq.1 hi with hi | rfl
      · exact hI.done i t hi h
      · rw [← htr] at h
        simp [trackAt, hx, hxt] at h
    | some t =>
      simp only
      have hxk : trackAt c k = some t := by rw [← htr]; simp [trackAt, hx, hxt]
      have hidk : idAt cs k = x.treeId := by simp [idAt, hx]
      by_cases hid : 0 ≤ x.treeId
      · rw [if_pos hid]
        refine ⟨_, rfl, { hI with done := fun i t hi h => ?_ }⟩
        rcases Nat.lt_succ_iff_lt_or_eq.1 hi with hi | rfl
        · exact hI.done i t hi h
        · show 0 ≤ idAt cs i
          rw [hidk]; exact hid
      · rw [if_neg hid]
        have htT : t ∈ T := (hT t).1 ⟨k, hxk⟩
        obtain ⟨r, hr, hrb, hrf⟩ := hN1 t htT f (le_trans (le_max_left _ _) hf)
        rw [hrf]
        simp only
        have hds : Distinct cs := distinct_noId hI.same hd
        have hTs : ∀ u, InC cs u ↔ u ∈ T := fun u => (inC_noId hI.same u).trans (hT u)
        obtain ⟨j, hj⟩ := (hTs r).2 hr.1
        rw [index_eq hds hj]
        simp only
        obtain ⟨v0, h0, hp⟩ := hr.2
        rw [hN2 r hr.1 f (le_trans (le_max_right _ _) hf) v0 h0 hp m cs hds hTs j hj]
        have hP : ∀ u, InC cs u → ((∃ r ∈ T, r ∈ T ∧ front g r = some v0 ∧ Reach g T (· ∈ T) r u) ↔
            Conn g T t u) := by
          intro u hu
          simp only [reach_below (S := (· ∈ T)) (fun u h => h)]
          constructor
          · rintro ⟨r', hr', _, h1, h2⟩
            exact hF.root_conn hr ⟨hr', v0, h1, hp⟩ hrb h2 (h0.trans h1.symm)
          · intro hc
            obtain ⟨r', _, hr', h2, _⟩ := hF.getRoot_spec u ((hTs u).1 hu)
            refine ⟨r', hr'.1, hr'.1, ?_, h2⟩
            rw [← hF.conn_root hc htT r r' hr hr' hrb h2]
            exact h0
        rw [mark_congr hP]
        refine ⟨_, rfl, ?_⟩
        have hnew : ∀ i u, trackAt c i = some u → Conn g T t u → idAt (mark (Conn g T t) m cs) i = m :=
          fun i u h hc => (idAt_mark (Conn g T t) m cs i u (by rw [htr]; exact h)).1 hc
        have hold : ∀ i u, trackAt c i = some u → ¬ Conn g T t u →
            idAt (mark (Conn g T t) m cs) i = idAt cs i :=
          fun i u h hc => (idAt_mark (Conn g T t) m cs i u (by rw [htr]; exact h)).2 hc
        have hneg : idAt cs k < 0 := by rw [hidk]; omega
        -- a connected candidate had no identifier before
        have hfree : ∀ i u, trackAt c i = some u → Conn g T t u → idAt cs i = -1 := by
          intro i u h hc
          rcases hI.range i u h with h1 | h1
          · exact h1
          · exfalso
            have := (hI.conn i k u t h hxk h1.1).2 (EqvGen.symm _ _ hc)
            have h2 : idAt cs i < 0 := by rw [show idAt cs i = idAt cs k from this]; exact hneg
            exact absurd h1.1 (by show ¬ 0 ≤ idAt cs i; omega)
        have hm : 0 ≤ m := hI.nonneg
        refine ⟨(mark_noId _ _ _).trans hI.same, ?_, ?_, ?_, ?_, ?_, ?_⟩
        · show 0 ≤ m + 1; omega
        · intro i u h
          by_cases hc : Conn g T t u
          · right
            simp only [hnew i u h hc]
            omega
          · simp only [hold i u h hc]
            rcases hI.range i u h with h1 | h1
            · exact Or.inl h1
            · right
              exact ⟨h1.1, by have := h1.2; simp only at this; omega⟩
        · intro i u hi h
          by_cases hc : Conn g T t u
          · simp only [hnew i u h hc]; exact hm
          · simp only [hold i u h hc]
            rcases Nat.lt_succ_iff_lt_or_eq.1 hi with hi | rfl
            · exact hI.done i u hi h
            · rw [hxk] at h
              cases h
              exact absurd (EqvGen.refl _) hc
        · intro i j u w hi hj2 h
          simp only at h ⊢
          by_cases hcu : Conn g T t u <;> by_cases hcw : Conn g T t w
          · rw [hnew i u hi hcu, hnew j w hj2 hcw]
            exact ⟨fun _ => EqvGen.trans _ _ _ (EqvGen.symm _ _ hcu) hcw, fun _ => rfl⟩
          · rw [hnew i u hi hcu, hold j w hj2 hcw]
            constructor
            · intro he
              rcases hI.range j w hj2 with h1 | h1
              · simp only at h1; omega
              · have := h1.2; simp only at this; omega
            · intro hc
              exact absurd (EqvGen.trans _ _ _ hcu hc) hcw
          · rw [hold i u hi hcu, hnew j w hj2 hcw]
            rw [hold i u hi hcu] at h
            constructor
            · intro he
              rcases hI.range i u hi with h1 | h1
              · simp only at h1; omega
              · have := h1.2; simp only at this; omega
            · intro hc
              exact absurd (EqvGen.trans _ _ _ hcw (EqvGen.symm _ _ hc)) hcu
          · rw [hold i u hi hcu, hold j w hj2 hcw]
            rw [hold i u hi hcu] at h
            exact hI.conn i j u w hi hj2 h
        · intro n h1 h2
          simp only at h2 ⊢
          by_cases hn : n < m
          · obtain ⟨i, u, h3, h4⟩ := hI.used n h1 hn
            refine ⟨i, u, h3, ?_⟩
            by_cases hc : Conn g T t u
            · have := hfree i u h3 hc
              simp only at h4
              omega
            · rw [hold i u h3 hc]; exact h4
          · have : n = m := by omega
            exact ⟨k, t, hxk, by rw [hnew k t hxk (EqvGen.refl _), this]⟩
        · intro i hi
          show idAt (mark (Conn g T t) m cs) i = -1
          have h1 := hI.invalid i hi
          simp only at h1
          have h2 : trackAt cs i = none := by rw [htr]; exact hi
          unfold idAt trackAt at *
          simp only [mark, List.getElem?_map]
          cases hy : cs[i]? with
          | none => rfl
          | some y =>
            rw [hy] at h1 h2
            simp only [Option.map_some, Option.getD_some, Option.bind_some] at h1 h2 ⊢
            rw [markOne_neg, h1]
            intro w hw
            rw [h2] at hw
            cases hw

/-- **C111** (tree identifiers). When the valid candidates hold exactly the tracks of a forest, each once, the loop
ends, changes nothing but the tree identifiers, and afterwards two valid candidates have equal identifiers exactly
when a chain of tracks sharing nodes joins them; the identifiers of the valid candidates are exactly the numbers below
the returned one, and a candidate without a track has −1. -/
theorem C111_tree_ids_partial (hF : Forest g T) (c : List Cand) (hd : Distinct c) (hT : ∀ u, InC c u ↔ u ∈ T) :
    ∃ N, ∀ f, N ≤ f → ∃ c' n, setTreeIds g f c = some (c', n) ∧
      c'.map noId = c.map noId ∧
      (∀ i t, trackAt c i = some t → 0 ≤ idAt c' i ∧ idAt c' i < n) ∧
      (∀ i j t u, trackAt c i = some t → trackAt c j = some u → (idAt c' i = idAt c' j ↔ Conn g T t u)) ∧
      (∀ m, 0 ≤ m → m < n → ∃ i t, trackAt c i = some t ∧ idAt c' i = m) ∧
      (∀ i, trackAt c i = none → idAt c' i = -1) := by
  obtain ⟨N, hN⟩ := hF.ids_step hd hT
  refine ⟨N, fun f hf => ?_⟩
  have key : ∀ k, ∃ st, (List.range k).foldlM (idsStep g f) (c.map (fun x => { x with treeId := -1 }), 0) = some st ∧
      IdInv g T c k st := by
    intro k
    induction k with
    | zero =>
      refine ⟨_, rfl, ?_⟩
      have hid : ∀ i, idAt (c.map (fun x => { x with treeId := -1 })) i = -1 := by
        intro i
        unfold idAt
        simp only [List.getElem?_map]
        cases c[i]? <;> rfl
      refine ⟨?_, le_refl _, ?_, ?_, ?_, ?_, ?_⟩
      · simp only [List.map_map]
        rfl
      · exact fun i t _ => Or.inl (hid i)
      · intro i t hi; omega
      · intro i j t u _ _ h
        simp only [hid] at h
        omega
      · intro m h1 h2
        simp only at h2
        omega
      · exact fun i _ => hid i
    | succ k ih =>
      obtain ⟨st, h1, h2⟩ := ih
      obtain ⟨st', h3, h4⟩ := hN f hf k st h2
      refine ⟨st', ?_, h4⟩
      rw [List.range_succ, List.foldlM_append, h1]
      show List.foldlM (idsStep g f) st [k] = some st'
      simp [List.foldlM_cons, h3]
  obtain ⟨⟨c', n⟩, h1, h2⟩ := key c.length
  have hall : ∀ i t, trackAt c i = some t → 0 ≤ idAt c' i := by
    intro i t h
    refine h2.done i t ?_ h
    by_contra hc
    unfold trackAt at h
    rw [List.getElem?_eq_none (by omega)] at h
    cases h
  refine ⟨c', n, h1, h2.same, ?_, ?_, h2.used, h2.invalid⟩
  · intro i t h
    rcases h2.range i t h with h3 | h3
    · have := hall i t h
      simp only at h3
      omega
    · exact h3
  · intro i j t u hi hj
    exact h2.conn i j t u hi hj (hall i t hi)

end Verif.PMAlg.Tree

namespace Verif.PMAlg.Tree

/-- a forest of two trees: track 0 runs through the nodes 0, 1, 2; track 1 leaves it at node 1 towards node 3, where
track 2 starts; track 3 starts at node 0 too; track 4 is alone -/
def exG : Graph where
  nodes := fun t => match t with | 0 => [0, 1, 2] | 1 => [1, 3] | 2 => [3, 4] | 3 => [0, 5] | 4 => [6, 7] | _ => []
  next := fun v => match v with | 0 => [10, 14] | 1 => [11, 12] | 3 => [13] | 6 => [15] | _ => []
  prev := fun v => match v with
    | 1 => some 10 | 2 => some 11 | 3 => some 12 | 4 => some 13 | 5 => some 14 | 7 => some 15 | _ => none
  trk := fun s => match s with | 12 => 1 | 13 => 2 | 14 => 3 | 15 => 4 | _ => 0
  snext := fun s => match s with
    | 10 => some 1 | 11 => some 2 | 12 => some 3 | 13 => some 4 | 14 => some 5 | 15 => some 7 | _ => none

theorem exG_next (v s : Nat) (h : s ∈ exG.next v) :
    (v = 0 ∧ s = 10) ∨ (v = 0 ∧ s = 14) ∨ (v = 1 ∧ s = 11) ∨ (v = 1 ∧ s = 12) ∨ (v = 3 ∧ s = 13) ∨
      (v = 6 ∧ s = 15) := by
  unfold exG at h
  simp only at h
  split at h <;> simp at h ⊢ <;> omega

theorem exG_prev (w s : Nat) (h : exG.prev w = some s) :
    (w = 1 ∧ s = 10) ∨ (w = 2 ∧ s = 11) ∨ (w = 3 ∧ s = 12) ∨ (w = 4 ∧ s = 13) ∨ (w = 5 ∧ s = 14) ∨
      (w = 7 ∧ s = 15) := by
  unfold exG at h
  simp only at h
  split at h <;> simp at h ⊢ <;> omega

theorem exG_forest : Forest exG [0, 1, 2, 3, 4] where
  two := by simp [exG]
  joined := by
    intro t ht i v w h1 h2
    simp only [List.mem_cons, List.not_mem_nil, or_false] at ht
    rcases ht with rfl | rfl | rfl | rfl | rfl <;> rcases i with _ | _ | _ | i <;> simp [exG] at h1 h2 <;>
      subst h1 <;> subst h2 <;> simp [exG]
  seg := by
    intro v s hs
    rcases exG_next v s hs with ⟨rfl, rfl⟩ | ⟨rfl, rfl⟩ | ⟨rfl, rfl⟩ | ⟨rfl, rfl⟩ | ⟨rfl, rfl⟩ | ⟨rfl, rfl⟩
    · exact ⟨by simp [exG], 0, 1, rfl, rfl, rfl, rfl⟩
    · exact ⟨by simp [exG], 0, 5, rfl, rfl, rfl, rfl⟩
    · exact ⟨by simp [exG], 1, 2, rfl, rfl, rfl, rfl⟩
    · exact ⟨by simp [exG], 0, 3, rfl, rfl, rfl, rfl⟩
    · exact ⟨by simp [exG], 0, 4, rfl, rfl, rfl, rfl⟩
    · exact ⟨by simp [exG], 0, 7, rfl, rfl, rfl, rfl⟩
  entered := by
    intro w s h
    rcases exG_prev w s h with ⟨rfl, rfl⟩ | ⟨rfl, rfl⟩ | ⟨rfl, rfl⟩ | ⟨rfl, rfl⟩ | ⟨rfl, rfl⟩ | ⟨rfl, rfl⟩
    · exact ⟨0, by decide, rfl⟩
    · exact ⟨1, by decide, rfl⟩
    · exact ⟨1, by decide, rfl⟩
    · exact ⟨3, by decide, rfl⟩
    · exact ⟨0, by decide, rfl⟩
    · exact ⟨6, by decide, rfl⟩
  once := by
    intro v
    unfold exG
    simp only
    split <;> decide
  acyclic := by
    refine ⟨id, fun v s hs w h => ?_⟩
    rcases exG_next v s hs with ⟨rfl, rfl⟩ | ⟨rfl, rfl⟩ | ⟨rfl, rfl⟩ | ⟨rfl, rfl⟩ | ⟨rfl, rfl⟩ | ⟨rfl, rfl⟩ <;>
      cases h <;> decide

def exC : List Cand := [⟨some 2, 7, -1, [], []⟩, ⟨none, 7, -1, [], []⟩, ⟨some 4, -1, -1, [], []⟩,
  ⟨some 0, -1, -1, [], []⟩, ⟨some 3, -1, -1, [], []⟩, ⟨some 1, -1, -1, [], []⟩]

/-- a list of candidates without repeated tracks, from the list of its tracks -/
theorem distinct_of_nodup {c : List Cand} (h : (c.filterMap Cand.track).Nodup) : Distinct c := by
  induction c with
  | nil => intro i j t h1; simp at h1
  | cons a c ih =>
    have hc : Distinct c := ih (by
      cases ha : a.track with
      | none => simpa [List.filterMap_cons, ha] using h
      | some u => simp [List.filterMap_cons, ha] at h; exact h.2)
    have hout : ∀ (j t : Nat), a.track = some t → c[j]?.bind Cand.track = some t → False := by
      intro j t ha hj
      rw [List.filterMap_cons, ha] at h
      refine (List.nodup_cons.1 h).1 (List.mem_filterMap.2 ?_)
      cases hx : c[j]? with
      | none => rw [hx] at hj; cases hj
      | some x => rw [hx] at hj; exact ⟨x, List.mem_of_getElem? hx, hj⟩
    intro i j t h1 h2
    rcases i with _ | i <;> rcases j with _ | j
    · rfl
    · exact absurd (hout j t (by simpa using h1) (by simpa using h2)) id
    · exact absurd (hout i t (by simpa using h2) (by simpa using h1)) id
    · rw [hc i j t (by simpa using h1) (by simpa using h2)]

theorem inC_iff (c : List Cand) (u : Nat) : InC c u ↔ u ∈ c.filterMap Cand.track := by
  rw [List.mem_filterMap]
  constructor
  · rintro ⟨i, h⟩
    cases hx : c[i]? with
    | none => rw [hx] at h; cases h
    | some x => rw [hx] at h; exact ⟨x, List.mem_of_getElem? hx, h⟩
  · rintro ⟨x, hx, h⟩
    obtain ⟨i, hi⟩ := List.mem_iff_getElem?.1 hx
    exact ⟨i, by rw [hi]; exact h⟩

example : Distinct exC ∧ ∀ u, InC exC u ↔ u ∈ [0, 1, 2, 3, 4] :=
  ⟨distinct_of_nodup (by decide), fun u => by
    rw [inC_iff]
    have : exC.filterMap Cand.track = [2, 4, 0, 3, 1] := by decide
    rw [this]
    simp only [List.mem_cons, List.not_mem_nil, or_false]
    omega⟩

example : (setTreeIds exG 10 exC).map (fun r => (r.1.map Cand.treeId, r.2)) = some ([0, -1, 1, 0, 0, 0], 2) := by
  decide

/-- **C111, refuted for incomplete collections.** With track 1 missing, track 2 below it stays without an
identifier, the identifier first given to the tree is replaced, and the returned number is 2 although the two
candidates are of one tree. With the first track of the tree missing, the identifier 0 is used up for nothing. -/
theorem C111_incomplete_refuted :
    (∀ u, InC [⟨some 0, -1, -1, [], []⟩, ⟨some 2, -1, -1, [], []⟩] u → u ∈ [0, 1, 2, 3, 4]) ∧
    (setTreeIds exG 10 [⟨some 0, -1, -1, [], []⟩, ⟨some 2, -1, -1, [], []⟩]).map
      (fun r => (r.1.map Cand.treeId, r.2)) = some ([1, -1], 2) ∧
    (setTreeIds exG 10 [⟨some 2, -1, -1, [], []⟩]).map (fun r => (r.1.map Cand.treeId, r.2)) = some ([-1], 1) := by
  refine ⟨fun u h => ?_, by decide, by decide⟩
  rw [inC_iff] at h
  simp [List.filterMap_cons] at h
  rcases h with rfl | rfl <;> simp

end Verif.PMAlg.Tree

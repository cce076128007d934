import Verif.PMAlg.TreeQuery
/-! # Track trees: parents and daughters of the candidates -/
namespace Verif.PMAlg.Tree
open Relation

variable {g : Graph} {T : List Nat}

/-- the parent index of candidate `i` -/
def parentAt (c : List Cand) (i : Nat) : Int := (c[i]?.map Cand.parent).getD (-1)

/-- the daughters of candidate `i` -/
def daughtersAt (c : List Cand) (i : Nat) : List Nat := (c[i]?.map Cand.daughters).getD []

/-- everything but parent and daughters -/
def kept (x : Cand) : Option Nat × Int × List Nat := (x.track, x.treeId, x.clusters)

theorem kept_track {c c' : List Cand} (h : c'.map kept = c.map kept) (i : Nat) : trackAt c' i = trackAt c i := by
  have : (c'.map kept)[i]? = (c.map kept)[i]? := by rw [h]
  simp only [List.getElem?_map] at this
  unfold trackAt
  cases h1 : c'[i]? <;> cases h2 : c[i]? <;> simp [h1, h2, kept] at this ⊢
  exact this.1

theorem kept_length {c c' : List Cand} (h : c'.map kept = c.map kept) : c'.length = c.length := by
  simpa using congrArg List.length h

theorem kept_index {c c' : List Cand} (h : c'.map kept = c.map kept) (t : Nat) : index c' t = index c t := by
  have h1 : ∀ c : List Cand, c.findIdx (fun x => x.track = some t) =
      (c.map kept).findIdx (fun y => y.1 = some t) := by
    intro c
    rw [List.findIdx_map]
    rfl
  unfold index
  rw [h1 c', h1 c, h, kept_length h]

theorem kept_id {c c' : List Cand} (h : c'.map kept = c.map kept) (i : Nat) : idAt c' i = idAt c i := by
  have : (c'.map kept)[i]? = (c.map kept)[i]? := by rw [h]
  simp only [List.getElem?_map] at this
  unfold idAt
  cases h1 : c'[i]? <;> cases h2 : c[i]? <;> simp [h1, h2, kept] at this ⊢
  exact this.2.1

theorem putParent_kept (c : List Cand) (i : Nat) (p : Int) : (putParent c i p).map kept = c.map kept := by
  apply List.ext_getElem?
  intro j
  simp only [putParent, List.getElem?_map, List.getElem?_modify]
  cases c[j]? with
  | none => rfl
  | some x => by_cases h : i = j <;> simp [h, kept]

theorem putParent_at (c : List Cand) (i : Nat) (p : Int) (hi : i < c.length) (j : Nat) :
    parentAt (putParent c i p) j = if j = i then p else parentAt c j := by
  unfold parentAt putParent
  simp only [List.getElem?_modify]
  by_cases h : j = i
  · subst h
    rw [List.getElem?_eq_getElem hi]
    simp
  · have : ¬ i = j := fun e => h e.symm
    cases hx : c[j]? <;> simp [h, this]

theorem putParent_dau (c : List Cand) (i : Nat) (p : Int) (j : Nat) :
    daughtersAt (putParent c i p) j = daughtersAt c j := by
  unfold daughtersAt putParent
  simp only [List.getElem?_modify]
  cases hx : c[j]? with
  | none => rfl
  | some x => by_cases h : i = j <;> simp [h]

theorem index_lt {c : List Cand} {t j : Nat} (h : index c t = some j) : j < c.length := by
  unfold index at h
  split at h
  · cases h; assumption
  · cases h

theorem fold_primary (pri : Nat) (c1 : List Cand) (L : List Nat) : ∀ (cs : List Cand) (x : Cand),
    cs.map kept = c1.map kept →
    ∃ cs', L.foldl (primary g pri) (cs, x) =
        (cs', { x with daughters := x.daughters ++ (L.map g.trk).filterMap (index c1) }) ∧
      cs'.map kept = c1.map kept ∧ (∀ j, daughtersAt cs' j = daughtersAt cs j) ∧
      ∀ j, parentAt cs' j = if j ∈ (L.map g.trk).filterMap (index c1) then (pri : Int) else parentAt cs j := by
  induction L with
  | nil => intro cs x h; exact ⟨cs, by simp, h, fun _ => rfl, by simp⟩
  | cons s L ih =>
    intro cs x h
    rw [List.foldl_cons]
    have hi := kept_index h (g.trk s)
    cases he : index c1 (g.trk s) with
    | none =>
      have : primary g pri (cs, x) s = (cs, x) := by
        simp only [primary]
        rw [hi, he]
      rw [this]
      obtain ⟨cs', h1, h2, h3, h4⟩ := ih cs x h
      refine ⟨cs', ?_, h2, h3, ?_⟩
      · rw [h1, List.map_cons, List.filterMap_cons, he]
      · intro j
        rw [h4, List.map_cons, List.filterMap_cons, he]
    | some j0 =>
      have : primary g pri (cs, x) s = (putParent cs j0 pri, { x with daughters := x.daughters ++ [j0] }) := by
        simp only [primary]
        rw [hi, he]
      rw [this]
      have hlt : j0 < cs.length := by rw [kept_length h]; exact index_lt he
      obtain ⟨cs', h1, h2, h3, h4⟩ := ih (putParent cs j0 pri) { x with daughters := x.daughters ++ [j0] }
        ((putParent_kept _ _ _).trans h)
      refine ⟨cs', ?_, h2, ?_, ?_⟩
      · rw [h1, List.map_cons, List.filterMap_cons, he]
        simp
      · intro j; rw [h3, putParent_dau]
      · intro j
        rw [h4, putParent_at _ _ _ hlt, List.map_cons, List.filterMap_cons, he]
        simp only [List.mem_cons]
        by_cases hj : j = j0
        · subst hj; simp
        · simp [hj]

theorem daughtersOf_eq (c : List Cand) (t : Nat) :
    daughtersOf g c t = (kids g t true).filterMap (index c) := by
  rw [kids_eq]
  unfold daughtersOf
  simp only [if_true]
  generalize ((g.nodes t).drop 1).flatMap g.next = L
  induction L with
  | nil => rfl
  | cons s L ih =>
    rw [List.filterMap_cons, ih, List.filter_cons]
    by_cases h : g.trk s = t
    · simp [h]
    · simp [h, List.filterMap_cons]

theorem index_filterMap_nodup {c : List Cand} {L : List Nat} (h : L.Nodup) : (L.filterMap (index c)).Nodup := by
  refine h.filterMap ?_
  intro a a' b h1 h2
  have e1 := index_some (Option.mem_def.1 h1)
  have e2 := index_some (Option.mem_def.1 h2)
  rw [e1] at e2
  exact Option.some.inj e2

theorem mem_filterMap_index {c : List Cand} (hd : Distinct c) {L : List Nat} {j : Nat} :
    j ∈ L.filterMap (index c) ↔ ∃ u, trackAt c j = some u ∧ u ∈ L := by
  rw [List.mem_filterMap]
  constructor
  · rintro ⟨u, h1, h2⟩; exact ⟨u, index_some h2, h1⟩
  · rintro ⟨u, h1, h2⟩; exact ⟨u, h2, index_eq hd h1⟩

/-- the tracks leaving a node that is not entered start there -/
theorem Forest.mem_start (hF : Forest g T) {v u : Nat} (hp : g.prev v = none) (hu : u ∈ T) :
    u ∈ (g.next v).map g.trk ↔ front g u = some v := by
  rw [List.mem_map]
  constructor
  · rintro ⟨s, hs, rfl⟩
    rcases hF.seg_front hs with h | h
    · exact h
    · obtain ⟨s2, h3, _⟩ := hF.prev_tail (hF.seg v s hs).1 h
      rw [hp] at h3
      cases h3
  · intro h
    obtain ⟨s, h1, h2⟩ := hF.front_seg hu h
    exact ⟨s, h1, h2⟩

theorem Forest.start_nodup (hF : Forest g T) (v : Nat) : ((g.next v).map g.trk).Nodup :=
  List.Nodup.map_on (fun _ ha _ hb h => hF.seg_unique ha hb h) (hF.once v)

/-- what holds after the candidates before `k` -/
structure CInv (g : Graph) (c1 : List Cand) (k : Nat) (st : List Cand × List Cand) : Prop where
  same : st.1.map kept = c1.map kept
  ent : ∀ j u v s, trackAt c1 j = some u → front g u = some v → g.prev v = some s →
    parentAt st.1 j = if j < k then (match index c1 (g.trk s) with | some i => (i : Int) | none => -1) else -1
  free : ∀ j u v, trackAt c1 j = some u → front g u = some v → g.prev v = none →
    parentAt st.1 j = -1 ∨ ∃ p x, st.2[p]? = some x ∧ parentAt st.1 j = (c1.length + p : Nat) ∧ j ∈ x.daughters
  fdone : ∀ j u v, trackAt c1 j = some u → front g u = some v → g.prev v = none → j < k → parentAt st.1 j ≠ -1
  sib : ∀ i j u w v, trackAt c1 i = some u → trackAt c1 j = some w → front g u = some v → front g w = some v →
    g.prev v = none → parentAt st.1 i = parentAt st.1 j
  pris : ∀ p x, st.2[p]? = some x → x.track = none ∧ x.daughters.Nodup ∧
    ∃ v, g.prev v = none ∧ (∀ j, j ∈ x.daughters ↔ ∃ u, trackAt c1 j = some u ∧ front g u = some v) ∧
      (∀ j ∈ x.daughters, parentAt st.1 j = (c1.length + p : Nat)) ∧
      ∃ i ∈ x.daughters, x.treeId = idAt c1 i
  dau : ∀ j u, trackAt c1 j = some u → daughtersAt st.1 j = if j < k then (kids g u true).filterMap (index c1) else []

theorem modify_kept (c : List Cand) (i : Nat) (l : List Nat) :
    (c.modify i fun y => { y with daughters := y.daughters ++ l }).map kept = c.map kept := by
  apply List.ext_getElem?
  intro j
  simp only [List.getElem?_map, List.getElem?_modify]
  cases c[j]? with
  | none => rfl
  | some x => by_cases h : i = j <;> simp [h, kept]

theorem modify_parent (c : List Cand) (i : Nat) (l : List Nat) (j : Nat) :
    parentAt (c.modify i fun y => { y with daughters := y.daughters ++ l }) j = parentAt c j := by
  unfold parentAt
  simp only [List.getElem?_modify]
  cases hx : c[j]? with
  | none => rfl
  | some x => by_cases h : i = j <;> simp [h]

theorem modify_dau (c : List Cand) (i : Nat) (l : List Nat) (hi : i < c.length) (j : Nat) :
    daughtersAt (c.modify i fun y => { y with daughters := y.daughters ++ l }) j =
      if j = i then daughtersAt c i ++ l else daughtersAt c j := by
  unfold daughtersAt
  simp only [List.getElem?_modify]
  by_cases h : j = i
  · subst h
    rw [List.getElem?_eq_getElem hi]
    simp
  · have : ¬ i = j := fun e => h e.symm
    cases hx : c[j]? <;> simp [h, this]

theorem trackAt_lt {c : List Cand} {i t : Nat} (h : trackAt c i = some t) : i < c.length := by
  by_contra hc
  unfold trackAt at h
  rw [List.getElem?_eq_none (by omega)] at h
  cases h

/-- the clauses of the invariant that do not speak of daughters of candidates -/
structure PInv (g : Graph) (c1 : List Cand) (k : Nat) (st : List Cand × List Cand) : Prop where
  same : st.1.map kept = c1.map kept
  ent : ∀ j u v s, trackAt c1 j = some u → front g u = some v → g.prev v = some s →
    parentAt st.1 j = if j < k then (match index c1 (g.trk s) with | some i => (i : Int) | none => -1) else -1
  free : ∀ j u v, trackAt c1 j = some u → front g u = some v → g.prev v = none →
    parentAt st.1 j = -1 ∨ ∃ p x, st.2[p]? = some x ∧ parentAt st.1 j = (c1.length + p : Nat) ∧ j ∈ x.daughters
  fdone : ∀ j u v, trackAt c1 j = some u → front g u = some v → g.prev v = none → j < k → parentAt st.1 j ≠ -1
  sib : ∀ i j u w v, trackAt c1 i = some u → trackAt c1 j = some w → front g u = some v → front g w = some v →
    g.prev v = none → parentAt st.1 i = parentAt st.1 j
  pris : ∀ p x, st.2[p]? = some x → x.track = none ∧ x.daughters.Nodup ∧
    ∃ v, g.prev v = none ∧ (∀ j, j ∈ x.daughters ↔ ∃ u, trackAt c1 j = some u ∧ front g u = some v) ∧
      (∀ j ∈ x.daughters, parentAt st.1 j = (c1.length + p : Nat)) ∧
      ∃ i ∈ x.daughters, x.treeId = idAt c1 i

theorem CInv.toP {c1 : List Cand} {k : Nat} {st : List Cand × List Cand} (h : CInv g c1 k st) : PInv g c1 k st :=
  ⟨h.same, h.ent, h.free, h.fdone, h.sib, h.pris⟩

theorem PInv.modify {c1 : List Cand} {k : Nat} {st1 : List Cand × List Cand} (h : PInv g c1 k st1) (i : Nat)
    (l : List Nat) : PInv g c1 k (st1.1.modify i fun y => { y with daughters := y.daughters ++ l }, st1.2) where
  same := (modify_kept _ _ _).trans h.same
  ent := by simp only [modify_parent]; exact h.ent
  free := by simp only [modify_parent]; exact h.free
  fdone := by simp only [modify_parent]; exact h.fdone
  sib := by simp only [modify_parent]; exact h.sib
  pris := by simp only [modify_parent]; exact h.pris

/-- the members after the parent of candidate `k` has been treated -/
def parentStep (g : Graph) (st : List Cand × List Cand) (k : Nat) (x : Cand) (v : Nat) : List Cand × List Cand :=
  match g.prev v with
  | some s => (putParent st.1 k (match index st.1 (g.trk s) with | some j => (j : Int) | none => -1), st.2)
  | none =>
    if x.parent < 0 then
      (((g.next v).foldl (primary g (st.1.length + st.2.length)) (st.1, ⟨none, x.treeId, -1, [], []⟩)).1,
        st.2 ++ [((g.next v).foldl (primary g (st.1.length + st.2.length)) (st.1, ⟨none, x.treeId, -1, [], []⟩)).2])
    else st

theorem connStep_eq (st : List Cand × List Cand) (k : Nat) (x : Cand) (t v : Nat) (hx : st.1[k]? = some x)
    (hxt : x.track = some t) (h0 : front g t = some v) :
    connStep g st k = some ((parentStep g st k x v).1.modify k fun y =>
      { y with daughters := y.daughters ++ daughtersOf g (parentStep g st k x v).1 t }, (parentStep g st k x v).2) := by
  unfold front at h0
  unfold connStep parentStep
  simp only [hx, hxt, h0]
  cases g.prev v <;> rfl

theorem Forest.conn_parent (hF : Forest g T) {c1 : List Cand} (hd : Distinct c1) (hT : ∀ u, InC c1 u → u ∈ T)
    {k : Nat} {cs ps : List Cand} (hI : CInv g c1 k (cs, ps)) {x : Cand} {t v : Nat} (hx : cs[k]? = some x)
    (hxt : x.track = some t) (h0 : front g t = some v) :
    PInv g c1 (k + 1) (parentStep g (cs, ps) k x v) ∧
      ∀ j, daughtersAt (parentStep g (cs, ps) k x v).1 j = daughtersAt cs j := by
  have hsame : cs.map kept = c1.map kept := hI.same
  have hk : trackAt c1 k = some t := by rw [← kept_track hsame]; simp [trackAt, hx, hxt]
  have hkl : k < c1.length := trackAt_lt hk
  have hlen : cs.length = c1.length := kept_length hsame
  have hxp : parentAt cs k = x.parent := by simp [parentAt, hx]
  unfold parentStep
  cases hp : g.prev v with
  | some s =>
    simp only
    refine ⟨?_, fun j => putParent_dau _ _ _ _⟩
    have hpar : ∀ j, parentAt (putParent cs k (match index cs (g.trk s) with | some j => (j : Int) | none => -1)) j =
        if j = k then (match index c1 (g.trk s) with | some j => (j : Int) | none => -1) else parentAt cs j := by
      intro j
      rw [putParent_at _ _ _ (by omega), kept_index hsame]
    have hne : ∀ j u v', trackAt c1 j = some u → front g u = some v' → g.prev v' = none → j ≠ k := by
      rintro j u v' h1 h2 h3 rfl
      rw [hk] at h1
      cases h1
      rw [h0] at h2
      cases h2
      rw [hp] at h3
      cases h3
    refine ⟨(putParent_kept _ _ _).trans hsame, ?_, ?_, ?_, ?_, ?_⟩
    · intro j u v' s' h1 h2 h3
      simp only [hpar]
      by_cases hjk : j = k
      · subst hjk
        rw [hk] at h1
        cases h1
        rw [h0] at h2
        cases h2
        rw [hp] at h3
        cases h3
        rw [if_pos rfl, if_pos (by omega)]
      · rw [if_neg hjk]
        have := hI.ent j u v' s' h1 h2 h3
        simp only at this
        rw [this]
        by_cases hlt : j < k
        · rw [if_pos hlt, if_pos (by omega)]
        · rw [if_neg hlt, if_neg (by omega)]
    · intro j u v' h1 h2 h3
      simp only [hpar, if_neg (hne j u v' h1 h2 h3)]
      exact hI.free j u v' h1 h2 h3
    · intro j u v' h1 h2 h3 h4
      have hjk := hne j u v' h1 h2 h3
      simp only [hpar, if_neg hjk]
      exact hI.fdone j u v' h1 h2 h3 (by omega)
    · intro i j u w v' h1 h2 h3 h4 h5
      simp only [hpar, if_neg (hne i u v' h1 h3 h5), if_neg (hne j w v' h2 h4 h5)]
      exact hI.sib i j u w v' h1 h2 h3 h4 h5
    · intro p y hy
      obtain ⟨a1, a2, v', a3, a4, a5, a6⟩ := hI.pris p y hy
      refine ⟨a1, a2, v', a3, a4, ?_, a6⟩
      intro j hj
      obtain ⟨u, h1, h2⟩ := (a4 j).1 hj
      simp only [hpar, if_neg (hne j u v' h1 h2 a3)]
      exact a5 j hj
  | none =>
    simp only
    by_cases hneg : x.parent < 0
    · rw [if_pos hneg]
      have hkm : parentAt cs k = -1 := by
        rcases hI.free k t v hk h0 hp with h | ⟨p, y, _, h, _⟩
        · exact h
        · exfalso
          simp only at h
          rw [hxp] at h
          omega
      obtain ⟨cs', h1, h2, h3, h4⟩ := fold_primary (g := g) (cs.length + ps.length) c1 (g.next v) cs
        ⟨none, x.treeId, -1, [], []⟩ hsame
      simp only [h1]
      simp only [List.nil_append]
      refine ⟨?_, h3⟩
      have hD : ∀ j, j ∈ ((g.next v).map g.trk).filterMap (index c1) ↔
          ∃ u, trackAt c1 j = some u ∧ front g u = some v := by
        intro j
        rw [mem_filterMap_index hd]
        constructor
        · rintro ⟨u, h5, h6⟩
          exact ⟨u, h5, (hF.mem_start hp (hT u ⟨j, h5⟩)).1 h6⟩
        · rintro ⟨u, h5, h6⟩
          exact ⟨u, h5, (hF.mem_start hp (hT u ⟨j, h5⟩)).2 h6⟩
      have hDn := index_filterMap_nodup (c := c1) (hF.start_nodup v)
      generalize ((g.next v).map g.trk).filterMap (index c1) = D at h4 hD hDn
      have hin : ∀ j u, trackAt c1 j = some u → front g u = some v → parentAt cs' j = (c1.length + ps.length : Nat) := by
        intro j u h5 h6
        rw [h4, if_pos ((hD j).2 ⟨u, h5, h6⟩), hlen]
      have hout : ∀ j u, trackAt c1 j = some u → front g u ≠ some v → parentAt cs' j = parentAt cs j := by
        intro j u h5 h6
        rw [h4, if_neg]
        intro hj
        obtain ⟨u', h7, h8⟩ := (hD j).1 hj
        rw [h5] at h7
        cases h7
        exact h6 h8
      refine ⟨h2, ?_, ?_, ?_, ?_, ?_⟩
      · intro j u v' s' h5 h6 h7
        simp only
        have hne : front g u ≠ some v := by
          rw [h6]
          intro hc
          cases hc
          rw [hp] at h7
          cases h7
        have hjk : j ≠ k := by
          rintro rfl
          rw [hk] at h5
          cases h5
          exact hne h0
        rw [hout j u h5 hne]
        have := hI.ent j u v' s' h5 h6 h7
        simp only at this
        rw [this]
        by_cases hlt : j < k
        · rw [if_pos hlt, if_pos (by omega)]
        · rw [if_neg hlt, if_neg (by omega)]
      · intro j u v' h5 h6 h7
        simp only
        by_cases hv : v' = v
        · subst hv
          refine Or.inr ⟨ps.length, _, List.getElem?_concat_length, hin j u h5 h6, ?_⟩
          exact (hD j).2 ⟨u, h5, h6⟩
        · have hne : front g u ≠ some v := by rw [h6]; intro hc; cases hc; exact hv rfl
          rw [hout j u h5 hne]
          rcases hI.free j u v' h5 h6 h7 with h | ⟨p, y, ha, hb, hc⟩
          · exact Or.inl h
          · refine Or.inr ⟨p, y, ?_, hb, hc⟩
            simp only at ha
            rw [List.getElem?_append_left]
            · exact ha
            · by_contra hcc
              rw [List.getElem?_eq_none (by omega)] at ha
              cases ha
      · intro j u v' h5 h6 h7 h8
        simp only
        by_cases hv : v' = v
        · subst hv
          rw [hin j u h5 h6]
          omega
        · have hne : front g u ≠ some v := by rw [h6]; intro hc; cases hc; exact hv rfl
          rw [hout j u h5 hne]
          refine hI.fdone j u v' h5 h6 h7 ?_
          have hjk : j ≠ k := by
            rintro rfl
            rw [hk] at h5
            cases h5
            exact hne h0
          omega
      · intro i j u w v' h5 h6 h7 h8 h9
        simp only
        by_cases hv : v' = v
        · subst hv
          rw [hin i u h5 h7, hin j w h6 h8]
        · have hne : front g u ≠ some v := by rw [h7]; intro hc; cases hc; exact hv rfl
          have hne' : front g w ≠ some v := by rw [h8]; intro hc; cases hc; exact hv rfl
          rw [hout i u h5 hne, hout j w h6 hne']
          exact hI.sib i j u w v' h5 h6 h7 h8 h9
      · intro p y hy
        simp only at hy ⊢
        by_cases hpl : p < ps.length
        · rw [List.getElem?_append_left hpl] at hy
          obtain ⟨a1, a2, v', a3, a4, a5, a6⟩ := hI.pris p y hy
          refine ⟨a1, a2, v', a3, a4, ?_, a6⟩
          intro j hj
          obtain ⟨u, h5, h6⟩ := (a4 j).1 hj
          have hne : front g u ≠ some v := by
            intro hc
            have e1 := hI.sib k j t u v hk h5 h0 hc hp
            have e2 := a5 j hj
            simp only at e1 e2
            rw [hkm, e2] at e1
            omega
          rw [hout j u h5 hne]
          exact a5 j hj
        · rw [List.getElem?_append_right (by omega)] at hy
          have hpe : p = ps.length := by
            by_contra hc
            rw [List.getElem?_eq_none (by simp; omega)] at hy
            cases hy
          subst hpe
          simp at hy
          subst hy
          refine ⟨rfl, hDn, v, hp, hD, ?_, k, (hD k).2 ⟨t, hk, h0⟩, ?_⟩
          · intro j hj
            obtain ⟨u, h5, h6⟩ := (hD j).1 hj
            exact hin j u h5 h6
          · rw [← kept_id hsame]
            simp [idAt, hx]
    · rw [if_neg hneg]
      refine ⟨?_, fun _ => rfl⟩
      refine ⟨hI.same, ?_, hI.free, ?_, hI.sib, hI.pris⟩
      · intro j u v' s' h1 h2 h3
        rw [hI.ent j u v' s' h1 h2 h3]
        have hjk : j ≠ k := by
          rintro rfl
          rw [hk] at h1
          cases h1
          rw [h0] at h2
          cases h2
          rw [hp] at h3
          cases h3
        by_cases hlt : j < k
        · rw [if_pos hlt, if_pos (by omega)]
        · rw [if_neg hlt, if_neg (by omega)]
      · intro j u v' h1 h2 h3 h4
        by_cases hjk : j = k
        · subst hjk
          simp only
          rw [hxp]
          omega
        · exact hI.fdone j u v' h1 h2 h3 (by omega)

theorem Forest.conn_step (hF : Forest g T) {c1 : List Cand} (hd : Distinct c1) (hT : ∀ u, InC c1 u → u ∈ T)
    (hval : ∀ i < c1.length, ∃ t, trackAt c1 i = some t) {k : Nat} (hkl : k < c1.length) {st : List Cand × List Cand}
    (hI : CInv g c1 k st) : ∃ st', connStep g st k = some st' ∧ CInv g c1 (k + 1) st' := by
  obtain ⟨cs, ps⟩ := st
  obtain ⟨t, hk⟩ := hval k hkl
  have hsame : cs.map kept = c1.map kept := hI.same
  have hlen := kept_length hsame
  have hx := List.getElem?_eq_getElem (l := cs) (i := k) (by omega)
  have hxt : cs[k].track = some t := by
    have := kept_track hsame k
    rw [hk] at this
    simpa [trackAt, hx] using this
  obtain ⟨v, _, _, _, h0⟩ := hF.front_some (hT t ⟨k, hk⟩)
  refine ⟨_, connStep_eq (cs, ps) k _ t v hx hxt h0, ?_⟩
  obtain ⟨h1, h2⟩ := hF.conn_parent hd hT hI hx hxt h0
  generalize parentStep g (cs, ps) k cs[k] v = st1 at h1 h2
  have h3 := h1.modify k (daughtersOf g st1.1 t)
  refine ⟨h3.same, h3.ent, h3.free, h3.fdone, h3.sib, h3.pris, ?_⟩
  intro j u hj
  simp only
  rw [modify_dau _ _ _ (by rw [kept_length h1.same]; exact hkl)]
  by_cases hjk : j = k
  · subst hjk
    rw [if_pos rfl, if_pos (by omega), h2]
    have := hI.dau j u hj
    simp only at this
    rw [this, if_neg (by omega), List.nil_append, daughtersOf_eq]
    rw [hk] at hj
    cases hj
    congr 1
    funext t'
    exact kept_index h1.same t'
  · rw [if_neg hjk, h2]
    have := hI.dau j u hj
    simp only at this
    rw [this]
    by_cases hlt : j < k
    · rw [if_pos hlt, if_pos (by omega)]
    · rw [if_neg hlt, if_neg (by omega)]

theorem filter_distinct {c : List Cand} (hd : (c.filterMap Cand.track).Nodup) :
    ((c.filter fun x => x.track.isSome).filterMap Cand.track) = c.filterMap Cand.track := by
  induction c with
  | nil => rfl
  | cons a c ih =>
    have ih' : (c.filter fun x => x.track.isSome).filterMap Cand.track = c.filterMap Cand.track := by
      apply ih
      cases ha : a.track with
      | none => simpa [List.filterMap_cons, ha] using hd
      | some u => simp [List.filterMap_cons, ha] at hd; exact hd.2
    cases ha : a.track with
    | none => simp [List.filter_cons, List.filterMap_cons, ha, ih']
    | some u => simp [List.filter_cons, List.filterMap_cons, ha, ih']

/-- **C110** (parents and daughters). For candidates holding distinct tracks of a forest: the candidates without a
track are removed and the others keep their order, track, tree identifier and clusters; candidate `j` has parent `i`,
and is listed once among the daughters of `i`, exactly when its track starts at a node of the track of `i` other than
the first; the candidates whose tracks start at a common node that no track enters have the same parent, a number
above those of the candidates that names an entry of the list of primaries, whose daughters are exactly these
candidates and whose tree identifier is that of one of them; and −1 is left exactly for candidates whose parent track
is not in the collection. -/
theorem C110_connections (hF : Forest g T) (c : List Cand) (hd : (c.filterMap Cand.track).Nodup)
    (hT : ∀ u ∈ c.filterMap Cand.track, u ∈ T) :
    ∃ c' ps, setConnections g c = some (c', ps) ∧
      c'.map kept = (c.filter fun x => x.track.isSome).map kept ∧
      (∀ i j t u, trackAt c' i = some t → trackAt c' j = some u →
        (parentAt c' j = i ↔ Child g T t u) ∧ (j ∈ daughtersAt c' i ↔ Child g T t u)) ∧
      (∀ i, (daughtersAt c' i).Nodup ∧ ∀ j ∈ daughtersAt c' i, j < c'.length) ∧
      (∀ j u v, trackAt c' j = some u → front g u = some v → g.prev v = none →
        ∃ p x, ps[p]? = some x ∧ parentAt c' j = (c'.length + p : Nat) ∧ j ∈ x.daughters) ∧
      (∀ p x, ps[p]? = some x → x.track = none ∧ x.daughters.Nodup ∧
        (∃ v, g.prev v = none ∧ ∀ j, j ∈ x.daughters ↔ ∃ u, trackAt c' j = some u ∧ front g u = some v) ∧
        (∀ j, parentAt c' j = (c'.length + p : Nat) ↔ j ∈ x.daughters) ∧
        ∃ i ∈ x.daughters, x.treeId = idAt c' i) ∧
      (∀ j u v, trackAt c' j = some u → front g u = some v →
        (parentAt c' j = -1 ↔ ∃ s, g.prev v = some s ∧ ¬ ∃ i, trackAt c' i = some (g.trk s))) := by
  set c1 := (c.filter fun x => x.track.isSome).map fun x => { x with parent := -1, daughters := [] } with hc1
  have htracks : c1.filterMap Cand.track = c.filterMap Cand.track := by
    rw [hc1, List.filterMap_map]
    exact filter_distinct hd
  have hd1 : Distinct c1 := distinct_of_nodup (by rw [htracks]; exact hd)
  have hT1 : ∀ u, InC c1 u → u ∈ T := by
    intro u hu
    rw [inC_iff, htracks] at hu
    exact hT u hu
  have hval : ∀ i < c1.length, ∃ t, trackAt c1 i = some t := by
    intro i hi
    have hm : c1[i] ∈ c1 := List.getElem_mem hi
    have hm' : ∀ z ∈ c1, ∃ y ∈ c.filter (fun x => x.track.isSome),
        (fun x : Cand => ({ x with parent := -1, daughters := [] } : Cand)) y = z := fun z hz => List.mem_map.1 hz
    obtain ⟨y, hy, he⟩ := hm' _ hm
    have hy' := (List.mem_filter.1 hy).2
    obtain ⟨t, ht⟩ := Option.isSome_iff_exists.1 hy'
    refine ⟨t, ?_⟩
    unfold trackAt
    rw [List.getElem?_eq_getElem hi, ← he]
    exact ht
  have hpar0 : ∀ i, parentAt c1 i = -1 := by
    intro i
    unfold parentAt
    rw [hc1, List.getElem?_map]
    cases (c.filter fun x => x.track.isSome)[i]? <;> rfl
  have hdau0 : ∀ i, daughtersAt c1 i = [] := by
    intro i
    unfold daughtersAt
    rw [hc1, List.getElem?_map]
    cases (c.filter fun x => x.track.isSome)[i]? <;> rfl
  have hkept1 : c1.map kept = (c.filter fun x => x.track.isSome).map kept := by
    rw [hc1, List.map_map]
    rfl
  have key : ∀ k, k ≤ c1.length → ∃ st, (List.range k).foldlM (connStep g) (c1, []) = some st ∧ CInv g c1 k st := by
    intro k
    induction k with
    | zero =>
      intro _
      refine ⟨_, rfl, ⟨rfl, ?_, ?_, ?_, ?_, ?_, ?_⟩⟩
      · intro j u v s _ _ _; simp only [hpar0]; rw [if_neg (by omega)]
      · intro j u v _ _ _; exact Or.inl (hpar0 j)
      · intro j u v _ _ _ h; omega
      · intro i j u w v _ _ _ _ _; simp only [hpar0]
      · intro p x h; simp at h
      · intro j u _; simp only [hdau0]; rw [if_neg (by omega)]
    | succ k ih =>
      intro hk
      obtain ⟨st, h1, h2⟩ := ih (by omega)
      obtain ⟨st', h3, h4⟩ := hF.conn_step hd1 hT1 hval (by omega) h2
      refine ⟨st', ?_, h4⟩
      rw [List.range_succ, List.foldlM_append, h1]
      show List.foldlM (connStep g) st [k] = some st'
      simp [List.foldlM_cons, h3]
  obtain ⟨⟨c', ps⟩, h1, h2⟩ := key c1.length (le_refl _)
  have hsame : c'.map kept = c1.map kept := h2.same
  have htr : ∀ i, trackAt c' i = trackAt c1 i := kept_track hsame
  have hlen : c'.length = c1.length := kept_length hsame
  have hTc : ∀ i t, trackAt c1 i = some t → t ∈ T := fun i t h => hT1 t ⟨i, h⟩
  have hent : ∀ j u v s, trackAt c1 j = some u → front g u = some v → g.prev v = some s →
      parentAt c' j = (match index c1 (g.trk s) with | some i => (i : Int) | none => -1) := by
    intro j u v s h3 h4 h5
    have := h2.ent j u v s h3 h4 h5
    rw [if_pos (trackAt_lt h3)] at this
    exact this
  have hfree : ∀ j u v, trackAt c1 j = some u → front g u = some v → g.prev v = none →
      ∃ p x, ps[p]? = some x ∧ parentAt c' j = (c1.length + p : Nat) ∧ j ∈ x.daughters := by
    intro j u v h3 h4 h5
    rcases h2.free j u v h3 h4 h5 with h | h
    · exact absurd h (h2.fdone j u v h3 h4 h5 (trackAt_lt h3))
    · exact h
  have hdau : ∀ j u, trackAt c1 j = some u → daughtersAt c' j = (kids g u true).filterMap (index c1) := by
    intro j u h3
    have := h2.dau j u h3
    rw [if_pos (trackAt_lt h3)] at this
    exact this
  have hdnone : ∀ i, trackAt c1 i = none → daughtersAt c' i = [] := by
    intro i hi
    have : ¬ i < c1.length := by
      intro hc
      obtain ⟨t, ht⟩ := hval i hc
      rw [hi] at ht
      cases ht
    unfold daughtersAt
    rw [List.getElem?_eq_none (by omega)]
    rfl
  refine ⟨c', ps, ?_, hsame.trans hkept1, ?_, ?_, ?_, ?_, ?_⟩
  · exact h1
  · intro i j t u hi hj
    rw [htr] at hi hj
    have htT := hTc i t hi
    have huT := hTc j u hj
    constructor
    · obtain ⟨v, _, _, _, h0⟩ := hF.front_some huT
      cases hp : g.prev v with
      | some s =>
        rw [hent j u v s hj h0 hp]
        obtain ⟨h3, h4⟩ := hF.prev_track hp
        have hcs : Child g T (g.trk s) u := ⟨huT, v, h0, h4⟩
        constructor
        · intro h
          cases he : index c1 (g.trk s) with
          | none => rw [he] at h; simp only at h; omega
          | some i' =>
            rw [he] at h
            simp only at h
            have : i' = i := by omega
            subst this
            have := index_some he
            unfold trackAt at hi
            rw [hi] at this
            cases this
            exact hcs
        · intro hc
          have := hF.parent_unique htT h3 hc hcs
          subst this
          rw [index_eq hd1 hi]
      | none =>
        obtain ⟨p, x, _, h4, _⟩ := hfree j u v hj h0 hp
        rw [h4]
        have := trackAt_lt hi
        constructor
        · intro h; omega
        · intro hc
          obtain ⟨_, v', h5, h6⟩ := hc
          rw [h0] at h5
          cases h5
          obtain ⟨s, h7, _⟩ := hF.prev_tail htT h6
          rw [hp] at h7
          cases h7
    · rw [hdau i t hi, mem_filterMap_index hd1]
      simp only [hF.mem_kids_true htT]
      constructor
      · rintro ⟨u', h3, h4⟩
        rw [hj] at h3
        cases h3
        exact h4
      · intro h
        exact ⟨u, hj, h⟩
  · intro i
    cases hi : trackAt c1 i with
    | none => rw [hdnone i hi]; exact ⟨List.nodup_nil, by simp⟩
    | some t =>
      rw [hdau i t hi]
      refine ⟨index_filterMap_nodup (hF.kids_nodup_true (hTc i t hi)), ?_⟩
      intro j hj
      obtain ⟨u, h3, _⟩ := (mem_filterMap_index hd1).1 hj
      rw [hlen]
      exact trackAt_lt h3
  · intro j u v h3 h4 h5
    rw [htr] at h3
    rw [hlen]
    exact hfree j u v h3 h4 h5
  · intro p x hx
    obtain ⟨a1, a2, v, a3, a4, a5, a6, a7, a8⟩ := h2.pris p x hx
    refine ⟨a1, a2, ⟨v, a3, fun j => by rw [htr]; exact a4 j⟩, ?_, a6, a7, by rw [kept_id hsame]; exact a8⟩
    intro j
    rw [hlen]
    refine ⟨fun h => ?_, fun h => a5 j h⟩
    have hjl : j < c1.length := by
      by_contra hc
      unfold parentAt at h
      rw [List.getElem?_eq_none (by omega)] at h
      simp only [Option.map_none, Option.getD_none] at h
      omega
    obtain ⟨u, hu⟩ := hval j hjl
    obtain ⟨v', _, _, _, h0⟩ := hF.front_some (hTc j u hu)
    cases hp : g.prev v' with
    | some s =>
      rw [hent j u v' s hu h0 hp] at h
      cases he : index c1 (g.trk s) with
      | none => rw [he] at h; simp only at h; omega
      | some i' =>
        rw [he] at h
        simp only at h
        have := index_lt he
        omega
    | none =>
      obtain ⟨p', x', h3, h4, h5⟩ := hfree j u v' hu h0 hp
      rw [h4] at h
      have : p' = p := by omega
      subst this
      rw [hx] at h3
      cases h3
      exact h5
  · intro j u v hj h0
    simp only [htr] at hj ⊢
    cases hp : g.prev v with
    | some s =>
      rw [hent j u v s hj h0 hp]
      constructor
      · intro h
        refine ⟨s, rfl, ?_⟩
        rintro ⟨i, hi⟩
        rw [index_eq hd1 hi] at h
        simp only at h
        omega
      · rintro ⟨s', h3, h4⟩
        cases h3
        rw [index_none (fun ⟨i, hi⟩ => h4 ⟨i, hi⟩)]
    | none =>
      obtain ⟨p, x, _, h4, _⟩ := hfree j u v hj h0 hp
      rw [h4]
      constructor
      · intro h; omega
      · rintro ⟨s, h, _⟩; cases h

example : (setConnections exG exC).map (fun r => (r.1.map fun x => (x.track, x.parent, x.daughters), r.2.map
      Cand.daughters)) =
    some ([(some 2, 4, []), (some 4, 5, []), (some 0, 6, [4]), (some 3, 6, []), (some 1, 2, [0])],
      [[1], [2, 3]]) := by decide

example : (exC.filterMap Cand.track).Nodup ∧ ∀ u ∈ exC.filterMap Cand.track, u ∈ [0, 1, 2, 3, 4] := by decide

end Verif.PMAlg.Tree

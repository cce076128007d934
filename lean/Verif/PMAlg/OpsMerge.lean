import Verif.PMAlg.OpsExtend
/-! # Operations on track trees: candidates merged -/
namespace Verif.PMAlg.Tree
open Relation

variable {W : World} {T : List Nat}

/-- the position before entry `k` was taken out -/
def oldPos (k j : Nat) : Nat := if j < k then j else j + 1

/-- two candidates have the same tree identifier exactly when their tracks are of one tree -/
def IdsTell (g : Graph) (T : List Nat) (c : List Cand) : Prop :=
  ∀ i j t u, trackAt c i = some t → trackAt c j = some u → (idAt c i = idAt c j ↔ Conn g T t u)

theorem merged_get (c : List Cand) (i1 i2 j : Nat) (F : Cand → Cand) :
    ((c.modify i1 F).eraseIdx i2)[j]? = (c[oldPos i2 j]?).map (if oldPos i2 j = i1 then F else id) := by
  rw [List.getElem?_eraseIdx]
  unfold oldPos
  split <;> rw [List.getElem?_modify] <;> (congr 1; split <;> rename_i h <;> [rw [if_pos h.symm]; (rw [if_neg (fun h' => h h'.symm)]; rfl)])

/-- **C114.** Merging candidate `i2`, the first track of another tree, into an earlier candidate `i1`: the nodes and
hits of the second track follow those of the first, its clusters are appended to the clusters of the first candidate,
its entry disappears and the other entries keep everything else; the tracks form trees again; and tree identifiers
that told the trees apart before do so afterwards. -/
theorem C114_merge_partial (h : Sound W T) (c : List Cand) (hd : Distinct c) (hT : ∀ u, InC c u ↔ u ∈ T)
    (hid : IdsTell W.g T c) {i1 i2 : Nat} {x1 x2 : Cand} {t1 t2 : Nat} (h1 : c[i1]? = some x1)
    (h2 : c[i2]? = some x2) (ht1 : x1.track = some t1) (ht2 : x2.track = some t2) (hlt : i1 < i2)
    (hr : IsRoot W.g T t2) (hc : ¬ Conn W.g T t1 t2) :
    ∃ N, ∀ f, N ≤ f → ∃ W' c', merge f W c i1 i2 = .ok (W', c') ∧
      Sound W' (T.filter (· ≠ t2)) ∧
      (∀ u, W'.g.nodes u = if u = t2 then [] else if u = t1 then W.g.nodes t1 ++ W.g.nodes t2 else W.g.nodes u) ∧
      (∀ u, W'.hits u = if u = t1 then W.hits t1 ++ W.hits t2 else if u = t2 then [] else W.hits u) ∧
      c'.map noId =
        ((c.set i1 { x1 with clusters := x1.clusters ++ x2.clusters }).eraseIdx i2).map noId ∧
      IdsTell W'.g (T.filter (· ≠ t2)) c' := by
  have hT1 : t1 ∈ T := (hT t1).1 ⟨i1, by rw [h1]; exact ht1⟩
  have hne : t1 ≠ t2 := by rintro rfl; exact hc (conn_refl _)
  obtain ⟨W', hok, hS, hN, hH⟩ := extendWith_spec h hT1 hr.1 hr hc
  have hT1' : t1 ∈ T.filter (· ≠ t2) := by simp [hT1, hne]
  obtain ⟨M, hM1, hM2, N, hM⟩ := hS.forest.setTreeId_any hT1'
  refine ⟨N, fun f hf => ?_⟩
  let F : Cand → Cand := fun x => { x with clusters := x.clusters ++ x2.clusters }
  have hget := merged_get c i1 i2 (F := F)
  have htrack : ∀ j, trackAt ((c.modify i1 F).eraseIdx i2) j = trackAt c (oldPos i2 j) := by
    intro j
    unfold trackAt
    rw [hget]
    cases c[oldPos i2 j]? with
    | none => rfl
    | some x =>
      simp only [Option.map_some, Option.bind_some]
      split <;> rfl
  have hidat : ∀ j, idAt ((c.modify i1 F).eraseIdx i2) j = idAt c (oldPos i2 j) := by
    intro j
    unfold idAt
    rw [hget]
    cases c[oldPos i2 j]? with
    | none => rfl
    | some x =>
      simp only [Option.map_some, Option.getD_some]
      split <;> rfl
  have hinj : ∀ i j, oldPos i2 i = oldPos i2 j → i = j := by
    intro i j h
    unfold oldPos at h
    split at h <;> split at h <;> omega
  have hold1 : oldPos i2 i1 = i1 := if_pos hlt
  have hset : c.modify i1 F = c.set i1 { x1 with clusters := x1.clusters ++ x2.clusters } := by
    apply List.ext_getElem?
    intro j
    rw [List.getElem?_modify, List.getElem?_set]
    by_cases hj : i1 = j
    · subst hj
      have : i1 < c.length := by
        by_contra hx
        rw [List.getElem?_eq_none (by omega)] at h1
        cases h1
      rw [if_pos rfl, if_pos this, h1]
      simp [F]
    · simp [hj]
  generalize hc1 : (c.modify i1 F).eraseIdx i2 = c1 at hget htrack hidat
  have hd1 : Distinct c1 := by
    intro i j t hi hj
    have hi' := htrack i
    have hj' := htrack j
    unfold trackAt at hi' hj'
    rw [hi'] at hi
    rw [hj'] at hj
    exact hinj i j (hd _ _ t hi hj)
  have hold : ∀ k, k ≠ i2 → ∃ j, oldPos i2 j = k := by
    intro k hk
    unfold oldPos
    by_cases hk2 : k < i2
    · exact ⟨k, if_pos hk2⟩
    · exact ⟨k - 1, by rw [if_neg (by omega)]; omega⟩
  have holdne : ∀ j, oldPos i2 j ≠ i2 := by
    intro j
    unfold oldPos
    split <;> omega
  have hT1c : ∀ u, InC c1 u ↔ u ∈ T.filter (· ≠ t2) := by
    intro u
    simp only [List.mem_filter, ne_eq, decide_eq_true_eq, ← hT]
    constructor
    · rintro ⟨j, hj⟩
      have e := htrack j
      unfold trackAt at e
      rw [e] at hj
      refine ⟨⟨_, hj⟩, ?_⟩
      rintro rfl
      exact holdne j (hd _ i2 u hj (by rw [h2]; exact ht2))
    · rintro ⟨⟨k, hk⟩, hu⟩
      obtain ⟨j, rfl⟩ := hold k (by
        rintro rfl
        rw [h2] at hk
        have : some u = some t2 := hk.symm.trans ht2
        cases this
        exact hu rfl)
      have e := htrack j
      unfold trackAt at e
      exact ⟨j, by rw [e]; exact hk⟩
  have htr1 : trackAt c1 i1 = some t1 := by
    rw [htrack, hold1]
    unfold trackAt
    rw [h1]
    exact ht1
  obtain ⟨y, hy, hyt, hyid⟩ : ∃ y, c1[i1]? = some y ∧ y.track = some t1 ∧ y.treeId = idAt c i1 := by
    have e1 := htr1
    have e2 := hidat i1
    rw [hold1] at e2
    unfold trackAt at e1
    unfold idAt at e2
    cases hy : c1[i1]? with
    | none => rw [hy] at e1; cases e1
    | some y =>
      rw [hy] at e1 e2
      exact ⟨y, rfl, e1, e2⟩
  refine ⟨W', mark M y.treeId c1, ?_, hS, hN, hH, ?_, ?_⟩
  · unfold merge
    rw [h1, h2]
    simp only [ht1, ht2, hok]
    have : (c.modify i1 fun x => { x with clusters := x.clusters ++ x2.clusters }).eraseIdx i2 = c1 := hc1
    rw [this, hy]
    simp only
    rw [hM f hf y.treeId c1 hd1 hT1c i1 (by rw [hy]; exact hyt)]
  · rw [mark_noId, ← hset, hc1]
  · -- identifiers
    intro i j a b ha hb
    have hmt := trackAt_noId (mark_noId M y.treeId c1)
    rw [hmt] at ha hb
    have hconn : ∀ a b, a ∈ T ∧ a ≠ t2 → b ∈ T ∧ b ≠ t2 →
        (Conn W'.g (T.filter (· ≠ t2)) a b ↔ Joined W.g T t1 t2 a b) := fun a b ha hb =>
      joined_conn hT1 hr.1 hne (fun u hu => by rw [hN, if_neg hu]) ha.1 hb.1 ha.2 hb.2
    have hin : ∀ (k x : Nat), trackAt c1 k = some x → x ∈ T ∧ x ≠ t2 := by
      intro k x hk
      have := (hT1c x).1 ⟨k, hk⟩
      simpa using this
    have hfinal : ∀ (k x : Nat), trackAt c1 k = some x →
        (Conn W'.g (T.filter (· ≠ t2)) t1 x → idAt (mark M y.treeId c1) k = idAt c i1) ∧
        (¬ Conn W'.g (T.filter (· ≠ t2)) t1 x → idAt (mark M y.treeId c1) k = idAt c (oldPos i2 k)) := by
      intro k x hk
      obtain ⟨hm1, hm2⟩ := idAt_mark M y.treeId c1 k x hk
      have hx := hin k x hk
      constructor
      · intro hcx
        by_cases hMx : M x
        · rw [hm1 hMx, hyid]
        · rw [hm2 hMx, hidat]
          have hJ := (hconn t1 x ⟨hT1, hne⟩ hx).1 hcx
          have hnot2 : ¬ Conn W.g T t2 x := fun hx2 =>
            hMx (hM1 x (below_of_joined h.forest hT1 hr hc hN hx.1 hx.2 hx2))
          have hcx1 : Conn W.g T t1 x := by
            rcases hJ with hJ | ⟨_, hJ | hJ⟩
            · exact hJ
            · exact conn_symm hJ
            · exact absurd (conn_symm hJ) hnot2
          rw [htrack] at hk
          have := hid i1 (oldPos i2 k) t1 x (by unfold trackAt; rw [h1]; exact ht1) hk
          exact (this.2 hcx1).symm
      · intro hcx
        rw [hm2 (fun hMx => hcx (hM2 x hMx)), hidat]
    have hai := hin i a ha
    have hbj := hin j b hb
    have hka := ha
    have hkb := hb
    rw [htrack] at hka hkb
    have ht1c : trackAt c i1 = some t1 := by unfold trackAt; rw [h1]; exact ht1
    by_cases hca : Conn W'.g (T.filter (· ≠ t2)) t1 a <;> by_cases hcb : Conn W'.g (T.filter (· ≠ t2)) t1 b
    · rw [(hfinal i a ha).1 hca, (hfinal j b hb).1 hcb]
      exact ⟨fun _ => conn_trans (conn_symm hca) hcb, fun _ => rfl⟩
    · rw [(hfinal i a ha).1 hca, (hfinal j b hb).2 hcb, hid i1 _ t1 b ht1c hkb]
      constructor
      · intro hx
        exact absurd ((hconn t1 b ⟨hT1, hne⟩ hbj).2 (Or.inl hx)) hcb
      · intro hx
        exact absurd (conn_trans hca hx) hcb
    · rw [(hfinal i a ha).2 hca, (hfinal j b hb).1 hcb, hid _ i1 a t1 hka ht1c]
      constructor
      · intro hx
        exact absurd ((hconn t1 a ⟨hT1, hne⟩ hai).2 (Or.inl (conn_symm hx))) hca
      · intro hx
        exact absurd (conn_trans hcb (conn_symm hx)) hca
    · rw [(hfinal i a ha).2 hca, (hfinal j b hb).2 hcb, hid _ _ a b hka hkb, hconn a b hai hbj]
      constructor
      · exact Or.inl
      · rintro (hx | ⟨hx, _⟩)
        · exact hx
        · exact absurd ((hconn t1 a ⟨hT1, hne⟩ hai).2
            (Or.inr ⟨Or.inl (conn_refl _), hx⟩)) hca

/-! ### examples -/

/-- a track added with new segments -/
def addTrack (W : World) (t : Nat) (L : List Nat) : World := withNodes (segsFor W t L) t L

theorem Links.add (h : Links W T) {t a : Nat} {l : List Nat} (ht : t ∉ T) (hs : W.segs t = [])
    (hnd : (a :: l).Nodup) (hp : ∀ b ∈ l, W.g.prev b = none) : Links (addTrack W t (a :: l)) (t :: T) := by
  have hTf : T.filter (· ≠ t) = T := by
    rw [List.filter_eq_self]
    intro x hx
    simp only [ne_eq, decide_eq_true_eq]
    rintro rfl
    exact ht hx
  have h1 := Links.single (T := T) (t := t) (W := W) (by rw [hTf]; exact h) hs a
  rw [hTf] at h1
  exact Links.extendAll (T := t :: T) (t := t) (by simp) l W [] a h1 (by simpa using hnd) hp

/-- nothing -/
def exW0 : World := ⟨⟨fun _ => [], fun _ => [], fun _ => none, fun _ => 0, fun _ => none⟩, fun _ => [],
  fun t => [10 * t, 10 * t + 1], 0⟩

/-- track 1 starts at the second node of track 0, tracks 2 and 3 have a common first node, track 4 is alone -/
def exW : World :=
  addTrack (addTrack (addTrack (addTrack (addTrack exW0 0 [0, 1, 2]) 1 [1, 3]) 2 [4, 5]) 3 [4, 6, 7]) 4 [8, 9]

theorem exW_sound : Sound exW [4, 3, 2, 1, 0] := by
  have h0 : Links exW0 [] := by
    refine ⟨by simp, ?_, ?_, ?_, ?_, by simp⟩
    · intro v s hs; cases hs
    · intro w s hs; cases hs
    · intro v; exact List.nodup_nil
    · intro v s hs; cases hs
  have h1 := h0.add (t := 0) (a := 0) (l := [1, 2]) (by decide) rfl (by decide) (by decide)
  have h2 := h1.add (t := 1) (a := 1) (l := [3]) (by decide) rfl (by decide) (by decide)
  have h3 := h2.add (t := 2) (a := 4) (l := [5]) (by decide) rfl (by decide) (by decide)
  have h4 := h3.add (t := 3) (a := 4) (l := [6, 7]) (by decide) rfl (by decide) (by decide)
  have h5 := h4.add (t := 4) (a := 8) (l := [9]) (by decide) rfl (by decide) (by decide)
  refine h5.sound (by decide) ⟨id, ?_⟩
  have key : ∀ (l : List Nat) (i v w : Nat), l.Pairwise (· < ·) → l[i]? = some v → l[i + 1]? = some w → v < w := by
    intro l i v w hl hv hw
    rw [List.pairwise_iff_getElem] at hl
    obtain ⟨h1, rfl⟩ := List.getElem?_eq_some_iff.1 hv
    obtain ⟨h2, rfl⟩ := List.getElem?_eq_some_iff.1 hw
    exact hl i (i + 1) h1 h2 (by omega)
  intro t ht i v w
  exact key _ i v w (by revert t; decide)

/-- no track of one list shares a node with a track of the other -/
theorem not_conn {g : Graph} {T : List Nat} (S : Nat → Bool) (h : ∀ a ∈ T, ∀ b ∈ T, ∀ v ∈ g.nodes a,
    v ∈ g.nodes b → S a = S b) {a b : Nat} (hab : Conn g T a b) : S a = S b := by
  induction hab with
  | rel a b h' => obtain ⟨ha, hb, v, h1, h2⟩ := h'; exact h a ha b hb v h1 h2
  | refl a => rfl
  | symm a b _ ih => exact ih.symm
  | trans a b c _ _ ih1 ih2 => exact ih1.trans ih2

def exM : List Cand := [⟨some 0, 7, -1, [], [1]⟩, ⟨some 4, 2, -1, [], [5]⟩, ⟨some 1, 7, -1, [], [2]⟩,
  ⟨some 2, 3, -1, [], [3]⟩, ⟨some 3, 3, -1, [], [4]⟩]

example : ¬ Conn exW.g [4, 3, 2, 1, 0] 0 2 := by
  intro h
  have := not_conn (fun t => t = 0 ∨ t = 1) (by decide) h
  revert this
  decide

example : IsRoot exW.g [4, 3, 2, 1, 0] 2 ∧ Distinct exM :=
  ⟨⟨by decide, 4, by decide, by decide⟩, distinct_of_nodup (by decide)⟩

/-- the observable part of a merge -/
def mergeView (r : Out (World × List Cand)) : Option (List (List Nat) × List (List Nat) × List Cand) :=
  match r with
  | .ok (W, c) => some ((List.range 5).map W.g.nodes, (List.range 5).map W.hits, c)
  | _ => none

example : mergeView (merge 10 exW exM 0 3) = some
    ([[0, 1, 2, 4, 5], [1, 3], [], [4, 6, 7], [8, 9]],
     [[0, 1, 20, 21], [10, 11], [], [30, 31], [40, 41]],
     [⟨some 0, 7, -1, [], [1, 3]⟩, ⟨some 4, 2, -1, [], [5]⟩, ⟨some 1, 7, -1, [], [2]⟩,
      ⟨some 3, 7, -1, [], [4]⟩]) := by decide +kernel

def Out.isUndef {α : Type} : Out α → Bool
  | .undef => true
  | _ => false

/-- **C114, refuted for an entry merged into a later one**, which is what the stitching does for tracks that meet
with their first ends (PMAlgStitching.cxx:273): after the erase the old number is used for the refresh of the tree
identifiers. Track 2 is merged into track 0: track 3, now of that tree, keeps another identifier, since the tree of
the next candidate was refreshed; and when the other entry is the last one, the access is out of range. -/
theorem C114_later_refuted :
    (mergeView (merge 10 exW [⟨some 2, 3, -1, [], [3]⟩, ⟨some 0, 7, -1, [], [1]⟩, ⟨some 4, 2, -1, [], [5]⟩,
        ⟨some 1, 7, -1, [], [2]⟩, ⟨some 3, 3, -1, [], [4]⟩] 1 0)).map (fun r => (r.1, r.2.2)) = some
      ([[0, 1, 2, 4, 5], [1, 3], [], [4, 6, 7], [8, 9]],
       [⟨some 0, 7, -1, [], [1, 3]⟩, ⟨some 4, 2, -1, [], [5]⟩, ⟨some 1, 7, -1, [], [2]⟩,
        ⟨some 3, 3, -1, [], [4]⟩]) ∧
    (merge 10 exW [⟨some 2, 3, -1, [], [3]⟩, ⟨some 4, 2, -1, [], [5]⟩, ⟨some 1, 7, -1, [], [2]⟩,
        ⟨some 3, 3, -1, [], [4]⟩, ⟨some 0, 7, -1, [], [1]⟩] 4 0).isUndef = true := by
  constructor <;> decide +kernel

/-- **C114.** A track that starts at a node of another track is refused: nothing but an exception. -/
theorem C114_daughter (W : World) (t src v s : Nat) (h : (W.g.nodes src).head? = some v) (hp : W.g.prev v = some s) :
    extendWith W t src = .throw := by
  unfold extendWith
  rw [h]
  simp only [hp]

example : (exW.g.nodes 1).head? = some 1 ∧ exW.g.prev 1 = some 0 := by decide +kernel

end Verif.PMAlg.Tree

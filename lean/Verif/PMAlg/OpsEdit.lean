import Verif.PMAlg.OpsFlip
/-! # Operations on track trees: nodes inserted and removed; examples of flips -/
namespace Verif.PMAlg.Tree
open Relation

variable {W : World} {T : List Nat}

theorem Forest.hang_rank {g : Graph} (hF : Forest g T) : ∃ rank : Nat → Nat, ∀ a b, Hang g T a b → a = b ∨ rank a < rank b := by
  obtain ⟨rank, hr⟩ := hF.acy
  refine ⟨rank, fun a b h => ?_⟩
  induction h with
  | refl => exact Or.inl rfl
  | @tail y z _ h2 ih =>
    obtain ⟨u, hu, i, hv, hw⟩ := h2
    have := hr u hu i y z hv hw
    rcases ih with rfl | ih
    · exact Or.inr this
    · exact Or.inr (lt_trans ih this)

/-- a node that is not used -/
def Unused (W : World) (T : List Nat) (n : Nat) : Prop := W.g.prev n = none ∧ ∀ u ∈ T, n ∉ W.g.nodes u

/-- all nodes of the new list are nodes of the old list or not used, and the first node of the track is not entered -/
theorem Sound.rebuild_root (h : Sound W T) {t : Nat} (hr : IsRoot W.g T t) {L : List Nat} (hnd : L.Nodup)
    (hlen : 2 ≤ L.length) (hL : ∀ b ∈ L, b ∈ W.g.nodes t ∨ W.g.prev b = none) :
    Sound (Tree.rebuild (withNodes W t L) t) T ∧
      (∀ u, (Tree.rebuild (withNodes W t L) t).g.nodes u = if u = t then L else W.g.nodes u) ∧
      (Tree.rebuild (withNodes W t L) t).hits = W.hits := by
  obtain ⟨ht, v0, h0, hp0⟩ := id hr
  have hall : ∀ b ∈ L, (deleteSegments W t).g.prev b = none := by
    intro b hb
    refine h.links.delete_prev ht ?_
    rcases hL b hb with hb | hb
    · rcases Forest.node_cases hb with hb | hb
      · rw [h0] at hb; cases hb; exact Or.inr hp0
      · exact Or.inl hb
    · exact Or.inr hb
  obtain ⟨a, l, rfl⟩ : ∃ a l, L = a :: l := by
    cases L with
    | nil => simp at hlen
    | cons a l => exact ⟨a, l, rfl⟩
  refine h.rebuild ht hnd ?_ (fun b hb => hall b (List.mem_cons_of_mem _ hb)) ?_
  · rintro rfl; simp at hlen
  · intro b hb hab
    have := (h.delete ht).forest.hang_top hab (hall a (List.mem_cons_self ..))
    subst this
    exact (List.nodup_cons.1 hnd).1 hb

/-- the first node stays, the others are nodes of the old list or not used -/
theorem Sound.rebuild_keep (h : Sound W T) {t : Nat} (ht : t ∈ T) {a : Nat} {l : List Nat}
    (ha : front W.g t = some a) (hnd : (a :: l).Nodup) (hl : l ≠ [])
    (hL : ∀ b ∈ l, b ∈ W.g.nodes t ∨ Unused W T b) :
    Sound (Tree.rebuild (withNodes W t (a :: l)) t) T ∧
      (∀ u, (Tree.rebuild (withNodes W t (a :: l)) t).g.nodes u = if u = t then a :: l else W.g.nodes u) ∧
      (Tree.rebuild (withNodes W t (a :: l)) t).hits = W.hits := by
  have hne : ∀ b ∈ l, b ≠ a := by
    rintro b hb rfl
    exact (List.nodup_cons.1 hnd).1 hb
  have htail : ∀ b ∈ l, b ∈ (W.g.nodes t).drop 1 ∨ Unused W T b := by
    intro b hb
    rcases hL b hb with h' | h'
    · rcases Forest.node_cases h' with h'' | h''
      · rw [ha] at h''; cases h''; exact absurd rfl (hne _ hb)
      · exact Or.inl h''
    · exact Or.inr h'
  refine h.rebuild ht hnd hl ?_ ?_
  · intro b hb
    refine h.links.delete_prev ht ?_
    rcases htail b hb with h' | h'
    · exact Or.inl h'
    · exact Or.inr h'.1
  · intro b hb hab
    have hF := h.forest
    obtain ⟨rank, hr⟩ := hF.hang_rank
    have hup : Hang W.g T b a := by
      clear hb hne hnd ha
      induction hab with
      | refl => exact ReflTransGen.refl
      | tail _ h' ih =>
        obtain ⟨u, hu, i, h1, h2⟩ := h'
        rw [(deleteSegments_eq W t).1] at h1 h2
        exact ReflTransGen.tail ih ⟨u, List.mem_of_mem_filter hu, i, h1, h2⟩
    rcases htail b hb with h' | h'
    · obtain ⟨i, hi⟩ := mem_drop_one.1 h'
      have hstep : ∀ (j x : Nat), (W.g.nodes t)[j]? = some x → Hang W.g T a x := by
        intro j
        induction j with
        | zero =>
          intro x hx
          unfold front at ha
          rw [List.head?_eq_getElem?, hx] at ha
          cases ha
          exact ReflTransGen.refl
        | succ j ih =>
          intro x hx
          have hlt : j < (W.g.nodes t).length := by
            have := (List.getElem?_eq_some_iff.1 hx).1
            omega
          exact ReflTransGen.tail (ih _ (List.getElem?_eq_getElem hlt)) ⟨t, ht, j, List.getElem?_eq_getElem hlt, hx⟩
      have h1 := hr _ _ (hstep _ b hi)
      have h2 := hr _ _ hup
      have := hne b hb
      rcases h1 with h1 | h1
      · exact this h1.symm
      · rcases h2 with h2 | h2
        · exact this h2
        · omega
    · rcases ReflTransGen.cases_head hup with h1 | ⟨y, ⟨u, hu, i, h1, _⟩, _⟩
      · exact hne b hb h1
      · exact h'.2 u hu (List.mem_of_getElem? h1)

/-- **C116.** A new node put into a track at a position other than the first, or at the first position of a track that
does not start at a node of another track: the node is at this position, all else stays, and the tracks form trees. -/
theorem C116_insert_partial (h : Sound W T) {t n idx : Nat} (ht : t ∈ T) (hn : Unused W T n)
    (hi : idx < (W.g.nodes t).length) (h0 : 0 < idx ∨ IsRoot W.g T t) :
    ∃ W', insertNode W t n idx = some W' ∧ Sound W' T ∧
      (∀ u, W'.g.nodes u = if u = t then (W.g.nodes t).insertIdx idx n else W.g.nodes u) ∧ W'.hits = W.hits := by
  have hF := h.forest
  have h2 := hF.two t ht
  have hlen : ((W.g.nodes t).insertIdx idx n).length = (W.g.nodes t).length + 1 :=
    List.length_insertIdx_of_le_length (by omega) _
  have hins : insertNode W t n idx = some (Tree.rebuild (withNodes W t ((W.g.nodes t).insertIdx idx n)) t) := by
    unfold insertNode
    rw [if_pos hi]
    have : (withNodes W t ((W.g.nodes t).insertIdx idx n)).g.nodes t = (W.g.nodes t).insertIdx idx n := by
      simp [withNodes]
    simp only [this, hlen]
    rw [if_pos (by omega)]
  have hmem : ∀ x, x ∈ (W.g.nodes t).insertIdx idx n ↔ x = n ∨ x ∈ W.g.nodes t := by
    intro x
    rw [List.mem_insertIdx (by omega)]
  have hnd : ((W.g.nodes t).insertIdx idx n).Nodup := by
    rw [(List.perm_insertIdx n (W.g.nodes t) (by omega)).nodup_iff]
    exact List.nodup_cons.2 ⟨hn.2 t ht, hF.nodes_nodup ht⟩
  refine ⟨_, hins, ?_⟩
  rcases h0 with h0 | h0
  · have hhead : ((W.g.nodes t).insertIdx idx n).head? = (W.g.nodes t).head? := by
      cases hn' : W.g.nodes t with
      | nil => rw [hn'] at h2; simp at h2
      | cons a l =>
        obtain ⟨j, rfl⟩ : ∃ j, idx = j + 1 := ⟨idx - 1, by omega⟩
        rw [List.insertIdx_succ_cons]
        rfl
    generalize (W.g.nodes t).insertIdx idx n = L at hlen hmem hnd hhead
    cases L with
    | nil => simp at hlen
    | cons a l =>
      refine h.rebuild_keep ht (a := a) (l := l) (by unfold front; rw [← hhead]; rfl) hnd ?_ ?_
      · rintro rfl
        simp only [List.length_cons, List.length_nil] at hlen
        omega
      · intro b hb
        rcases (hmem b).1 (List.mem_cons_of_mem _ hb) with rfl | hb
        · exact Or.inr hn
        · exact Or.inl hb
  · refine h.rebuild_root h0 hnd (by omega) ?_
    intro b hb
    rcases (hmem b).1 hb with rfl | hb
    · exact Or.inr hn.1
    · exact Or.inl hb

/-- **C116.** A node taken out of a track with at least three nodes: the node is missing, all else stays, and the tracks form trees. -/
theorem C116_remove_partial (h : Sound W T) {t idx : Nat} (ht : t ∈ T) (h3 : 3 ≤ (W.g.nodes t).length)
    (hi : idx < (W.g.nodes t).length) :
    ∃ W', removeNode W t idx = (true, W') ∧ Sound W' T ∧
      (∀ u, W'.g.nodes u = if u = t then (W.g.nodes t).eraseIdx idx else W.g.nodes u) ∧ W'.hits = W.hits := by
  have hF := h.forest
  have hrem : removeNode W t idx = (true, Tree.rebuild (withNodes W t ((W.g.nodes t).eraseIdx idx)) t) := by
    unfold removeNode
    rw [if_pos ⟨by omega, hi⟩]
  have hlen : ((W.g.nodes t).eraseIdx idx).length = (W.g.nodes t).length - 1 := List.length_eraseIdx_of_lt hi
  have hnd : ((W.g.nodes t).eraseIdx idx).Nodup := (hF.nodes_nodup ht).sublist (List.eraseIdx_sublist _ _)
  have hmem : ∀ x, x ∈ (W.g.nodes t).eraseIdx idx → x ∈ W.g.nodes t := fun x hx =>
    (List.eraseIdx_sublist _ _).subset hx
  refine ⟨_, hrem, ?_⟩
  cases idx with
  | zero =>
    have hd : (W.g.nodes t).eraseIdx 0 = (W.g.nodes t).drop 1 := by
      cases W.g.nodes t <;> simp
    rw [hd] at hlen hnd ⊢
    have hall : ∀ b ∈ (W.g.nodes t).drop 1, (deleteSegments W t).g.prev b = none := fun b hb =>
      h.links.delete_prev ht (Or.inl hb)
    generalize (W.g.nodes t).drop 1 = L at hlen hnd hall
    cases L with
    | nil => simp at hlen; omega
    | cons a l =>
      refine h.rebuild ht hnd ?_ (fun b hb => hall b (List.mem_cons_of_mem _ hb)) ?_
      · rintro rfl; simp at hlen; omega
      · intro b hb hab
        have := (h.delete ht).forest.hang_top hab (hall a (List.mem_cons_self ..))
        subst this
        exact (List.nodup_cons.1 hnd).1 hb
  | succ idx =>
    have hhead : ((W.g.nodes t).eraseIdx (idx + 1)).head? = (W.g.nodes t).head? := by
      cases W.g.nodes t with
      | nil => rfl
      | cons a l => simp
    generalize (W.g.nodes t).eraseIdx (idx + 1) = L at hlen hmem hnd hhead
    cases L with
    | nil => simp at hlen; omega
    | cons a l =>
      refine h.rebuild_keep ht (a := a) (l := l) (by unfold front; rw [← hhead]; rfl) hnd ?_ ?_
      · rintro rfl; simp at hlen; omega
      · intro b hb
        exact Or.inl (hmem b (List.mem_cons_of_mem _ hb))

example : Unused exW [4, 3, 2, 1, 0] 20 ∧ 3 ≤ (exW.g.nodes 3).length := by
  refine ⟨⟨by decide, by decide⟩, by decide⟩

example : (insertNode exW 1 20 1).map (fun W => (W.g.nodes 1, W.g.prev 3, W.g.prev 20, W.g.snext 7)) =
    some ([1, 20, 3], some 8, some 7, some 20) := by decide +kernel

/-- what the links of a forest say about a node that is not the first one of a track -/
theorem Forest.enter {g : Graph} (hF : Forest g T) {t i v w : Nat} (ht : t ∈ T) (hv : (g.nodes t)[i]? = some v)
    (hw : (g.nodes t)[i + 1]? = some w) : (g.prev w).map g.trk = some t := by
  obtain ⟨s, _, h2, _, h4⟩ := hF.joined t ht i v w hv hw
  rw [h4, ← h2]
  rfl

/-- **C116, refuted for two cases the code accepts.** A node put before the first node of a track that starts at a
node of another track cuts the other track: node 1 of track 0 is now entered by track 1. Taking a node from a track
with two nodes reports success and leaves a track with one node. -/
theorem C116_front_refuted :
    Sound exW [4, 3, 2, 1, 0] ∧
    (∃ W', insertNode exW 1 20 0 = some W' ∧ W'.g.nodes 0 = [0, 1, 2] ∧ W'.g.nodes 1 = [20, 1, 3] ∧
      ¬ Forest W'.g [4, 3, 2, 1, 0]) ∧
    (∃ W', removeNode exW 4 0 = (true, W') ∧ W'.g.nodes 4 = [9] ∧ W'.segs 4 = []) := by
  refine ⟨exW_sound, ⟨_, rfl, by decide +kernel, by decide +kernel, ?_⟩, ⟨_, rfl, by decide +kernel, by decide +kernel⟩⟩
  intro hF
  have := hF.enter (t := 0) (i := 0) (v := 0) (w := 1) (by simp) (by decide +kernel) (by decide +kernel)
  revert this
  decide +kernel

/-! ### flips -/

/-- track 1 goes on from the end of track 0 -/
def exF : World := addTrack (addTrack (addTrack exW0 0 [0, 1, 2]) 1 [2, 3]) 2 [1, 4]

theorem exF_sound : Sound exF [2, 1, 0] := by
  have h0 : Links exW0 [] := by
    refine ⟨by simp, ?_, ?_, ?_, ?_, by simp⟩
    · intro v s hs; cases hs
    · intro w s hs; cases hs
    · intro v; exact List.nodup_nil
    · intro v s hs; cases hs
  have h1 := h0.add (t := 0) (a := 0) (l := [1, 2]) (by decide) rfl (by decide) (by decide)
  have h2 := h1.add (t := 1) (a := 2) (l := [3]) (by decide) rfl (by decide) (by decide)
  have h3 := h2.add (t := 2) (a := 1) (l := [4]) (by decide) rfl (by decide) (by decide)
  refine h3.sound (by decide) ⟨id, ?_⟩
  have key : ∀ (l : List Nat) (i v w : Nat), l.Pairwise (· < ·) → l[i]? = some v → l[i + 1]? = some w → v < w := by
    intro l i v w hl hv hw
    rw [List.pairwise_iff_getElem] at hl
    obtain ⟨h1, rfl⟩ := List.getElem?_eq_some_iff.1 hv
    obtain ⟨h2, rfl⟩ := List.getElem?_eq_some_iff.1 hw
    exact hl i (i + 1) h1 h2 (by omega)
  intro t ht i v w
  exact key _ i v w (by revert t; decide)

example : (canFlip exF.g 5 1, canFlip exF.g 5 2, canFlip exF.g 5 0) = (some true, some false, some true) := by
  decide +kernel

example : (internalFlip 5 exF 1).map (fun W => [0, 1, 2].map W.g.nodes) = some [[2, 1, 0], [3, 2], [1, 4]] := by
  decide +kernel

/-- **C115, refuted for a track that cannot be flipped.** `Flip()` does not ask `CanFlip()`; for track 2, which starts
in the middle of track 0, it cuts track 0: its node 1 is then entered by track 2. -/
theorem C115_unguarded_refuted :
    Sound exF [2, 1, 0] ∧ canFlip exF.g 5 2 = some false ∧
    ∃ W', internalFlip 5 exF 2 = some W' ∧ W'.g.nodes 0 = [2, 1, 0] ∧ W'.g.nodes 2 = [4, 1] ∧
      ¬ Forest W'.g [2, 1, 0] := by
  refine ⟨exF_sound, by decide +kernel, _, rfl, by decide +kernel, by decide +kernel, ?_⟩
  intro hF
  have := hF.enter (t := 0) (i := 0) (v := 2) (w := 1) (by simp) (by decide +kernel) (by decide +kernel)
  revert this
  decide +kernel

end Verif.PMAlg.Tree

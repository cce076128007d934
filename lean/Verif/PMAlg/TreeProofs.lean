import Verif.PMAlg.TreeModel
import Mathlib.Data.List.Nodup
import Mathlib.Logic.Relation
import Mathlib.Algebra.Order.BigOperators.Group.List
/-! # Track trees: well-formed forests and the loops over them -/
namespace Verif.PMAlg.Tree

/-- A forest of tracks. Each track of `T` has two nodes or more, consecutive nodes are joined by a segment of the
track, each segment leaving a node is one of those, a node is entered by at most one segment, and there is no cycle
(a rank grows along the segments). -/
structure Forest (g : Graph) (T : List Nat) : Prop where
  two : ∀ t ∈ T, 2 ≤ (g.nodes t).length
  joined : ∀ t ∈ T, ∀ i v w, (g.nodes t)[i]? = some v → (g.nodes t)[i + 1]? = some w →
    ∃ s ∈ g.next v, g.trk s = t ∧ g.snext s = some w ∧ g.prev w = some s
  seg : ∀ v, ∀ s ∈ g.next v, g.trk s ∈ T ∧ ∃ i w, (g.nodes (g.trk s))[i]? = some v ∧
    (g.nodes (g.trk s))[i + 1]? = some w ∧ g.snext s = some w ∧ g.prev w = some s
  entered : ∀ w s, g.prev w = some s → ∃ v, s ∈ g.next v ∧ g.snext s = some w
  once : ∀ v, (g.next v).Nodup
  acyclic : ∃ rank : Nat → Nat, ∀ v, ∀ s ∈ g.next v, ∀ w, g.snext s = some w → rank v < rank w

/-- the first node of a track -/
def front (g : Graph) (t : Nat) : Option Nat := (g.nodes t).head?

/-- `u` starts at a node of `t` other than the first -/
def Child (g : Graph) (T : List Nat) (t u : Nat) : Prop :=
  u ∈ T ∧ ∃ v, front g u = some v ∧ v ∈ (g.nodes t).drop 1

variable {g : Graph} {T : List Nat}

theorem Forest.mono (hF : Forest g T) (rank : Nat → Nat)
    (hr : ∀ v, ∀ s ∈ g.next v, ∀ w, g.snext s = some w → rank v < rank w) {t : Nat} (ht : t ∈ T) :
    ∀ (k i v w : Nat), (g.nodes t)[i]? = some v → (g.nodes t)[i + (k + 1)]? = some w → rank v < rank w := by
  intro k
  induction k with
  | zero =>
    intro i v w hv hw
    obtain ⟨s, hs, _, h2, _⟩ := hF.joined t ht i v w hv hw
    exact hr v s hs w h2
  | succ k ih =>
    intro i v w hv hw
    have hlt : i + (k + 1) < (g.nodes t).length := by
      by_contra hc
      rw [List.getElem?_eq_none (by omega)] at hw
      cases hw
    have h1 := ih i v _ hv (List.getElem?_eq_getElem hlt)
    obtain ⟨s, hs, _, h2, _⟩ := hF.joined t ht (i + (k + 1)) _ w (List.getElem?_eq_getElem hlt) hw
    exact lt_trans h1 (hr _ s hs w h2)

theorem Forest.inj (hF : Forest g T) {t : Nat} (ht : t ∈ T) {i j v : Nat}
    (hi : (g.nodes t)[i]? = some v) (hj : (g.nodes t)[j]? = some v) : i = j := by
  obtain ⟨rank, hr⟩ := hF.acyclic
  rcases Nat.lt_trichotomy i j with h | h | h
  · obtain ⟨k, rfl⟩ : ∃ k, j = i + (k + 1) := ⟨j - i - 1, by omega⟩
    exact absurd (hF.mono rank hr ht k i v v hi hj) (lt_irrefl _)
  · exact h
  · obtain ⟨k, rfl⟩ : ∃ k, i = j + (k + 1) := ⟨i - j - 1, by omega⟩
    exact absurd (hF.mono rank hr ht k j v v hj hi) (lt_irrefl _)

theorem Forest.nodes_nodup (hF : Forest g T) {t : Nat} (ht : t ∈ T) : (g.nodes t).Nodup := by
  rw [List.nodup_iff_injective_get]
  intro a b h
  apply Fin.ext
  have ha := List.getElem?_eq_getElem a.2
  have hb := List.getElem?_eq_getElem b.2
  simp only [List.get_eq_getElem] at h
  rw [← h] at hb
  exact hF.inj ht ha hb

/-- the segment of a track that leaves a node is unique -/
theorem Forest.seg_unique (hF : Forest g T) {v s s' : Nat} (hs : s ∈ g.next v) (hs' : s' ∈ g.next v)
    (h : g.trk s = g.trk s') : s = s' := by
  obtain ⟨hT, i, w, h1, h2, h3, h4⟩ := hF.seg v s hs
  obtain ⟨_, i', w', h1', h2', h3', h4'⟩ := hF.seg v s' hs'
  rw [← h] at h1' h2'
  have := hF.inj hT h1 h1'
  subst this
  rw [h2] at h2'
  cases h2'
  rw [h4] at h4'
  exact Option.some.inj h4'

theorem Forest.nextSeg_some (hF : Forest g T) {v s : Nat} (hs : s ∈ g.next v) :
    nextSeg g (g.trk s) v = some s := by
  unfold nextSeg
  cases h : (g.next v).find? (fun x => g.trk x = g.trk s) with
  | none =>
    rw [List.find?_eq_none] at h
    exact absurd (decide_eq_true rfl) (h s hs)
  | some x =>
    have hx := List.mem_of_find?_eq_some h
    have hp := List.find?_some h
    simp only [decide_eq_true_eq] at hp
    rw [hF.seg_unique hx hs hp]

theorem Forest.nextSeg_step (hF : Forest g T) {t : Nat} (ht : t ∈ T) {i v w : Nat}
    (hv : (g.nodes t)[i]? = some v) (hw : (g.nodes t)[i + 1]? = some w) :
    ∃ s, nextSeg g t v = some s ∧ g.snext s = some w ∧ g.prev w = some s ∧ s ∈ g.next v ∧ g.trk s = t := by
  obtain ⟨s, hs, h1, h2, h3⟩ := hF.joined t ht i v w hv hw
  have := hF.nextSeg_some hs
  rw [h1] at this
  exact ⟨s, this, h2, h3, hs, h1⟩

theorem Forest.nextSeg_last (hF : Forest g T) {t : Nat} (ht : t ∈ T) {i v : Nat}
    (hv : (g.nodes t)[i]? = some v) (hw : (g.nodes t)[i + 1]? = none) : nextSeg g t v = none := by
  unfold nextSeg
  rw [List.find?_eq_none]
  intro s hs
  simp only [decide_eq_true_eq]
  intro h
  obtain ⟨_, j, w, h1, h2, _⟩ := hF.seg v s hs
  rw [h] at h1 h2
  have := hF.inj ht hv h1
  subst this
  rw [hw] at h2
  cases h2

theorem Forest.along_eq (hF : Forest g T) {t : Nat} (ht : t ∈ T) : ∀ (k i v f : Nat),
    (g.nodes t).length ≤ i + k → k ≤ f → (g.nodes t)[i]? = some v → along g t f v = some ((g.nodes t).drop i) := by
  intro k
  induction k with
  | zero =>
    intro i v f hk hf hv
    rw [List.getElem?_eq_none (by omega)] at hv
    cases hv
  | succ k ih =>
    intro i v f hk hf hv
    obtain ⟨f, rfl⟩ : ∃ f', f = f' + 1 := ⟨f - 1, by omega⟩
    have hi : i < (g.nodes t).length := by
      by_contra hc
      rw [List.getElem?_eq_none (by omega)] at hv
      cases hv
    have hvv : (g.nodes t)[i] = v := by
      rw [List.getElem?_eq_getElem hi] at hv
      exact Option.some.inj hv
    rw [List.drop_eq_getElem_cons hi, hvv]
    by_cases hl : i + 1 < (g.nodes t).length
    · obtain ⟨s, h1, h2, _⟩ := hF.nextSeg_step ht hv (List.getElem?_eq_getElem hl)
      simp only [along, h1, h2]
      rw [ih (i + 1) _ f (by omega) (by omega) (List.getElem?_eq_getElem hl)]
      rfl
    · have h1 := hF.nextSeg_last ht hv (List.getElem?_eq_none (by omega))
      simp only [along, h1]
      rw [List.drop_eq_nil_of_le (by omega)]

/-- the tracks of the other segments that leave the nodes of `t` -/
def kids (g : Graph) (t : Nat) (skip : Bool) : List Nat :=
  (if skip then (g.nodes t).drop 1 else g.nodes t).flatMap fun v =>
    ((g.next v).filter fun s => g.trk s ≠ t).map g.trk

theorem Forest.filter_eq (hF : Forest g T) (t v : Nat) :
    ((g.next v).filter fun s => some s ≠ nextSeg g t v) = (g.next v).filter fun s => g.trk s ≠ t := by
  apply List.filter_congr
  intro s hs
  by_cases h : g.trk s = t
  · have := hF.nextSeg_some hs
    rw [h] at this
    simp [this, h]
  · have : nextSeg g t v ≠ some s := by
      intro hc
      have := List.find?_some hc
      simp only [decide_eq_true_eq] at this
      exact h this
    simp [h, Ne.symm this]

theorem Forest.front_some (hF : Forest g T) {t : Nat} (ht : t ∈ T) :
    ∃ v w, (g.nodes t)[0]? = some v ∧ (g.nodes t)[1]? = some w ∧ front g t = some v := by
  have h2 := hF.two t ht
  refine ⟨_, _, List.getElem?_eq_getElem (by omega), List.getElem?_eq_getElem (by omega), ?_⟩
  unfold front
  rw [List.head?_eq_getElem?, List.getElem?_eq_getElem (by omega)]

theorem Forest.kidsOf_eq (hF : Forest g T) {t : Nat} (ht : t ∈ T) (skip : Bool) {f : Nat}
    (hf : (g.nodes t).length ≤ f) : kidsOf g f t skip = some (kids g t skip) := by
  obtain ⟨v, w, hv, hw, hfr⟩ := hF.front_some ht
  unfold front at hfr
  cases skip with
  | false =>
    simp only [kidsOf, startNode, hfr, Bool.false_eq_true, if_false]
    rw [hF.along_eq ht (g.nodes t).length 0 v f (by omega) hf hv]
    simp only [Option.map_some, List.drop_zero, kids, Bool.false_eq_true, if_false]
    simp only [hF.filter_eq]
  | true =>
    obtain ⟨s, h1, h2, _⟩ := hF.nextSeg_step ht hv hw
    simp only [kidsOf, startNode, hfr, if_true, h1, h2]
    rw [hF.along_eq ht (g.nodes t).length 1 w f (by omega) hf hw]
    simp only [Option.map_some, kids, if_true]
    simp only [hF.filter_eq]

theorem mem_drop_one {l : List Nat} {v : Nat} : v ∈ l.drop 1 ↔ ∃ i, l[i + 1]? = some v := by
  rw [List.mem_iff_getElem?]
  simp only [List.getElem?_drop]
  constructor
  · rintro ⟨i, h⟩; exact ⟨i, by rw [Nat.add_comm i 1]; exact h⟩
  · rintro ⟨i, h⟩; exact ⟨i, by rw [Nat.add_comm 1 i]; exact h⟩

/-- the segment that enters a node of a track other than its first belongs to the track -/
theorem Forest.prev_tail (hF : Forest g T) {t v : Nat} (ht : t ∈ T) (hv : v ∈ (g.nodes t).drop 1) :
    ∃ s, g.prev v = some s ∧ g.trk s = t := by
  obtain ⟨i, hi⟩ := mem_drop_one.1 hv
  have hlt : i < (g.nodes t).length := by
    by_contra hc
    rw [List.getElem?_eq_none (by omega)] at hi
    cases hi
  obtain ⟨s, _, h1, _, h3⟩ := hF.joined t ht i _ v (List.getElem?_eq_getElem hlt) hi
  exact ⟨s, h3, h1⟩

theorem Forest.prev_track (hF : Forest g T) {v s : Nat} (h : g.prev v = some s) :
    g.trk s ∈ T ∧ v ∈ (g.nodes (g.trk s)).drop 1 := by
  obtain ⟨x, hx, h2⟩ := hF.entered v s h
  obtain ⟨hT, i, w, h3, h4, h5, h6⟩ := hF.seg x s hx
  rw [h2] at h5
  cases h5
  exact ⟨hT, mem_drop_one.2 ⟨i, h4⟩⟩

/-- a segment leaving a node starts its track there, unless the node is entered by the same track -/
theorem Forest.seg_front (hF : Forest g T) {v s : Nat} (hs : s ∈ g.next v) :
    front g (g.trk s) = some v ∨ v ∈ (g.nodes (g.trk s)).drop 1 := by
  obtain ⟨hT, i, w, h1, h2, _⟩ := hF.seg v s hs
  rcases i with _ | i
  · left
    unfold front
    rw [List.head?_eq_getElem?]
    exact h1
  · right
    exact mem_drop_one.2 ⟨i, h1⟩

theorem Forest.front_seg (hF : Forest g T) {u v : Nat} (hu : u ∈ T) (h : front g u = some v) :
    ∃ s ∈ g.next v, g.trk s = u := by
  obtain ⟨v', w, h1, h2, h3⟩ := hF.front_some hu
  rw [h] at h3
  cases h3
  obtain ⟨s, _, _, _, h4, h5⟩ := hF.nextSeg_step hu h1 h2
  exact ⟨s, h4, h5⟩

theorem Forest.child_ne (hF : Forest g T) {t u : Nat} (h : Child g T t u) : u ≠ t := by
  rintro rfl
  obtain ⟨hu, v, h1, h2⟩ := h
  obtain ⟨v', w, h3, _, h4⟩ := hF.front_some hu
  rw [h1] at h4
  cases h4
  obtain ⟨i, hi⟩ := mem_drop_one.1 h2
  have := hF.inj hu h3 hi
  omega

theorem Forest.mem_kids_true (hF : Forest g T) {t : Nat} (ht : t ∈ T) (u : Nat) :
    u ∈ kids g t true ↔ Child g T t u := by
  simp only [kids, if_true, List.mem_flatMap, List.mem_map, List.mem_filter, ne_eq, decide_eq_true_eq]
  constructor
  · rintro ⟨v, hv, s, ⟨hs, hne⟩, rfl⟩
    refine ⟨(hF.seg v s hs).1, v, ?_, hv⟩
    rcases hF.seg_front hs with h | h
    · exact h
    · obtain ⟨s1, h1, h2⟩ := hF.prev_tail ht hv
      obtain ⟨s2, h3, h4⟩ := hF.prev_tail (hF.seg v s hs).1 h
      rw [h1] at h3
      cases h3
      exact absurd (h4.symm.trans h2) hne
  · intro hc
    obtain ⟨hu, v, h1, h2⟩ := id hc
    obtain ⟨s, hs, rfl⟩ := hF.front_seg hu h1
    exact ⟨v, h2, s, ⟨hs, hF.child_ne hc⟩, rfl⟩

/-- for a track that no segment enters: the other tracks that start at one of its nodes -/
theorem Forest.mem_kids_false (hF : Forest g T) {t v0 : Nat} (ht : t ∈ T) (h0 : front g t = some v0)
    (hp : g.prev v0 = none) (u : Nat) :
    u ∈ kids g t false ↔ u ∈ T ∧ u ≠ t ∧ (front g u = some v0 ∨ Child g T t u) := by
  have hk : kids g t false = (((g.next v0).filter fun s => g.trk s ≠ t).map g.trk) ++ kids g t true := by
    unfold front at h0
    obtain ⟨tl, htl⟩ : ∃ tl, g.nodes t = v0 :: tl := by
      cases h : g.nodes t with
      | nil => simp [h] at h0
      | cons a l => simp [h] at h0; exact ⟨l, by rw [h0]⟩
    simp [kids, htl]
  rw [hk, List.mem_append, hF.mem_kids_true ht]
  simp only [List.mem_map, List.mem_filter, ne_eq, decide_eq_true_eq]
  constructor
  · rintro (⟨s, ⟨hs, hne⟩, rfl⟩ | h)
    · refine ⟨(hF.seg v0 s hs).1, hne, Or.inl ?_⟩
      rcases hF.seg_front hs with h | h
      · exact h
      · obtain ⟨s2, h3, h4⟩ := hF.prev_tail (hF.seg v0 s hs).1 h
        rw [hp] at h3
        cases h3
    · exact ⟨h.1, hF.child_ne h, Or.inr h⟩
  · rintro ⟨hu, hne, h | h⟩
    · obtain ⟨s, hs, rfl⟩ := hF.front_seg hu h
      exact Or.inl ⟨s, ⟨hs, hne⟩, rfl⟩
    · exact Or.inr h

theorem Forest.kids_T (hF : Forest g T) {t u : Nat} {skip : Bool} (h : u ∈ kids g t skip) : u ∈ T := by
  simp only [kids, List.mem_flatMap, List.mem_map, List.mem_filter] at h
  obtain ⟨v, _, s, ⟨hs, _⟩, rfl⟩ := h
  exact (hF.seg v s hs).1

theorem Forest.map_trk_nodup (hF : Forest g T) (v t : Nat) :
    (((g.next v).filter fun s => g.trk s ≠ t).map g.trk).Nodup := by
  refine List.Nodup.map_on ?_ ((hF.once v).filter _)
  intro a ha b hb h
  exact hF.seg_unique (List.mem_of_mem_filter ha) (List.mem_of_mem_filter hb) h

theorem Forest.kids_nodup_true (hF : Forest g T) {t : Nat} (ht : t ∈ T) : (kids g t true).Nodup := by
  simp only [kids, if_true]
  rw [List.nodup_flatMap]
  refine ⟨fun v _ => hF.map_trk_nodup v t, ?_⟩
  have hn : ((g.nodes t).drop 1).Nodup := (hF.nodes_nodup ht).sublist (List.drop_sublist _ _)
  rw [List.Nodup] at hn
  refine (List.Pairwise.and_mem.1 hn).imp ?_
  rintro a b ⟨ha, hb, hne⟩
  simp only [Function.onFun]
  rw [List.disjoint_left]
  intro u hua hub
  have h1 : ∀ v ∈ (g.nodes t).drop 1, u ∈ ((g.next v).filter fun s => g.trk s ≠ t).map g.trk →
      front g u = some v := by
    intro v hv hu
    simp only [List.mem_map, List.mem_filter, ne_eq, decide_eq_true_eq] at hu
    obtain ⟨s, ⟨hs, hne⟩, rfl⟩ := hu
    rcases hF.seg_front hs with h | h
    · exact h
    · obtain ⟨s1, h1, h2⟩ := hF.prev_tail ht hv
      obtain ⟨s2, h3, h4⟩ := hF.prev_tail (hF.seg v s hs).1 h
      rw [h1] at h3
      cases h3
      exact absurd (h4.symm.trans h2) hne
  have ha' := h1 a ha hua
  have hb' := h1 b hb hub
  rw [ha'] at hb'
  exact hne (Option.some.inj hb')

theorem Forest.kids_nodup_false (hF : Forest g T) {t v0 : Nat} (ht : t ∈ T) (h0 : front g t = some v0)
    (hp : g.prev v0 = none) : (kids g t false).Nodup := by
  have hk : kids g t false = (((g.next v0).filter fun s => g.trk s ≠ t).map g.trk) ++ kids g t true := by
    unfold front at h0
    obtain ⟨tl, htl⟩ : ∃ tl, g.nodes t = v0 :: tl := by
      cases h : g.nodes t with
      | nil => simp [h] at h0
      | cons a l => simp [h] at h0; exact ⟨l, by rw [h0]⟩
    simp [kids, htl]
  rw [hk, List.nodup_append']
  refine ⟨hF.map_trk_nodup v0 t, hF.kids_nodup_true ht, ?_⟩
  rw [List.disjoint_left]
  intro u h1 h2
  simp only [List.mem_map, List.mem_filter, ne_eq, decide_eq_true_eq] at h1
  obtain ⟨s, ⟨hs, hne⟩, rfl⟩ := h1
  rw [hF.mem_kids_true ht] at h2
  obtain ⟨_, v, h3, h4⟩ := h2
  rcases hF.seg_front hs with h | h
  · rw [h] at h3
    cases h3
    obtain ⟨s1, h5, _⟩ := hF.prev_tail ht h4
    rw [hp] at h5
    cases h5
  · obtain ⟨s1, h5, _⟩ := hF.prev_tail (hF.seg v0 s hs).1 h
    rw [hp] at h5
    cases h5

/-! ### the order of the tracks -/

theorem Forest.parent_unique (hF : Forest g T) {t t' u : Nat} (ht : t ∈ T) (ht' : t' ∈ T) (h : Child g T t u)
    (h' : Child g T t' u) : t = t' := by
  obtain ⟨_, v, h1, h2⟩ := h
  obtain ⟨_, v', h1', h2'⟩ := h'
  rw [h1] at h1'
  cases h1'
  obtain ⟨s, h3, h4⟩ := hF.prev_tail ht h2
  obtain ⟨s', h3', h4'⟩ := hF.prev_tail ht' h2'
  rw [h3] at h3'
  cases h3'
  exact h4.symm.trans h4'

/-- the rank of a track: the rank of its first node -/
theorem Forest.rank (hF : Forest g T) : ∃ R : Nat → Nat, ∀ t ∈ T, ∀ u, Child g T t u → R t < R u := by
  obtain ⟨rank, hr⟩ := hF.acyclic
  refine ⟨fun t => rank ((front g t).getD 0), ?_⟩
  rintro t ht u ⟨hu, v, h1, h2⟩
  obtain ⟨v0, w, h3, _, h4⟩ := hF.front_some ht
  simp only [h4, h1, Option.getD_some]
  obtain ⟨i, hi⟩ := mem_drop_one.1 h2
  exact hF.mono rank hr ht i 0 v0 v h3 (by simpa using hi)

/-- the tracks can be counted down from the ends of the tree -/
theorem Forest.height (hF : Forest g T) : ∃ H : Nat → Nat, ∀ t ∈ T, ∀ u, Child g T t u → H u < H t := by
  obtain ⟨R, hR⟩ := hF.rank
  refine ⟨fun t => (T.map R).sum - R t, ?_⟩
  intro t ht u h
  have h1 := hR t ht u h
  have h2 : R u ≤ (T.map R).sum := List.single_le_sum (by simp) _ (List.mem_map_of_mem h.1)
  show (T.map R).sum - R u < (T.map R).sum - R t
  omega

end Verif.PMAlg.Tree

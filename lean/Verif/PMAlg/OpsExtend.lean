import Verif.PMAlg.OpsProofs
/-! # Operations on track trees: one track extended with another, candidates merged -/
namespace Verif.PMAlg.Tree
open Relation

/-- the tracks of `T` form trees, `fSegments` of each track lists its segments, and the numbers from `fresh` are not
used -/
structure Sound (W : World) (T : List Nat) : Prop where
  forest : Forest W.g T
  old : ∀ v, ∀ s ∈ W.g.next v, s < W.fresh
  segs : ∀ t ∈ T, ∀ s, s ∈ W.segs t ↔ ∃ v, s ∈ W.g.next v ∧ W.g.trk s = t

variable {W : World} {T : List Nat}

theorem Sound.links (h : Sound W T) : Links W T :=
  ⟨h.forest.joined, h.forest.seg, h.forest.entered, h.forest.once, h.old, h.segs⟩

theorem Links.sound (h : Links W T) (h2 : ∀ t ∈ T, 2 ≤ (W.g.nodes t).length) (ha : Acyclic W.g.nodes T) :
    Sound W T := ⟨h.forest h2 ha, h.old, h.segs⟩

/-- nodes of a track outside `T` do not matter -/
theorem Links.outside (h : Links W T) {u : Nat} (hu : u ∉ T) (l : List Nat) : Links (withNodes W u l) T := by
  have e : ∀ x ∈ T, (withNodes W u l).g.nodes x = W.g.nodes x := by
    intro x hx
    show (if x = u then l else W.g.nodes x) = _
    rw [if_neg]
    rintro rfl
    exact hu hx
  refine ⟨?_, ?_, h.entered, h.once, h.old, h.segs⟩
  · intro x hx i v w hv hw
    rw [e x hx] at hv hw
    exact h.joined x hx i v w hv hw
  · intro v s hs
    obtain ⟨hT, i, w, h1, h2, h3⟩ := h.seg v s hs
    refine ⟨hT, i, w, ?_, ?_, h3⟩
    · show ((withNodes W u l).g.nodes (W.g.trk s))[i]? = some v
      rw [e _ hT]; exact h1
    · show ((withNodes W u l).g.nodes (W.g.trk s))[i + 1]? = some w
      rw [e _ hT]; exact h2

theorem pushNodes_eq {t : Nat} (l : List Nat) : ∀ (W : World) (P : List Nat) (a : Nat), W.g.nodes t = P ++ [a] →
    l.foldlM (pushNode t) W = some (withNodes (segsFor W t (a :: l)) t (P ++ [a] ++ l)) := by
  induction l with
  | nil =>
    intro W P a h
    have : withNodes W t (P ++ [a] ++ []) = W := by rw [List.append_nil, ← h]; exact withNodes_self W t
    simp only [List.foldlM_nil, segsFor]
    rw [this]
    rfl
  | cons b l ih =>
    intro W P a h
    have h1 : pushNode t W b = some (newSeg (withNodes W t (P ++ [a] ++ [b])) t a b) := by
      unfold pushNode
      rw [h]
      simp
    rw [List.foldlM_cons, h1]
    show l.foldlM (pushNode t) _ = _
    rw [ih _ (P ++ [a]) b (by rw [newSeg_withNodes]; simp [withNodes])]
    rw [newSeg_withNodes, segsFor_withNodes, withNodes_withNodes]
    simp [segsFor]

/-- two tracks of one tree when `src` has become part of `t` -/
def Joined (g : Graph) (T : List Nat) (t src a b : Nat) : Prop :=
  Conn g T a b ∨ ((Conn g T a t ∨ Conn g T a src) ∧ (Conn g T b t ∨ Conn g T b src))

theorem conn_symm {g : Graph} {T : List Nat} {a b : Nat} (h : Conn g T a b) : Conn g T b a := EqvGen.symm _ _ h
theorem conn_trans {g : Graph} {T : List Nat} {a b c : Nat} (h : Conn g T a b) (h' : Conn g T b c) : Conn g T a c :=
  EqvGen.trans _ _ _ h h'
theorem conn_refl {g : Graph} {T : List Nat} (a : Nat) : Conn g T a a := EqvGen.refl _

theorem joined_conn {g g' : Graph} {T : List Nat} {t src : Nat} (ht : t ∈ T) (hs : src ∈ T) (hne : t ≠ src)
    (hN : ∀ u, u ≠ src → g'.nodes u = if u = t then g.nodes t ++ g.nodes src else g.nodes u) {a b : Nat}
    (ha : a ∈ T) (hb : b ∈ T) (has : a ≠ src) (hbs : b ≠ src) :
    Conn g' (T.filter (· ≠ src)) a b ↔ Joined g T t src a b := by
  have hmem : ∀ u, u ∈ T.filter (· ≠ src) ↔ u ∈ T ∧ u ≠ src := by
    intro u; simp
  constructor
  · intro h
    induction h with
    | rel x y h =>
      obtain ⟨hx, hy, v, hvx, hvy⟩ := h
      obtain ⟨hx, hxs⟩ := (hmem x).1 hx
      obtain ⟨hy, hys⟩ := (hmem y).1 hy
      rw [hN x hxs] at hvx
      rw [hN y hys] at hvy
      have key : ∀ z ∈ T, (v ∈ if z = t then g.nodes t ++ g.nodes src else g.nodes z) →
          ∃ z' ∈ T, v ∈ g.nodes z' ∧ (z' = z ∨ (z = t ∧ z' = src)) := by
        intro z hz hv
        by_cases hzt : z = t
        · rw [if_pos hzt] at hv
          rcases List.mem_append.1 hv with hv | hv
          · exact ⟨t, ht, hv, Or.inl hzt.symm⟩
          · exact ⟨src, hs, hv, Or.inr ⟨hzt, rfl⟩⟩
        · rw [if_neg hzt] at hv
          exact ⟨z, hz, hv, Or.inl rfl⟩
      obtain ⟨x', hx', h1, h2⟩ := key x hx hvx
      obtain ⟨y', hy', h3, h4⟩ := key y hy hvy
      have hc : Conn g T x' y' := EqvGen.rel _ _ ⟨hx', hy', v, h1, h3⟩
      rcases h2 with rfl | ⟨rfl, rfl⟩ <;> rcases h4 with rfl | ⟨rfl, rfl⟩
      · exact Or.inl hc
      · exact Or.inr ⟨Or.inr hc, Or.inl (conn_refl _)⟩
      · exact Or.inr ⟨Or.inl (conn_refl _), Or.inr (conn_symm hc)⟩
      · exact Or.inl (conn_refl _)
    | refl x => exact Or.inl (conn_refl _)
    | symm x y h ih =>
      by_cases hx : x ∈ T ∧ x ≠ src
      · by_cases hy : y ∈ T ∧ y ≠ src
        · rcases ih hx.1 hy.1 hx.2 hy.2 with h | ⟨h1, h2⟩
          · exact Or.inl (conn_symm h)
          · exact Or.inr ⟨h2, h1⟩
        · exact absurd ⟨ha, has⟩ hy
      · exact absurd ⟨hb, hbs⟩ hx
    | trans x y z h1 h2 ih1 ih2 =>
      have hy : x = y ∨ (y ∈ T ∧ y ≠ src) := by
        clear ih1 ih2 h2
        have : ∀ p q, Conn g' (T.filter (· ≠ src)) p q → p = q ∨ (p ∈ T.filter (· ≠ src) ∧ q ∈ T.filter (· ≠ src)) := by
          intro p q h
          induction h with
          | rel p q h => exact Or.inr ⟨h.1, h.2.1⟩
          | refl p => exact Or.inl rfl
          | symm p q _ ih =>
            rcases ih with h | h
            · exact Or.inl h.symm
            · exact Or.inr ⟨h.2, h.1⟩
          | trans p q r _ _ ih1 ih2 =>
            rcases ih1 with rfl | h1
            · exact ih2
            · rcases ih2 with rfl | h2
              · exact Or.inr h1
              · exact Or.inr ⟨h1.1, h2.2⟩
        rcases this x y h1 with h | h
        · exact Or.inl h
        · exact Or.inr ((hmem y).1 h.2)
      rcases hy with rfl | ⟨hy, hys⟩
      · exact ih2 ha hb has hbs
      · have h1 := ih1 ha hy has hys
        have h2 := ih2 hy hb hys hbs
        rcases h1 with h1 | ⟨h1, h1'⟩
        · rcases h2 with h2 | ⟨h2, h2'⟩
          · exact Or.inl (conn_trans h1 h2)
          · refine Or.inr ⟨?_, h2'⟩
            rcases h2 with h2 | h2
            · exact Or.inl (conn_trans h1 h2)
            · exact Or.inr (conn_trans h1 h2)
        · refine Or.inr ⟨h1, ?_⟩
          rcases h2 with h2 | ⟨_, h2'⟩
          · rcases h1' with h | h
            · exact Or.inl (conn_trans (conn_symm h2) h)
            · exact Or.inr (conn_trans (conn_symm h2) h)
          · exact h2'
  · intro h
    let F : Nat → Nat := fun x => if x = src then t else x
    have hFm : ∀ x ∈ T, F x ∈ T.filter (· ≠ src) := by
      intro x hx
      show (if x = src then t else x) ∈ _
      by_cases hxs : x = src
      · rw [if_pos hxs]; exact (hmem t).2 ⟨ht, hne⟩
      · rw [if_neg hxs]; exact (hmem x).2 ⟨hx, hxs⟩
    have hFn : ∀ x v, v ∈ g.nodes x → v ∈ g'.nodes (F x) := by
      intro x v hv
      show v ∈ g'.nodes (if x = src then t else x)
      by_cases hxs : x = src
      · rw [if_pos hxs, hN t hne, if_pos rfl]
        subst hxs
        exact List.mem_append_right _ hv
      · rw [if_neg hxs, hN x hxs]
        by_cases hxt : x = t
        · rw [if_pos hxt]
          subst hxt
          exact List.mem_append_left _ hv
        · rw [if_neg hxt]; exact hv
    have hC : ∀ x y, Conn g T x y → Conn g' (T.filter (· ≠ src)) (F x) (F y) := by
      intro x y h
      induction h with
      | rel x y h =>
        obtain ⟨hx, hy, v, h1, h2⟩ := h
        exact EqvGen.rel _ _ ⟨hFm x hx, hFm y hy, v, hFn x v h1, hFn y v h2⟩
      | refl x => exact EqvGen.refl _
      | symm x y _ ih => exact EqvGen.symm _ _ ih
      | trans x y z _ _ ih1 ih2 => exact EqvGen.trans _ _ _ ih1 ih2
    have ea : F a = a := if_neg has
    have eb : F b = b := if_neg hbs
    have et : F t = t := if_neg hne
    have es : F src = t := if_pos rfl
    have hone : ∀ x, F x = x → (Conn g T x t ∨ Conn g T x src) → Conn g' (T.filter (· ≠ src)) x t := by
      intro x ex h
      rcases h with h | h
      · have := hC x t h; rwa [ex, et] at this
      · have := hC x src h; rwa [ex, es] at this
    rcases h with h | ⟨h1, h2⟩
    · have := hC a b h
      rwa [ea, eb] at this
    · exact EqvGen.trans _ _ _ (hone a ea h1) (EqvGen.symm _ _ (hone b eb h2))

/-- a track grows by the nodes of the first track of another tree -/
theorem extendWith_spec (h : Sound W T) {t src : Nat} (ht : t ∈ T) (hs : src ∈ T) (hr : IsRoot W.g T src)
    (hc : ¬ Conn W.g T t src) :
    ∃ W', extendWith W t src = .ok W' ∧ Sound W' (T.filter (· ≠ src)) ∧
      (∀ u, W'.g.nodes u = if u = src then [] else if u = t then W.g.nodes t ++ W.g.nodes src else W.g.nodes u) ∧
      (∀ u, W'.hits u = if u = t then W.hits t ++ W.hits src else if u = src then [] else W.hits u) := by
  have hne : t ≠ src := by rintro rfl; exact hc (conn_refl _)
  obtain ⟨_, v0, h0, hp0⟩ := id hr
  have h0' : (W.g.nodes src).head? = some v0 := h0
  have hF := h.forest
  obtain ⟨e1, e2, e3, e4, e5, e6, e7, e8⟩ := deleteSegments_eq W src
  obtain ⟨P, a, hPa⟩ : ∃ P a, W.g.nodes t = P ++ [a] := by
    have := hF.two t ht
    rcases List.eq_nil_or_concat (W.g.nodes t) with hn | ⟨P, a, hn⟩
    · rw [hn] at this; simp at this
    · exact ⟨P, a, by rw [hn]; simp⟩
  have hdisj : ∀ x, x ∈ W.g.nodes t → x ∈ W.g.nodes src → False := fun x h1 h2 =>
    hc (EqvGen.rel _ _ ⟨ht, hs, x, h1, h2⟩)
  have hpush := pushNodes_eq (t := t) (W.g.nodes src) (deleteSegments W src) P a (by rw [e1]; exact hPa)
  have hL1 := h.links.delete hs
  have htT : t ∈ T.filter (· ≠ src) := by simp [ht, hne]
  have hL2 := Links.extendAll htT (W.g.nodes src) (deleteSegments W src) P a
    (by rw [← hPa, ← e1, withNodes_self]; exact hL1)
    (by
      rw [← hPa, List.nodup_append']
      exact ⟨hF.nodes_nodup ht, hF.nodes_nodup hs, fun x h1 h2 => hdisj x h1 h2⟩)
    (by
      intro b hb
      refine h.links.delete_prev hs ?_
      rcases Forest.node_cases hb with hb | hb
      · rw [h0] at hb
        cases hb
        exact Or.inr hp0
      · exact Or.inl hb)
  have hL3 := hL2.outside (u := src) (by simp) []
  have hW : ∃ W', extendWith W t src = .ok W' ∧
      W'.g = (withNodes (withNodes (segsFor (deleteSegments W src) t (a :: W.g.nodes src)) t
        (P ++ [a] ++ W.g.nodes src)) src []).g ∧
      W'.segs = (withNodes (withNodes (segsFor (deleteSegments W src) t (a :: W.g.nodes src)) t
        (P ++ [a] ++ W.g.nodes src)) src []).segs ∧
      W'.fresh = (withNodes (withNodes (segsFor (deleteSegments W src) t (a :: W.g.nodes src)) t
        (P ++ [a] ++ W.g.nodes src)) src []).fresh ∧
      (∀ u, W'.hits u = if u = t then W.hits t ++ W.hits src else if u = src then [] else W.hits u) := by
    unfold extendWith
    rw [h0']
    simp only [hp0]
    have hpush' : List.foldlM (pushNode t) (deleteSegments W src) ((deleteSegments W src).g.nodes src) =
        some (withNodes (segsFor (deleteSegments W src) t (a :: W.g.nodes src)) t (P ++ [a] ++ W.g.nodes src)) := by
      rw [e1]; exact hpush
    rw [hpush']
    refine ⟨_, rfl, rfl, rfl, rfl, ?_⟩
    have eh : (segsFor (deleteSegments W src) t (a :: W.g.nodes src)).hits = W.hits := by
      rw [(segsFor_nodes _ _ _).2, e3]
    intro u
    show (if u = t then (segsFor (deleteSegments W src) t (a :: W.g.nodes src)).hits t ++
      (segsFor (deleteSegments W src) t (a :: W.g.nodes src)).hits src else if u = src then [] else
      (segsFor (deleteSegments W src) t (a :: W.g.nodes src)).hits u) = _
    rw [eh]
  obtain ⟨W', hok, hg, hsg, hfr, hh⟩ := hW
  have hnodes : ∀ u, W'.g.nodes u =
      if u = src then [] else if u = t then W.g.nodes t ++ W.g.nodes src else W.g.nodes u := by
    intro u
    rw [hg]
    show (if u = src then [] else if u = t then P ++ [a] ++ W.g.nodes src else
      (segsFor (deleteSegments W src) t (a :: W.g.nodes src)).g.nodes u) = _
    rw [(segsFor_nodes _ _ _).1, e1, hPa]
  have hL4 : Links W' (T.filter (· ≠ src)) := by
    refine ⟨?_, ?_, ?_, ?_, ?_, ?_⟩
    · rw [hg]; exact hL3.joined
    · rw [hg]; exact hL3.seg
    · rw [hg]; exact hL3.entered
    · rw [hg]; exact hL3.once
    · rw [hg, hfr]; exact hL3.old
    · rw [hg, hsg]; exact hL3.segs
  refine ⟨W', hok, ?_, hnodes, hh⟩
  refine hL4.sound ?_ ?_
  · intro u hu
    simp only [List.mem_filter, ne_eq, decide_eq_true_eq] at hu
    rw [hnodes, if_neg hu.2]
    have := hF.two u hu.1
    have := hF.two t ht
    split
    · rw [List.length_append]; omega
    · assumption
  · -- the ranks of the tree of `src` are raised
    classical
    obtain ⟨rank, hrk⟩ := hF.acy
    let tree : Nat → Prop := fun x => ∃ u ∈ T, Conn W.g T src u ∧ x ∈ W.g.nodes u
    refine ⟨fun x => if tree x then rank x + rank a + 1 else rank x, ?_⟩
    have hsame : ∀ u ∈ T, ∀ x y, x ∈ W.g.nodes u → y ∈ W.g.nodes u → tree x → tree y := by
      rintro u hu x y hx hy ⟨u', hu', h1, h2⟩
      exact ⟨u, hu, conn_trans h1 (EqvGen.rel _ _ ⟨hu', hu, x, h2, hx⟩), hy⟩
    have hsrc : ∀ x ∈ W.g.nodes src, tree x := fun x hx => ⟨src, hs, conn_refl _, hx⟩
    have htn : ∀ x ∈ W.g.nodes t, ¬ tree x := by
      rintro x hx ⟨u, hu, h1, h2⟩
      exact hc (conn_symm (conn_trans h1 (EqvGen.rel _ _ ⟨hu, ht, x, h2, hx⟩)))
    have hedge : ∀ u ∈ T, ∀ (i v w : Nat), (W.g.nodes u)[i]? = some v → (W.g.nodes u)[i + 1]? = some w →
        (if tree v then rank v + rank a + 1 else rank v) < (if tree w then rank w + rank a + 1 else rank w) := by
      intro u hu i v w hv hw
      have hlt := hrk u hu i v w hv hw
      by_cases htv : tree v
      · have htw := hsame u hu v w (List.mem_of_getElem? hv) (List.mem_of_getElem? hw) htv
        rw [if_pos htv, if_pos htw]; omega
      · have htw : ¬ tree w := fun hx => htv (hsame u hu w v (List.mem_of_getElem? hw) (List.mem_of_getElem? hv) hx)
        rw [if_neg htv, if_neg htw]; exact hlt
    intro u hu i v w hv hw
    simp only [List.mem_filter, ne_eq, decide_eq_true_eq] at hu
    rw [hnodes, if_neg hu.2] at hv hw
    by_cases hut : u = t
    · rw [if_pos hut] at hv hw
      rcases Nat.lt_trichotomy (i + 1) (W.g.nodes t).length with hi | hi | hi
      · rw [List.getElem?_append_left (by omega)] at hv hw
        exact hedge t ht i v w hv hw
      · rw [List.getElem?_append_left (by omega)] at hv
        rw [List.getElem?_append_right (by omega)] at hw
        have hva : v = a := by
          rw [hPa] at hv
          have : i = P.length := by rw [hPa] at hi; simp at hi; omega
          rw [this] at hv
          simp at hv
          exact hv.symm
        have htv : ¬ tree v := htn v (by rw [hva, hPa]; simp)
        have htw : tree w := hsrc w (List.mem_of_getElem? hw)
        show (if tree v then rank v + rank a + 1 else rank v) < (if tree w then rank w + rank a + 1 else rank w)
        rw [if_neg htv, if_pos htw, hva]
        omega
      · rw [List.getElem?_append_right (by omega)] at hv hw
        have : i + 1 - (W.g.nodes t).length = (i - (W.g.nodes t).length) + 1 := by omega
        rw [this] at hw
        exact hedge src hs _ v w hv hw
    · rw [if_neg hut] at hv hw
      exact hedge u hu.1 i v w hv hw

/-- `setTreeId` of any track gives the identifier to the tracks below it, and otherwise only to tracks of its tree -/
theorem Forest.setTreeId_any {g : Graph} {T : List Nat} (hF : Forest g T) {t : Nat} (ht : t ∈ T) :
    ∃ M : Nat → Prop, (∀ x, Below g T t x → M x) ∧ (∀ x, M x → Conn g T t x) ∧
      ∃ N, ∀ f, N ≤ f → ∀ (id : Int) c, Distinct c → (∀ u, InC c u ↔ u ∈ T) → ∀ j,
        c[j]?.bind Cand.track = some t → setTreeId g id f c j true = some (mark M id c) := by
  obtain ⟨N, hN⟩ := bound (kids g t false) (fun u hu => hF.setTreeId_spec (· ∈ T) u (hF.kids_T hu))
  refine ⟨fun x => (∃ u ∈ kids g t false, u ∈ T ∧ Reach g T (· ∈ T) u x) ∨ x = t, ?_, ?_,
    max (N + 1) (g.nodes t).length, ?_⟩
  · intro x hx
    rcases ReflTransGen.cases_head hx with h | ⟨u, h1, h2⟩
    · exact Or.inr h.symm
    · refine Or.inl ⟨u, ?_, h1.1, (reach_below (fun _ h => h)).2 h2⟩
      have := (hF.mem_kids_true ht u).2 h1
      simp only [kids, if_true, Bool.false_eq_true, if_false, List.mem_flatMap] at this ⊢
      obtain ⟨v, hv, h⟩ := this
      exact ⟨v, List.mem_of_mem_drop hv, h⟩
  · rintro x (⟨u, h1, h2, h3⟩ | rfl)
    · refine conn_trans ?_ (Forest.below_conn h2 ((reach_below (fun _ h => h)).1 h3))
      simp only [kids, Bool.false_eq_true, if_false, List.mem_flatMap, List.mem_map, List.mem_filter] at h1
      obtain ⟨v, hv, s, ⟨hs, _⟩, rfl⟩ := h1
      obtain ⟨_, i, w, h4, _⟩ := hF.seg v s hs
      exact EqvGen.rel _ _ ⟨ht, h2, v, hv, List.mem_of_getElem? h4⟩
    · exact conn_refl _
  · intro f hf id c hd hS j hj
    obtain ⟨f, rfl⟩ : ∃ f', f = f' + 1 := ⟨f - 1, by omega⟩
    simp only [setTreeId, hj, Bool.not_true]
    rw [hF.kidsOf_eq ht false (by omega)]
    simp only
    have hfold := fold_mark (S := (· ∈ T)) (id := id) (P := fun u => Reach g T (· ∈ T) u)
      (F := fun c j => setTreeId g id f c j false) (kids g t false)
      (fun u hu _ c hd hS j hj => hN u hu f (by omega) id c hd hS j hj) c hd hS
    refine Eq.trans (congrArg (fun z => match z with | none => none | some c => some (putId c j id)) hfold) ?_
    simp only
    rw [putId_eq (mark_distinct hd) (by rw [mark_track]; exact hj), mark_mark]

/-- the tree of `src` hangs below `t` after the extension -/
theorem below_of_joined {g g' : Graph} {T : List Nat} {t src : Nat} (hF : Forest g T) (ht : t ∈ T)
    (hr : IsRoot g T src) (hc : ¬ Conn g T t src)
    (hN : ∀ u, g'.nodes u = if u = src then [] else if u = t then g.nodes t ++ g.nodes src else g.nodes u)
    {x : Nat} (hx : x ∈ T) (hxs : x ≠ src) (hcx : Conn g T src x) : Below g' (T.filter (· ≠ src)) t x := by
  have hne : t ≠ src := by rintro rfl; exact hc (conn_refl _)
  have hmem : ∀ u, u ∈ T.filter (· ≠ src) ↔ u ∈ T ∧ u ≠ src := by intro u; simp
  have hN' : ∀ u, u ≠ src → u ≠ t → g'.nodes u = g.nodes u := by
    intro u h1 h2; rw [hN, if_neg h1, if_neg h2]
  have hNt : g'.nodes t = g.nodes t ++ g.nodes src := by rw [hN, if_neg hne, if_pos rfl]
  have hdrop : ∀ v, v ∈ g.nodes src → v ∈ (g'.nodes t).drop 1 := by
    intro v hv
    rw [hNt]
    have := hF.two t ht
    rw [List.drop_append_of_le_length (by omega)]
    exact List.mem_append_right _ hv
  -- the way up from x
  have step : ∀ y ∈ T, (∀ u ∈ T, Child g T u y → u ≠ src → Conn g T src u → Below g' (T.filter (· ≠ src)) t u) →
      y ≠ src → Conn g T src y → Below g' (T.filter (· ≠ src)) t y := by
    intro y hy ih hys hcy
    have hyt : y ≠ t := by rintro rfl; exact hc (conn_symm hcy)
    have hfy : front g' y = front g y := by unfold front; rw [hN' y hys hyt]
    obtain ⟨v, w, _, _, hv⟩ := hF.front_some hy
    obtain ⟨_, v0, h0, hp0⟩ := id hr
    have hchild : (v ∈ g.nodes src) → Below g' (T.filter (· ≠ src)) t y := fun h =>
      ReflTransGen.single ⟨(hmem y).2 ⟨hy, hys⟩, v, by rw [hfy]; exact hv, hdrop v h⟩
    cases hp : g.prev v with
    | none =>
      have := hF.conn_root hcy hr.1 src y hr ⟨hy, v, hv, hp⟩ ReflTransGen.refl ReflTransGen.refl
      rw [hv] at this
      exact hchild (front_mem this)
    | some s =>
      obtain ⟨hu, hd⟩ := hF.prev_track hp
      have hcu : Child g T (g.trk s) y := ⟨hy, v, hv, hd⟩
      by_cases hus : g.trk s = src
      · exact hchild (by rw [← hus]; exact List.mem_of_mem_drop hd)
      · have hcu' : Conn g T src (g.trk s) := conn_trans hcy (conn_symm (Forest.child_conn hu hcu))
        have hut : g.trk s ≠ t := by intro h; rw [h] at hcu'; exact hc (conn_symm hcu')
        refine ReflTransGen.tail (ih _ hu hcu hus hcu') ⟨(hmem y).2 ⟨hy, hys⟩, v, by rw [hfy]; exact hv, ?_⟩
        rw [hN' _ hus hut]
        exact hd
  have : ∀ y ∈ T, y ≠ src → Conn g T src y → Below g' (T.filter (· ≠ src)) t y := by
    refine hF.upward ?_
    intro y hy ih
    exact step y hy ih
  exact this x hx hxs hcx

end Verif.PMAlg.Tree

import Verif.PMAlg.OpsMerge
/-! # Operations on track trees: segments rebuilt, tracks flipped -/
namespace Verif.PMAlg.Tree
open Relation

variable {W : World} {T : List Nat}

/-- one step along a track of `T` -/
def Step (g : Graph) (T : List Nat) (v w : Nat) : Prop :=
  ∃ u ∈ T, ∃ i : Nat, (g.nodes u)[i]? = some v ∧ (g.nodes u)[i + 1]? = some w

abbrev Hang (g : Graph) (T : List Nat) : Nat → Nat → Prop := ReflTransGen (Step g T)

theorem Forest.step_prev {g : Graph} (hF : Forest g T) {v w : Nat} (h : Step g T v w) : g.prev w ≠ none := by
  obtain ⟨u, hu, i, hv, hw⟩ := h
  obtain ⟨s, _, _, _, h4⟩ := hF.joined u hu i v w hv hw
  rw [h4]
  simp

theorem Forest.step_unique {g : Graph} (hF : Forest g T) {v v' w : Nat} (h : Step g T v w) (h' : Step g T v' w) :
    v = v' := by
  obtain ⟨u, hu, i, hv, hw⟩ := h
  obtain ⟨u', hu', i', hv', hw'⟩ := h'
  obtain ⟨s, h1, h2, _, h4⟩ := hF.joined u hu i v w hv hw
  obtain ⟨s', h1', h2', _, h4'⟩ := hF.joined u' hu' i' v' w hv' hw'
  rw [h4] at h4'
  cases h4'
  rw [h2] at h2'
  subst h2'
  have := hF.inj hu hw hw'
  have hi : i = i' := by omega
  subst hi
  rw [hv] at hv'
  cases hv'
  rfl

theorem Forest.hang_line {g : Graph} (hF : Forest g T) {a b x : Nat} (h1 : Hang g T a x) (h2 : Hang g T b x) :
    Hang g T a b ∨ Hang g T b a := by
  induction h1 with
  | refl => exact Or.inr h2
  | @tail y z h3 h4 ih =>
    rcases ReflTransGen.cases_tail h2 with rfl | ⟨y', h5, h6⟩
    · exact Or.inl (ReflTransGen.tail h3 h4)
    · have := hF.step_unique h4 h6
      subst this
      exact ih h5

theorem Forest.hang_top {g : Graph} (hF : Forest g T) {a b : Nat} (h : Hang g T a b) (hp : g.prev b = none) : a = b := by
  rcases ReflTransGen.cases_tail h with rfl | ⟨y, _, h2⟩
  · rfl
  · exact absurd hp (hF.step_prev h2)

/-- a track added on top of a forest: every node of it but the first is not entered, and the first is not behind any
of the others -/
theorem Forest.rank_add {g : Graph} (hF : Forest g T) {a : Nat} {l : List Nat} (hnd : (a :: l).Nodup)
    (hp : ∀ b ∈ l, g.prev b = none) (hh : ∀ b ∈ l, ¬ Hang g T b a) :
    ∃ rank : Nat → Nat, (∀ v w, Step g T v w → rank v < rank w) ∧
      ∀ (i v w : Nat), (a :: l)[i]? = some v → (a :: l)[i + 1]? = some w → rank v < rank w := by
  classical
  obtain ⟨rank, hr⟩ := hF.acy
  let A : Nat → Nat := fun x => if h : ∃ b ∈ l, Hang g T b x then l.idxOf (Classical.choose h) + 1 else 0
  have hA : ∀ x b, b ∈ l → Hang g T b x → A x = l.idxOf b + 1 := by
    intro x b hb hx
    have h : ∃ b ∈ l, Hang g T b x := ⟨b, hb, hx⟩
    show (if h : ∃ b ∈ l, Hang g T b x then l.idxOf (Classical.choose h) + 1 else 0) = _
    rw [dif_pos h]
    obtain ⟨h1, h2⟩ := Classical.choose_spec h
    rcases hF.hang_line h2 hx with h3 | h3
    · rw [hF.hang_top h3 (hp b hb)]
    · rw [hF.hang_top h3 (hp _ h1)]
  have hA0 : ∀ x, (¬ ∃ b ∈ l, Hang g T b x) → A x = 0 := by
    intro x h
    show (if h : ∃ b ∈ l, Hang g T b x then l.idxOf (Classical.choose h) + 1 else 0) = _
    rw [dif_neg h]
  let B := ((a :: l).map rank).sum + 1
  have hB : ∀ x ∈ a :: l, rank x < B := by
    intro x hx
    have : rank x ≤ ((a :: l).map rank).sum := List.single_le_sum (by simp) _ (List.mem_map_of_mem hx)
    show rank x < ((a :: l).map rank).sum + 1
    omega
  clear_value B
  refine ⟨fun x => rank x + B * A x, ?_, ?_⟩
  · intro v w hs
    have hlt : rank v < rank w := by
      obtain ⟨u, hu, i, hv, hw⟩ := hs
      exact hr u hu i v w hv hw
    have : A v = A w := by
      by_cases h : ∃ b ∈ l, Hang g T b v
      · obtain ⟨b, hb, hv⟩ := h
        rw [hA v b hb hv, hA w b hb (ReflTransGen.tail hv hs)]
      · rw [hA0 v h, hA0 w]
        rintro ⟨b, hb, hw⟩
        rcases ReflTransGen.cases_tail hw with rfl | ⟨y, h1, h2⟩
        · exact hF.step_prev hs (hp _ hb)
        · rw [hF.step_unique h2 hs] at h1
          exact h ⟨b, hb, h1⟩
    show rank v + B * A v < rank w + B * A w
    rw [this]
    omega
  · have hpos : ∀ (j x : Nat), (a :: l)[j]? = some x → A x = j := by
      intro j x hx
      cases j with
      | zero =>
        simp at hx
        subst hx
        exact hA0 _ (fun ⟨b, hb, h⟩ => hh b hb h)
      | succ j =>
        simp only [List.getElem?_cons_succ] at hx
        obtain ⟨hj, rfl⟩ := List.getElem?_eq_some_iff.1 hx
        rw [hA _ _ (List.getElem_mem hj) ReflTransGen.refl]
        rw [(List.nodup_cons.1 hnd).2.idxOf_getElem]
    intro i v w hv hw
    show rank v + B * A v < rank w + B * A w
    rw [hpos i v hv, hpos _ w hw]
    have := hB v (List.mem_of_getElem? hv)
    rw [Nat.mul_add]
    omega

theorem Sound.delete (h : Sound W T) {t : Nat} (ht : t ∈ T) : Sound (deleteSegments W t) (T.filter (· ≠ t)) := by
  have e := (deleteSegments_eq W t).1
  refine (h.links.delete ht).sound ?_ ?_
  · intro u hu
    rw [e]
    exact h.forest.two u (List.mem_of_mem_filter hu)
  · obtain ⟨rank, hr⟩ := h.forest.acy
    refine ⟨rank, fun u hu => ?_⟩
    rw [e]
    exact hr u (List.mem_of_mem_filter hu)

/-- rebuilding a track -/
theorem Sound.rebuild (h : Sound W T) {t : Nat} (ht : t ∈ T) {a : Nat} {l : List Nat} (hnd : (a :: l).Nodup)
    (hl : l ≠ []) (hp : ∀ b ∈ l, (deleteSegments W t).g.prev b = none)
    (hh : ∀ b ∈ l, ¬ Hang (deleteSegments W t).g (T.filter (· ≠ t)) b a) :
    Sound (Tree.rebuild (withNodes W t (a :: l)) t) T ∧
      (∀ u, (Tree.rebuild (withNodes W t (a :: l)) t).g.nodes u = if u = t then a :: l else W.g.nodes u) ∧
      (Tree.rebuild (withNodes W t (a :: l)) t).hits = W.hits := by
  obtain ⟨h1, h2, h3⟩ := h.links.rebuild ht hnd hp
  refine ⟨h1.sound ?_ ?_, h2, h3⟩
  · intro u hu
    rw [h2]
    split
    · cases l with
      | nil => exact absurd rfl hl
      | cons => simp
    · exact h.forest.two u hu
  · obtain ⟨rank, hr1, hr2⟩ := (h.delete ht).forest.rank_add hnd hp hh
    refine ⟨rank, fun u hu i v w hv hw => ?_⟩
    rw [h2] at hv hw
    by_cases hut : u = t
    · rw [if_pos hut] at hv hw
      exact hr2 i v w hv hw
    · rw [if_neg hut] at hv hw
      refine hr1 v w ⟨u, by simp [hu, hut], i, ?_, ?_⟩ <;> rw [(deleteSegments_eq W t).1] <;> assumption

theorem Forest.isRoot_iff {g : Graph} (hF : Forest g T) {r : Nat} :
    IsRoot g T r ↔ r ∈ T ∧ ∃ v, front g r = some v ∧ ∀ u ∈ T, v ∉ (g.nodes u).drop 1 := by
  constructor
  · rintro ⟨hr, v, h1, h2⟩
    refine ⟨hr, v, h1, fun u hu hv => ?_⟩
    obtain ⟨s, h3, _⟩ := hF.prev_tail hu hv
    rw [h2] at h3
    cases h3
  · rintro ⟨hr, v, h1, h2⟩
    refine ⟨hr, v, h1, ?_⟩
    cases hp : g.prev v with
    | none => rfl
    | some s =>
      obtain ⟨h3, h4⟩ := hF.prev_track hp
      exact absurd h4 (h2 _ h3)

theorem Forest.tail_unique {g : Graph} (hF : Forest g T) {t u v : Nat} (ht : t ∈ T) (hu : u ∈ T)
    (h1 : v ∈ (g.nodes t).drop 1) (h2 : v ∈ (g.nodes u).drop 1) : t = u := by
  obtain ⟨s, h3, h4⟩ := hF.prev_tail ht h1
  obtain ⟨s', h5, h6⟩ := hF.prev_tail hu h2
  rw [h3] at h5
  cases h5
  rw [← h4, h6]

theorem segsFor_prev (t : Nat) (L : List Nat) : ∀ (W : World) (x : Nat), x ∉ L →
    (segsFor W t L).g.prev x = W.g.prev x := by
  induction L with
  | nil => intro W x _; rfl
  | cons a L ih =>
    intro W x hx
    cases L with
    | nil => rfl
    | cons b L =>
      simp only [segsFor]
      rw [ih (newSeg W t a b) x (fun h => hx (List.mem_cons_of_mem _ h))]
      show (if x = b then some W.fresh else W.g.prev x) = _
      rw [if_neg]
      rintro rfl
      exact hx (by simp)

/-- nodes of neither list are entered as before -/
theorem Sound.rebuild_prev (h : Sound W T) {t : Nat} (ht : t ∈ T) {L : List Nat} {x : Nat} (hx : x ∉ L)
    (hx' : x ∉ W.g.nodes t) : (Tree.rebuild (withNodes W t L) t).g.prev x = W.g.prev x := by
  have e1 : Tree.rebuild (withNodes W t L) t = withNodes (segsFor (deleteSegments W t) t L) t L := by
    simp only [Tree.rebuild]
    rw [deleteSegments_withNodes]
    have : (withNodes (deleteSegments W t) t L).g.nodes t = L := by simp [withNodes]
    rw [this, segsFor_withNodes]
  rw [e1]
  show (segsFor (deleteSegments W t) t L).g.prev x = _
  rw [segsFor_prev t L _ x hx]
  obtain ⟨_, _, _, _, _, _, h7, _⟩ := deleteSegments_eq W t
  cases hp : W.g.prev x with
  | none =>
    cases hq : (deleteSegments W t).g.prev x with
    | none => rfl
    | some s =>
      have := ((h7 x s).1 hq).1
      rw [hp] at this
      cases this
  | some s =>
    refine (h7 x s).2 ⟨hp, fun hs => hx' ?_⟩
    obtain ⟨v, _, h2⟩ := (h.segs t ht s).1 hs
    obtain ⟨_, hd⟩ := h.forest.prev_track hp
    rw [h2] at hd
    exact List.mem_of_mem_drop hd

/-- the first track of a tree reversed -/
theorem Sound.flipRoot (h : Sound W T) {t : Nat} (hr : IsRoot W.g T t) :
    Sound (Tree.rebuild (withNodes W t (W.g.nodes t).reverse) t) T ∧
      (∀ u, (Tree.rebuild (withNodes W t (W.g.nodes t).reverse) t).g.nodes u =
        if u = t then (W.g.nodes t).reverse else W.g.nodes u) ∧
      (Tree.rebuild (withNodes W t (W.g.nodes t).reverse) t).hits = W.hits ∧
      IsRoot (Tree.rebuild (withNodes W t (W.g.nodes t).reverse) t).g T t ∧
      ∀ x, x ∉ W.g.nodes t → (Tree.rebuild (withNodes W t (W.g.nodes t).reverse) t).g.prev x = W.g.prev x := by
  have hframe : ∀ x, x ∉ W.g.nodes t →
      (Tree.rebuild (withNodes W t (W.g.nodes t).reverse) t).g.prev x = W.g.prev x := fun x hx =>
    h.rebuild_prev hr.1 (fun h' => hx (List.mem_reverse.1 h')) hx
  refine (fun h' => ⟨h'.1, h'.2.1, h'.2.2.1, h'.2.2.2, hframe⟩ : (_ ∧ _ ∧ _ ∧ _) → _) ?_
  have hF := h.forest
  obtain ⟨ht, v0, h0, hp0⟩ := id hr
  have h2 := hF.two t ht
  have hnd := hF.nodes_nodup ht
  have hall : ∀ b ∈ W.g.nodes t, (deleteSegments W t).g.prev b = none := by
    intro b hb
    refine h.links.delete_prev ht ?_
    rcases Forest.node_cases hb with hb | hb
    · rw [h0] at hb; cases hb; exact Or.inr hp0
    · exact Or.inl hb
  have hrev : ∀ x, x ∈ (W.g.nodes t).reverse → x ∈ W.g.nodes t := fun x hx => List.mem_reverse.1 hx
  have hnd' : (W.g.nodes t).reverse.Nodup := List.nodup_reverse.2 hnd
  have hlen : (W.g.nodes t).reverse.length = (W.g.nodes t).length := List.length_reverse
  have hhead : (W.g.nodes t).reverse.head? = (W.g.nodes t).getLast? := List.head?_reverse
  have hFW := h.forest
  generalize hR : (W.g.nodes t).reverse = R at hrev hnd' hlen hhead
  obtain ⟨a, l, rfl⟩ : ∃ a l, R = a :: l := by
    cases R with
    | nil => simp at hlen; omega
    | cons a l => exact ⟨a, l, rfl⟩
  have hl : l ≠ [] := by
    rintro rfl
    simp at hlen
    omega
  have hF1 := (h.delete ht).forest
  obtain ⟨hS, hN, hH⟩ := h.rebuild ht hnd' hl (fun b hb => hall b (hrev b (List.mem_cons_of_mem _ hb)))
    (by
      intro b hb hab
      have := hF1.hang_top hab (hall a (hrev a (List.mem_cons_self ..)))
      subst this
      exact (List.nodup_cons.1 hnd').1 hb)
  refine ⟨hS, hN, hH, ?_⟩
  rw [hS.forest.isRoot_iff]
  refine ⟨ht, a, ?_, ?_⟩
  · unfold front
    rw [hN, if_pos rfl]
    rfl
  · intro u hu hau
    rw [hN] at hau
    by_cases hut : u = t
    · rw [if_pos hut] at hau
      exact (List.nodup_cons.1 hnd').1 (by simpa using hau)
    · rw [if_neg hut] at hau
      have hat : a ∈ (W.g.nodes t).drop 1 := by
        have hlast : (W.g.nodes t).getLast? = some a := by rw [← hhead]; rfl
        rw [List.getLast?_eq_getElem?] at hlast
        rw [mem_drop_one]
        exact ⟨(W.g.nodes t).length - 2, by
          have : (W.g.nodes t).length - 2 + 1 = (W.g.nodes t).length - 1 := by omega
          rw [this]; exact hlast⟩
      exact hut (hFW.tail_unique hu ht hau hat)

/-- the last node -/
def back (g : Graph) (t : Nat) : Option Nat := (g.nodes t).getLast?

/-- every track on the way from `t` to the first track of the tree starts at the last node of its parent -/
def Chain (g : Graph) (T : List Nat) (t : Nat) : Prop :=
  ∀ u p, u ∈ T → p ∈ T → Below g T u t → Child g T p u → front g u = back g p

theorem Forest.nextSeg_none {g : Graph} (hF : Forest g T) {p n : Nat} (hp : p ∈ T) (hn : n ∈ g.nodes p) :
    nextSeg g p n = none ↔ back g p = some n := by
  obtain ⟨i, hi⟩ := List.mem_iff_getElem?.1 hn
  have hlt : i < (g.nodes p).length := (List.getElem?_eq_some_iff.1 hi).1
  have hb : back g p = some n ↔ i + 1 = (g.nodes p).length := by
    unfold back
    rw [List.getLast?_eq_getElem?]
    constructor
    · intro h
      have := hF.inj hp h hi
      omega
    · intro h
      have : (g.nodes p).length - 1 = i := by omega
      rw [this]; exact hi
  rw [hb]
  cases hw : (g.nodes p)[i + 1]? with
  | none =>
    rw [hF.nextSeg_last hp hi hw]
    rw [List.getElem?_eq_none_iff] at hw
    constructor
    · intro _; omega
    · intro _; rfl
  | some w =>
    obtain ⟨s, hs, _⟩ := hF.nextSeg_step hp hi hw
    rw [hs]
    have := (List.getElem?_eq_some_iff.1 hw).1
    constructor
    · intro h; cases h
    · intro h; omega

theorem Forest.below_up {g : Graph} (hF : Forest g T) {p t u : Nat} (hp : p ∈ T) (hc : Child g T p t) (hu : u ∈ T) :
    Below g T u t ↔ u = t ∨ Below g T u p := by
  constructor
  · intro h
    rcases ReflTransGen.cases_tail h with h | ⟨q, h1, h2⟩
    · exact Or.inl h.symm
    · have := hF.parent_unique (Forest.below_T hu h1) hp h2 hc
      subst this
      exact Or.inr h1
  · rintro (rfl | h)
    · exact ReflTransGen.refl
    · exact ReflTransGen.tail h hc

/-- **C115.** The test whether a track can be flipped ends, and is true exactly when the track and every track on the
way to the first track of its tree start at the last node of their parents. -/
theorem C115_canFlip {g : Graph} (hF : Forest g T) : ∀ t ∈ T,
    ∃ N b, (∀ f, N ≤ f → canFlip g f t = some b) ∧ (b = true ↔ Chain g T t) := by
  refine hF.upward ?_
  intro t ht ih
  obtain ⟨v, w, _, _, h0⟩ := hF.front_some ht
  have h0' : (g.nodes t).head? = some v := h0
  cases hp : g.prev v with
  | none =>
    refine ⟨1, true, ?_, ?_⟩
    · intro f hf
      obtain ⟨f, rfl⟩ : ∃ f', f = f' + 1 := ⟨f - 1, by omega⟩
      simp only [canFlip, h0', hp]
    · simp only [true_iff]
      intro u p hu hpT hb hc
      have hur := hF.below_root hu ⟨ht, v, h0, hp⟩ hb
      subst hur
      exact absurd hc (hF.root_no_parent hpT ⟨ht, v, h0, hp⟩)
  | some s =>
    obtain ⟨hpT, hd⟩ := hF.prev_track hp
    have hc : Child g T (g.trk s) t := ⟨ht, v, h0, hd⟩
    obtain ⟨N, b, h1, h2⟩ := ih _ hpT hc
    by_cases hl : nextSeg g (g.trk s) v = none
    · refine ⟨N + 1, b, ?_, ?_⟩
      · intro f hf
        obtain ⟨f, rfl⟩ : ∃ f', f = f' + 1 := ⟨f - 1, by omega⟩
        simp only [canFlip, h0', hp, hl]
        exact h1 f (by omega)
      · rw [h2]
        constructor
        · intro hch u p hu hpp hb hcu
          rcases (hF.below_up hpT hc hu).1 hb with rfl | hb
          · have := hF.parent_unique hpp hpT hcu hc
            subst this
            rw [h0, ((hF.nextSeg_none hpp (List.mem_of_mem_drop hd)).1 hl)]
          · exact hch u p hu hpp hb hcu
        · intro hch u p hu hpp hb hcu
          exact hch u p hu hpp (ReflTransGen.tail hb hc) hcu
    · refine ⟨1, false, ?_, ?_⟩
      · intro f hf
        obtain ⟨f, rfl⟩ : ∃ f', f = f' + 1 := ⟨f - 1, by omega⟩
        obtain ⟨s', hs'⟩ := Option.ne_none_iff_exists'.1 hl
        simp only [canFlip, h0', hp, hs']
      · simp only [Bool.false_eq_true, false_iff]
        intro hch
        have := hch t _ ht hpT ReflTransGen.refl hc
        rw [h0] at this
        exact hl ((hF.nextSeg_none hpT (List.mem_of_mem_drop hd)).2 this.symm)

/-- **C115.** Flipping a track that can be flipped: the track and all tracks above it are reversed, all others keep
their nodes, hits stay, the tracks form the same trees and the flipped track is the first of its tree. -/
theorem C115_flip_partial (h : Sound W T) : ∀ t ∈ T, Chain W.g T t →
    ∃ W' N, (∀ f, N ≤ f → internalFlip f W t = some W') ∧ Sound W' T ∧
      (∀ u, Below W.g T u t → u ∈ T → W'.g.nodes u = (W.g.nodes u).reverse) ∧
      (∀ u, ¬ (Below W.g T u t ∧ u ∈ T) → W'.g.nodes u = W.g.nodes u) ∧
      W'.hits = W.hits ∧ IsRoot W'.g T t ∧
      ∀ x, (∀ u ∈ T, Below W.g T u t → x ∉ W.g.nodes u) → W'.g.prev x = W.g.prev x := by
  have hF := h.forest
  refine hF.upward ?_
  intro t ht ih hch
  obtain ⟨v, w, _, _, h0⟩ := hF.front_some ht
  have h0' : (W.g.nodes t).head? = some v := h0
  cases hp : W.g.prev v with
  | none =>
    have hr : IsRoot W.g T t := ⟨ht, v, h0, hp⟩
    obtain ⟨h1, h2, h3, h4, h5⟩ := h.flipRoot hr
    refine ⟨_, 1, fun f hf => ?_, h1, ?_, ?_, h3, h4, fun x hx => h5 x (hx t ht ReflTransGen.refl)⟩
    · obtain ⟨f, rfl⟩ : ∃ f', f = f' + 1 := ⟨f - 1, by omega⟩
      simp only [internalFlip, h0', hp]
    · intro u hb hu
      have := hF.below_root hu hr hb
      subst this
      rw [h2, if_pos rfl]
    · intro u hu
      rw [h2, if_neg]
      rintro rfl
      exact hu ⟨ReflTransGen.refl, ht⟩
  | some s =>
    obtain ⟨hpT, hd⟩ := hF.prev_track hp
    have hc : Child W.g T (W.g.trk s) t := ⟨ht, v, h0, hd⟩
    obtain ⟨W1, N, e1, hS1, hn1, hn2, hh1, hr1, hfr1⟩ :=
      ih _ hpT hc (fun u p hu hpp hb hcu => hch u p hu hpp (ReflTransGen.tail hb hc) hcu)
    have hnb : ¬ Below W.g T t (W.g.trk s) := by
      intro hb
      obtain ⟨R, hR⟩ := hF.rank
      have hle : ∀ x y, x ∈ T → Below W.g T x y → R x ≤ R y := by
        intro x y hx hxy
        induction hxy with
        | refl => exact le_refl _
        | @tail y z h1 h2 ih => exact le_trans ih (le_of_lt (hR y (Forest.below_T hx h1) z h2))
      have := hle _ _ ht hb
      have := hR _ hpT t hc
      omega
    have ht1 : W1.g.nodes t = W.g.nodes t := hn2 t (fun h => hnb h.1)
    have hrt : IsRoot W1.g T t := by
      rw [hS1.forest.isRoot_iff] at hr1 ⊢
      obtain ⟨_, v', h1, h2⟩ := hr1
      refine ⟨ht, v', ?_, h2⟩
      have e := hch t _ ht hpT ReflTransGen.refl hc
      have e' : front W1.g (W.g.trk s) = back W.g (W.g.trk s) := by
        unfold front back
        rw [hn1 _ ReflTransGen.refl hpT]
        exact List.head?_reverse
      rw [← h1, e', ← e]
      unfold front
      rw [ht1]
    obtain ⟨h1, h2, h3, h4, h5⟩ := hS1.flipRoot hrt
    refine ⟨_, N + 1, fun f hf => ?_, h1, ?_, ?_, h3.trans hh1, h4, fun x hx => ?_⟩
    · obtain ⟨f, rfl⟩ : ∃ f', f = f' + 1 := ⟨f - 1, by omega⟩
      simp only [internalFlip, h0', hp, e1 f (by omega)]
    · intro u hb hu
      rw [h2]
      by_cases hut : u = t
      · rw [if_pos hut, ht1, hut]
      · rw [if_neg hut]
        rcases (hF.below_up hpT hc hu).1 hb with h' | h'
        · exact absurd h' hut
        · exact hn1 u h' hu
    · intro u hu
      have hut : u ≠ t := by rintro rfl; exact hu ⟨ReflTransGen.refl, ht⟩
      rw [h2, if_neg hut]
      exact hn2 u (fun ⟨hb, hT⟩ => hu ⟨ReflTransGen.tail hb hc, hT⟩)
    · rw [h5 x (by rw [ht1]; exact hx t ht ReflTransGen.refl)]
      exact hfr1 x (fun u hu hb => hx u hu (ReflTransGen.tail hb hc))

theorem conn_of_mem {g g' : Graph} {T : List Nat} (h : ∀ u ∈ T, ∀ v, v ∈ g'.nodes u ↔ v ∈ g.nodes u) (a b : Nat) :
    Conn g' T a b ↔ Conn g T a b := by
  have key : ∀ g g' : Graph, (∀ u ∈ T, ∀ v, v ∈ g'.nodes u ↔ v ∈ g.nodes u) → Conn g' T a b → Conn g T a b := by
    intro g g' h hc
    induction hc with
    | rel x y h' =>
      obtain ⟨hx, hy, v, h1, h2⟩ := h'
      exact EqvGen.rel _ _ ⟨hx, hy, v, (h x hx v).1 h1, (h y hy v).1 h2⟩
    | refl x => exact EqvGen.refl _
    | symm x y _ ih => exact EqvGen.symm _ _ ih
    | trans x y z _ _ ih1 ih2 => exact EqvGen.trans _ _ _ ih1 ih2
  exact ⟨key g g' h, key g' g (fun u hu v => (h u hu v).symm)⟩

/-- **C115.** Flipping does not change which tracks are joined. -/
theorem C115_same_trees (h : Sound W T) {t : Nat} (ht : t ∈ T) (hch : Chain W.g T t) :
    ∃ W' N, (∀ f, N ≤ f → internalFlip f W t = some W') ∧ ∀ a b, Conn W'.g T a b ↔ Conn W.g T a b := by
  obtain ⟨W', N, h1, _, h3, h4, _⟩ := C115_flip_partial h t ht hch
  refine ⟨W', N, h1, fun a b => conn_of_mem (fun u hu v => ?_) a b⟩
  by_cases hb : Below W.g T u t
  · rw [h3 u hb hu, List.mem_reverse]
  · rw [h4 u (fun h => hb h.1)]

end Verif.PMAlg.Tree

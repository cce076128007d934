import Verif.PMAlg.AttachProofs
/-! # Attaching tracks to nodes of other trees -/
namespace Verif.PMAlg.Tree
open Relation

variable {W W' : World} {T : List Nat}

/-! ### a node put before the first node of a track -/

theorem Sound.prepend (h : Sound W T) {t n a : Nat} {l : List Nat} (ht : t ∈ T) (hN : W.g.nodes t = a :: l)
    (hp : W.g.prev a = none) {b : Nat} (hb : b ∈ T) (hn : n ∈ W.g.nodes b) (hc : ¬ Conn W.g T t b) :
    let W1 := newSeg (withNodes W t (n :: W.g.nodes t)) t n a
    Sound { W1 with segs := fun u => if u = t then W.fresh :: W.segs u else W.segs u } T := by
  have hF := h.forest
  have hnt : n ∉ W.g.nodes t := fun hx => hc (EqvGen.rel _ _ ⟨ht, hb, n, hx, hn⟩)
  have hna : n ≠ a := by rintro rfl; exact hnt (by rw [hN]; simp)
  intro W1
  have hnotold : ∀ v, W.fresh ∉ W.g.next v := fun v hv => absurd (h.old v _ hv) (lt_irrefl _)
  have enext : ∀ v, W1.g.next v = if v = n then W.g.next v ++ [W.fresh] else W.g.next v := fun v => rfl
  have eprev : ∀ w, W1.g.prev w = if w = a then some W.fresh else W.g.prev w := fun w => rfl
  have etrk : ∀ s, W1.g.trk s = if s = W.fresh then t else W.g.trk s := fun s => rfl
  have esnext : ∀ s, W1.g.snext s = if s = W.fresh then some a else W.g.snext s := by
    intro s
    show (if s = W.fresh then some a else if W.g.prev a = some s ∧ W.g.snext s = some a then none else W.g.snext s) = _
    rw [if_neg (c := W.g.prev a = some s ∧ W.g.snext s = some a)]
    rintro ⟨h1, _⟩
    rw [hp] at h1
    cases h1
  have enodes : ∀ u, W1.g.nodes u = if u = t then n :: W.g.nodes t else W.g.nodes u := fun u => rfl
  have efresh : W1.fresh = W.fresh + 1 := rfl
  clear_value W1
  have memnext : ∀ v s, s ∈ W1.g.next v ↔ s ∈ W.g.next v ∨ (v = n ∧ s = W.fresh) := by
    intro v s
    rw [enext]
    by_cases hv : v = n
    · rw [if_pos hv]; simp [hv]
    · rw [if_neg hv]; simp [hv]
  have hnoa : ∀ w s, W.g.prev w = some s → w ≠ a := by
    rintro w s hs rfl
    rw [hp] at hs
    cases hs
  refine Links.sound ⟨?_, ?_, ?_, ?_, ?_, ?_⟩ ?_ ?_
  · intro u hu i v w hv hw
    show ∃ s ∈ W1.g.next v, W1.g.trk s = u ∧ W1.g.snext s = some w ∧ W1.g.prev w = some s
    change (W1.g.nodes u)[i]? = some v at hv
    change (W1.g.nodes u)[i + 1]? = some w at hw
    rw [enodes] at hv hw
    have keep : ∀ j : Nat, (W.g.nodes u)[j]? = some v → (W.g.nodes u)[j + 1]? = some w →
        ∃ s ∈ W1.g.next v, W1.g.trk s = u ∧ W1.g.snext s = some w ∧ W1.g.prev w = some s := by
      intro j hv hw
      obtain ⟨s, h1, h2, h3, h4⟩ := hF.joined u hu j v w hv hw
      have hsf : s ≠ W.fresh := by rintro rfl; exact hnotold v h1
      refine ⟨s, (memnext v s).2 (Or.inl h1), ?_, ?_, ?_⟩
      · rw [etrk, if_neg hsf]; exact h2
      · rw [esnext, if_neg hsf]; exact h3
      · rw [eprev, if_neg (hnoa w s h4)]; exact h4
    by_cases hut : u = t
    · rw [if_pos hut] at hv hw
      subst hut
      cases i with
      | zero =>
        simp only [List.getElem?_cons_zero, Option.some.injEq] at hv
        simp only [List.getElem?_cons_succ] at hw
        rw [hN, List.getElem?_cons_zero] at hw
        cases hw
        subst hv
        refine ⟨W.fresh, (memnext _ _).2 (Or.inr ⟨rfl, rfl⟩), ?_, ?_, ?_⟩
        · rw [etrk, if_pos rfl]
        · rw [esnext, if_pos rfl]
        · rw [eprev, if_pos rfl]
      | succ i =>
        simp only [List.getElem?_cons_succ] at hv hw
        exact keep i hv hw
    · rw [if_neg hut] at hv hw
      exact keep i hv hw
  · intro v s hs
    show W1.g.trk s ∈ T ∧ ∃ i w, (W1.g.nodes (W1.g.trk s))[i]? = some v ∧ (W1.g.nodes (W1.g.trk s))[i + 1]? = some w ∧
      W1.g.snext s = some w ∧ W1.g.prev w = some s
    rcases (memnext v s).1 hs with hs | ⟨rfl, rfl⟩
    · have hsf : s ≠ W.fresh := by rintro rfl; exact hnotold v hs
      obtain ⟨hT, i, w, h1, h2, h3, h4⟩ := hF.seg v s hs
      rw [etrk, if_neg hsf]
      refine ⟨hT, if W.g.trk s = t then i + 1 else i, w, ?_, ?_, by rw [esnext, if_neg hsf]; exact h3,
        by rw [eprev, if_neg (hnoa w s h4)]; exact h4⟩
      · rw [enodes]
        by_cases hut : W.g.trk s = t
        · rw [if_pos hut, if_pos hut, List.getElem?_cons_succ, ← hut]; exact h1
        · rw [if_neg hut, if_neg hut]; exact h1
      · rw [enodes]
        by_cases hut : W.g.trk s = t
        · rw [if_pos hut, if_pos hut, List.getElem?_cons_succ, ← hut]; exact h2
        · rw [if_neg hut, if_neg hut]; exact h2
    · rw [etrk, if_pos rfl]
      refine ⟨ht, 0, a, ?_, ?_, by rw [esnext, if_pos rfl], by rw [eprev, if_pos rfl]⟩
      · rw [enodes, if_pos rfl]; rfl
      · rw [enodes, if_pos rfl, hN]; rfl
  · intro w s hw
    change W1.g.prev w = some s at hw
    show ∃ v, s ∈ W1.g.next v ∧ W1.g.snext s = some w
    rw [eprev] at hw
    by_cases hwa : w = a
    · rw [if_pos hwa] at hw
      cases hw
      exact ⟨n, (memnext n _).2 (Or.inr ⟨rfl, rfl⟩), by rw [esnext, if_pos rfl, hwa]⟩
    · rw [if_neg hwa] at hw
      obtain ⟨v, h1, h2⟩ := hF.entered w s hw
      have hsf : s ≠ W.fresh := by rintro rfl; exact hnotold v h1
      exact ⟨v, (memnext v s).2 (Or.inl h1), by rw [esnext, if_neg hsf]; exact h2⟩
  · intro v
    show (W1.g.next v).Nodup
    rw [enext]
    by_cases hv : v = n
    · rw [if_pos hv, List.nodup_append']
      refine ⟨hF.once v, by simp, ?_⟩
      rw [List.disjoint_left]
      intro s hs hs'
      rw [List.mem_singleton] at hs'
      subst hs'
      exact hnotold v hs
    · rw [if_neg hv]; exact hF.once v
  · intro v s hs
    show s < W1.fresh
    rw [efresh]
    rcases (memnext v s).1 hs with hs | ⟨_, rfl⟩
    · have := h.old v s hs; omega
    · omega
  · intro u hu s
    show (s ∈ if u = t then W.fresh :: W.segs u else W.segs u) ↔ ∃ v, s ∈ W1.g.next v ∧ W1.g.trk s = u
    have hold := h.segs u hu s
    have hsfresh : W.fresh ∉ W.segs u := by
      intro hx
      obtain ⟨v, hv, _⟩ := (h.segs u hu _).1 hx
      exact hnotold v hv
    constructor
    · intro hs
      by_cases hsf : s = W.fresh
      · subst hsf
        by_cases hut : u = t
        · exact ⟨n, (memnext n _).2 (Or.inr ⟨rfl, rfl⟩), by rw [etrk, if_pos rfl, hut]⟩
        · rw [if_neg hut] at hs
          exact absurd hs hsfresh
      · have hs' : s ∈ W.segs u := by
          by_cases hut : u = t
          · rw [if_pos hut] at hs
            rcases List.mem_cons.1 hs with hs | hs
            · exact absurd hs hsf
            · exact hs
          · rw [if_neg hut] at hs; exact hs
        obtain ⟨v, hv, he⟩ := hold.1 hs'
        exact ⟨v, (memnext v s).2 (Or.inl hv), by rw [etrk, if_neg hsf]; exact he⟩
    · rintro ⟨v, hv, he⟩
      rcases (memnext v s).1 hv with hv | ⟨_, rfl⟩
      · have hsf : s ≠ W.fresh := by rintro rfl; exact hnotold v hv
        rw [etrk, if_neg hsf] at he
        have := hold.2 ⟨v, hv, he⟩
        by_cases hut : u = t
        · rw [if_pos hut]; exact List.mem_cons_of_mem _ this
        · rw [if_neg hut]; exact this
      · rw [etrk, if_pos rfl] at he
        rw [if_pos he.symm]
        simp
  · intro u hu
    show 2 ≤ (W1.g.nodes u).length
    rw [enodes]
    have := hF.two u hu
    split
    · rename_i hut
      subst hut
      simp only [List.length_cons]; omega
    · exact this
  · classical
    obtain ⟨rank, hr⟩ := hF.acy
    let tree : Nat → Prop := fun x => ∃ u ∈ T, Conn W.g T t u ∧ x ∈ W.g.nodes u
    have hsame : ∀ u ∈ T, ∀ x y, x ∈ W.g.nodes u → y ∈ W.g.nodes u → tree x → tree y := by
      rintro u hu x y hx hy ⟨u', hu', h1, h2⟩
      exact ⟨u, hu, conn_trans h1 (EqvGen.rel _ _ ⟨hu', hu, x, h2, hx⟩), hy⟩
    have hnn : ¬ tree n := by
      rintro ⟨u, hu, h1, h2⟩
      exact hc (conn_trans h1 (EqvGen.rel _ _ ⟨hu, hb, n, h2, hn⟩))
    refine ⟨fun x => if tree x then rank x + rank n + 1 else rank x, ?_⟩
    intro u hu i x y hx hy
    change (W1.g.nodes u)[i]? = some x at hx
    change (W1.g.nodes u)[i + 1]? = some y at hy
    rw [enodes] at hx hy
    have keep : ∀ j : Nat, (W.g.nodes u)[j]? = some x → (W.g.nodes u)[j + 1]? = some y →
        (if tree x then rank x + rank n + 1 else rank x) < (if tree y then rank y + rank n + 1 else rank y) := by
      intro j hx hy
      have hlt := hr u hu j x y hx hy
      have hmx := List.mem_of_getElem? hx
      have hmy := List.mem_of_getElem? hy
      by_cases htx : tree x
      · rw [if_pos htx, if_pos (hsame u hu _ _ hmx hmy htx)]; omega
      · rw [if_neg htx, if_neg (fun h' => htx (hsame u hu _ _ hmy hmx h'))]; exact hlt
    by_cases hut : u = t
    · rw [if_pos hut] at hx hy
      subst hut
      cases i with
      | zero =>
        simp only [List.getElem?_cons_zero, Option.some.injEq] at hx
        simp only [List.getElem?_cons_succ] at hy
        subst hx
        have hty : tree y := ⟨u, ht, conn_refl _, List.mem_of_getElem? hy⟩
        show (if tree n then rank n + rank n + 1 else rank n) < (if tree y then rank y + rank n + 1 else rank y)
        rw [if_neg hnn, if_pos hty]
        omega
      | succ i =>
        simp only [List.getElem?_cons_succ] at hx hy
        exact keep i hx hy
    · rw [if_neg hut] at hx hy
      exact keep i hx hy

theorem prepend_conn {g g' : Graph} {T : List Nat} {t b n : Nat} (ht : t ∈ T) (hb : b ∈ T) (hn : n ∈ g.nodes b)
    (hN : ∀ u, g'.nodes u = if u = t then n :: g.nodes t else g.nodes u) (x y : Nat) :
    Conn g' T x y ↔ Joined g T t b x y := by
  have hsub : ∀ u k, k ∈ g.nodes u → k ∈ g'.nodes u := by
    intro u k hk
    rw [hN]
    split
    · rename_i h; subst h; exact List.mem_cons_of_mem _ hk
    · exact hk
  refine joined_iff ?_ ?_ ?_ x y
  · intro x hx y hy k h1 h2
    have key : ∀ z ∈ T, k ∈ g'.nodes z → k ∈ g.nodes z ∨ (z = t ∧ k = n) := by
      intro z hz hk
      rw [hN] at hk
      by_cases hzt : z = t
      · rw [if_pos hzt] at hk
        rcases List.mem_cons.1 hk with hk | hk
        · exact Or.inr ⟨hzt, hk⟩
        · exact Or.inl (by rw [hzt]; exact hk)
      · rw [if_neg hzt] at hk
        exact Or.inl hk
    have hnb : ∀ z ∈ T, n ∈ g.nodes z → Conn g T z b := fun z hz h => EqvGen.rel _ _ ⟨hz, hb, n, h, hn⟩
    rcases key x hx h1 with h1 | ⟨rfl, rfl⟩ <;> rcases key y hy h2 with h2 | ⟨h3, h4⟩
    · exact Or.inl (EqvGen.rel _ _ ⟨hx, hy, k, h1, h2⟩)
    · subst h3 h4
      exact Or.inr ⟨Or.inr (hnb x hx h1), Or.inl (conn_refl _)⟩
    · exact Or.inr ⟨Or.inl (conn_refl _), Or.inr (hnb y hy h2)⟩
    · subst h3; exact Or.inl (conn_refl _)
  · intro x hx y hy k h1 h2
    exact EqvGen.rel _ _ ⟨hx, hy, k, hsub x k h1, hsub y k h2⟩
  · refine EqvGen.rel _ _ ⟨ht, hb, n, ?_, hsub b n hn⟩
    rw [hN, if_pos rfl]
    exact List.mem_cons_self ..

/-! ### the parts of the functions -/

/-- the test of the trees -/
theorem sameTree_spec {g : Graph} (hF : Forest g T) {t vS : Nat} (ht : t ∈ T) :
    ∃ N r, (∀ f, N ≤ f → sameTree f g t vS = .ok r) ∧
      (r = none ↔ ∀ u ∈ T, vS ∉ g.nodes u) ∧
      (∀ b, r = some b → ∀ u ∈ T, vS ∈ g.nodes u → (b = true ↔ Conn g T t u)) := by
  obtain ⟨N1, r, h1, h2, h3, _⟩ := C112_root hF ht
  cases hs : userOf g vS with
  | none =>
    have hno : ∀ u ∈ T, vS ∉ g.nodes u := by
      intro u hu hv
      cases hp : g.prev vS with
      | some s => simp [userOf, hp] at hs
      | none =>
        simp only [userOf, hp, Option.none_or] at hs
        rcases Forest.node_cases hv with hf | hd
        · obtain ⟨s, h4, _⟩ := hF.front_seg hu hf
          simp only [List.head?_eq_none_iff] at hs
          rw [hs] at h4
          cases h4
        · obtain ⟨s, h4, _⟩ := hF.prev_tail hu hd
          rw [hp] at h4
          cases h4
    refine ⟨N1, none, ?_, ?_, ?_⟩
    · intro f hf
      unfold sameTree
      rw [h1 f hf]
      simp only
      rw [hs]
    · simpa using hno
    · intro b hb; cases hb
  | some s =>
    have hin : g.trk s ∈ T ∧ vS ∈ g.nodes (g.trk s) := by
      cases hp : g.prev vS with
      | some s' =>
        simp only [userOf, hp, Option.some_or] at hs
        cases hs
        obtain ⟨h4, h5⟩ := hF.prev_track hp
        exact ⟨h4, List.mem_of_mem_drop h5⟩
      | none =>
        simp only [userOf, hp, Option.none_or] at hs
        obtain ⟨h4, i, w, h5, _⟩ := hF.seg vS s (List.mem_of_mem_head? hs)
        exact ⟨h4, List.mem_of_getElem? h5⟩
    obtain ⟨N2, r', h4, h5, h6, _⟩ := C112_root hF hin.1
    obtain ⟨hrT, v1, e1, e2⟩ := id h2
    obtain ⟨hrT', v2, e3, e4⟩ := id h5
    obtain ⟨N3, h7⟩ := C112_attached_partial hF hrT' hrT e3 e4 e1 e2
    obtain ⟨b0, _, hb0⟩ := h7 N3 (le_refl _)
    refine ⟨max N1 (max N2 N3), some b0, ?_, ?_, ?_⟩
    · intro f hf
      unfold sameTree
      rw [h1 f (by omega)]
      simp only
      rw [hs]
      simp only
      rw [h4 f (by omega)]
      simp only
      obtain ⟨b1, h8, h9⟩ := h7 f (by omega)
      rw [h8]
      have : b1 = b0 := by
        cases b1 <;> cases b0 <;> simp_all
      rw [this]
    · simp only [reduceCtorEq, false_iff, not_forall]
      exact ⟨_, hin.1, fun h => h hin.2⟩
    · intro b hb u hu hv
      cases hb
      rw [hb0]
      have c1 : Conn g T (g.trk s) u := EqvGen.rel _ _ ⟨hin.1, hu, vS, hin.2, hv⟩
      have c2 := Forest.below_conn hrT h3
      have c3 := Forest.below_conn hrT' h6
      constructor
      · intro h; exact conn_trans (conn_symm c2) (conn_trans (conn_symm h) (conn_trans c3 c1))
      · intro h; exact conn_trans c3 (conn_trans c1 (conn_trans (conn_symm h) (conn_symm c2)))

/-- the same trees with the same nodes -/
structure Like (W W0 : World) (T : List Nat) : Prop where
  sound : Sound W0 T
  hits : W0.hits = W.hits
  mem : ∀ u ∈ T, ∀ x, x ∈ W0.g.nodes u ↔ x ∈ W.g.nodes u

theorem Like.refl (h : Sound W T) : Like W W T := ⟨h, rfl, fun _ _ _ => Iff.rfl⟩

theorem Like.conn (h : Like W W' T) (a b : Nat) : Conn W'.g T a b ↔ Conn W.g T a b := conn_of_mem h.mem a b

theorem Like.trans {W1 : World} (h : Like W W1 T) (h' : Like W1 W' T) : Like W W' T :=
  ⟨h'.sound, h'.hits.trans h.hits, fun u hu x => (h'.mem u hu x).trans (h.mem u hu x)⟩

theorem Forest.not_above {g : Graph} (hF : Forest g T) {p t : Nat} (ht : t ∈ T) (hp : p ∈ T) (hc : Child g T p t) :
    ¬ Below g T t p := by
  intro hb
  obtain ⟨R, hR⟩ := hF.rank
  have hle : ∀ x y, x ∈ T → Below g T x y → R x ≤ R y := by
    intro x y hx hxy
    induction hxy with
    | refl => exact le_refl _
    | @tail y z h1 h2 ih => exact le_trans ih (le_of_lt (hR y (Forest.below_T hx h1) z h2))
  have := hle _ _ ht hb
  have := hR _ hp t hc
  omega

/-- a flip, with what attaching needs to know about it -/
theorem Sound.flipped (h : Sound W T) {q : Nat} (hq : q ∈ T) (hch : Chain W.g T q) :
    ∃ W1 N, (∀ f, N ≤ f → internalFlip f W q = some W1) ∧ Like W W1 T ∧ IsRoot W1.g T q ∧
      front W1.g q = back W.g q ∧
      (∀ u, ¬ Below W.g T u q → W1.g.nodes u = W.g.nodes u) ∧
      (∀ x, (∀ u ∈ T, Conn W.g T u q → x ∉ W.g.nodes u) → W1.g.prev x = W.g.prev x) := by
  obtain ⟨W1, N, h1, h2, h3, h4, h5, h6, h7⟩ := C115_flip_partial h q hq hch
  refine ⟨W1, N, h1, ⟨h2, h5, ?_⟩, h6, ?_, fun u hu => h4 u (fun hx => hu hx.1),
    fun x hx => h7 x (fun u hu hb => hx u hu (Forest.below_conn hu hb))⟩
  · intro u hu x
    by_cases hb : Below W.g T u q
    · rw [h3 u hb hu, List.mem_reverse]
    · rw [h4 u (fun hx => hb hx.1)]
  · unfold front back
    rw [h3 q ReflTransGen.refl hq]
    exact List.head?_reverse

/-- the way to a world in which the front node can be moved -/
theorem freeFront_spec (h : Sound W T) {t vtx vS b : Nat} (ht : t ∈ T) (h0 : front W.g t = some vtx) (hb : b ∈ T)
    (hvS : vS ∈ W.g.nodes b) (hc : ¬ Conn W.g T t b) :
    ∃ N r, (∀ f, N ≤ f → freeFront f W vtx vS = .ok r) ∧ (W.g.prev vtx = none → r ≠ none) ∧
      ∀ W1, r = some W1 → ∃ W0, Like W W0 T ∧ front W0.g t = some vtx ∧
        Glued W0 (moveNexts W1 vtx vS) T vtx vS ∧ (moveNexts W1 vtx vS).g.next vtx = [] ∧
        (moveNexts W1 vtx vS).g.prev vtx = none ∧ (W0.g.prev vtx = none ∨ W0.g.prev vS = none) := by
  have hF := h.forest
  have hvw : vtx ≠ vS := by
    rintro rfl
    exact hc (EqvGen.rel _ _ ⟨ht, hb, vtx, front_mem h0, hvS⟩)
  cases hp : W.g.prev vtx with
  | none =>
    refine ⟨0, some W, fun f _ => by unfold freeFront; rw [hp], by simp, ?_⟩
    intro W1 hW1
    cases hW1
    obtain ⟨h1, h2, h3⟩ := h.glue_free hvw hp
    exact ⟨W, Like.refl h, h0, h1, h2, h3, Or.inl hp⟩
  | some s =>
    obtain ⟨hpT, hd⟩ := hF.prev_track hp
    have hchild : Child W.g T (W.g.trk s) t := ⟨ht, vtx, h0, hd⟩
    cases hn : nextSeg W.g (W.g.trk s) vtx with
    | some s1 =>
      exact ⟨0, none, fun f _ => by unfold freeFront; rw [hp]; simp only; rw [hn], by simp, by simp⟩
    | none =>
      have hback : back W.g (W.g.trk s) = some vtx := (hF.nextSeg_none hpT (List.mem_of_mem_drop hd)).1 hn
      obtain ⟨N1, c, hc1, hc2⟩ := C115_canFlip hF _ hpT
      cases c with
      | true =>
        obtain ⟨W1, N2, h1, h2, h3, h4, h5, _⟩ := h.flipped hpT (hc2.1 rfl)
        refine ⟨max N1 N2, some W1, ?_, by simp, ?_⟩
        · intro f hf
          unfold freeFront
          rw [hp]
          simp only
          rw [hn]
          simp only
          rw [hc1 f (by omega)]
          simp only
          rw [h1 f (by omega)]
        · intro W1' hW1
          cases hW1
          have hpv : W1.g.prev vtx = none := by
            obtain ⟨_, v, e1, e2⟩ := h3
            rw [h4, hback] at e1
            cases e1
            exact e2
          obtain ⟨g1, g2, g3⟩ := h2.sound.glue_free hvw hpv
          refine ⟨W1, h2, ?_, g1, g2, g3, Or.inl hpv⟩
          unfold front
          rw [h5 t (hF.not_above ht hpT hchild)]
          exact h0
      | false =>
        cases hp' : W.g.prev vS with
        | none =>
          refine ⟨N1, some (reconnect W (W.g.trk s) s vS), ?_, by simp, ?_⟩
          · intro f hf
            unfold freeFront
            rw [hp]
            simp only
            rw [hn]
            simp only
            rw [hc1 f hf]
            simp only
            rw [hp']
          · intro W1 hW1
            cases hW1
            obtain ⟨g1, g2, g3⟩ := h.glue_end hvw hp hback hp'
            exact ⟨W, Like.refl h, h0, g1, g2, g3, Or.inr hp'⟩
        | some s' =>
          obtain ⟨hqT, hd'⟩ := hF.prev_track hp'
          cases hn' : nextSeg W.g (W.g.trk s') vS with
          | some s2 =>
            refine ⟨N1, none, ?_, by simp, by simp⟩
            intro f hf
            unfold freeFront
            rw [hp]
            simp only
            rw [hn]
            simp only
            rw [hc1 f hf]
            simp only
            rw [hp']
            simp only
            rw [hn']
          | none =>
            have hback' : back W.g (W.g.trk s') = some vS :=
              (hF.nextSeg_none hqT (List.mem_of_mem_drop hd')).1 hn'
            obtain ⟨N2, c', hc3, hc4⟩ := C115_canFlip hF _ hqT
            have hfree : ∀ f, max N1 N2 ≤ f → freeFront f W vtx vS = (match c' with
                | false => .ok none
                | true =>
                  match internalFlip f W (W.g.trk s') with
                  | none => .undef
                  | some W1 => .ok (some (reconnect W1 (W.g.trk s) s vS))) := by
              intro f hf
              unfold freeFront
              rw [hp]
              simp only
              rw [hn]
              simp only
              rw [hc1 f (by omega)]
              simp only
              rw [hp']
              simp only
              rw [hn']
              simp only
              rw [hc3 f (by omega)]
              cases c' <;> rfl
            cases c' with
            | false => exact ⟨max N1 N2, none, hfree, by simp, by simp⟩
            | true =>
              obtain ⟨W1, N3, h1, h2, h3, h4, h5, h6⟩ := h.flipped hqT (hc4.1 rfl)
              refine ⟨max (max N1 N2) N3, some (reconnect W1 (W.g.trk s) s vS), ?_, by simp, ?_⟩
              · intro f hf
                rw [hfree f (by omega)]
                simp only
                rw [h1 f (by omega)]
              · intro W1' hW1
                cases hW1
                have hqb : Conn W.g T (W.g.trk s') b :=
                  EqvGen.rel _ _ ⟨hqT, hb, vS, List.mem_of_mem_drop hd', hvS⟩
                have hpt : Conn W.g T (W.g.trk s) t := Forest.child_conn hpT hchild
                have hnp : ∀ u, u ∈ T → Conn W.g T u t → ¬ Below W.g T u (W.g.trk s') := by
                  intro u hu hut hbq
                  exact hc (conn_trans (conn_symm hut) (conn_trans (Forest.below_conn hu hbq) hqb))
                have hpv : W1.g.prev vS = none := by
                  obtain ⟨_, v, e1, e2⟩ := h3
                  rw [h4, hback'] at e1
                  cases e1
                  exact e2
                have hpx : W1.g.prev vtx = some s := by
                  rw [h6 vtx, hp]
                  intro u hu huq hx
                  have : Conn W.g T t u := EqvGen.rel _ _ ⟨ht, hu, vtx, front_mem h0, hx⟩
                  exact hc (conn_trans this (conn_trans huq hqb))
                have hnodes : W1.g.nodes (W.g.trk s) = W.g.nodes (W.g.trk s) := h5 _ (hnp _ hpT hpt)
                have htrk : W1.g.trk s = W.g.trk s := by
                  obtain ⟨e1, e2⟩ := h2.sound.forest.prev_track hpx
                  exact h2.sound.forest.tail_unique e1 hpT e2 (by rw [hnodes]; exact hd)
                have hbk : back W1.g (W1.g.trk s) = some vtx := by
                  rw [htrk]
                  unfold back
                  rw [hnodes]
                  exact hback
                obtain ⟨g1, g2, g3⟩ := h2.sound.glue_end hvw hpx hbk hpv
                rw [htrk] at g1 g2 g3
                refine ⟨W1, h2, ?_, g1, g2, g3, Or.inr hpv⟩
                unfold front
                rw [h5 t (hnp t ht (conn_refl _))]
                exact h0

/-- what a successful attachment leaves -/
structure Attached (W W' : World) (T : List Nat) (t b : Nat) : Prop where
  sound : Sound W' T
  hits : W'.hits = W.hits
  conn : ∀ x y, Conn W'.g T x y ↔ Joined W.g T t b x y

theorem joined_like {W0 : World} (h : Like W W0 T) {t b x y : Nat} :
    Joined W0.g T t b x y ↔ Joined W.g T t b x y := by
  unfold Joined
  simp only [h.conn]

theorem attachSame_spec (h : Sound W T) {t vtx vS b : Nat} (ht : t ∈ T) (h0 : front W.g t = some vtx) (hb : b ∈ T)
    (hvS : vS ∈ W.g.nodes b) (hc : ¬ Conn W.g T t b) :
    ∃ N r W', (∀ f, N ≤ f → attachSame f W t vS = .ok (r, W')) ∧ (r = false → W' = W ∧ W.g.prev vtx ≠ none) ∧
      (r = true → Attached W W' T t b ∧ front W'.g t = some vS) := by
  obtain ⟨N, r, h1, h2, h3⟩ := freeFront_spec h ht h0 hb hvS hc
  have h0' : (W.g.nodes t).head? = some vtx := h0
  cases r with
  | none =>
    refine ⟨N, false, W, ?_, fun _ => ⟨rfl, fun hp => h2 hp rfl⟩, by simp⟩
    intro f hf
    unfold attachSame
    rw [h0']
    simp only
    rw [h1 f hf]
  | some W1 =>
    obtain ⟨W0, hL, hf0, hG, hn, hp, hor⟩ := h3 W1 rfl
    refine ⟨N, true, moveNexts W1 vtx vS, ?_, by simp, fun _ => ?_⟩
    · intro f hf
      unfold attachSame
      rw [h0']
      simp only
      rw [h1 f hf]
      simp only
      rw [if_neg]
      rw [hn, hp]
      simp
    · have hv0 := front_mem hf0
      have hw0 := (hL.mem b hb vS).2 hvS
      have hc0 : ¬ Conn W0.g T t b := fun hx => hc ((hL.conn t b).1 hx)
      refine ⟨⟨hL.sound.glue ht hb hv0 hw0 hc0 hor hG, hG.hits.trans hL.hits, fun x y => ?_⟩, ?_⟩
      · rw [hG.conn ht hb hv0 hw0, joined_like hL]
      · unfold front at hf0 ⊢
        rw [hG.nodes t ht, List.head?_map, hf0, Option.map_some, ren_self]

theorem attachOther_spec (h : Sound W T) {t vtx vS b : Nat} (ht : t ∈ T) (h0 : front W.g t = some vtx) (hb : b ∈ T)
    (hvS : vS ∈ W.g.nodes b) (hc : ¬ Conn W.g T t b) :
    ∃ r W', attachOther W t vS = .ok (r, W') ∧ (r = false → W' = W ∧ W.g.prev vtx ≠ none) ∧
      (r = true → Attached W W' T t b ∧ front W'.g t = some vS) := by
  have h0' : (W.g.nodes t).head? = some vtx := h0
  cases hp : W.g.prev vtx with
  | some s =>
    refine ⟨false, W, ?_, fun _ => ⟨rfl, by simp⟩, by simp⟩
    unfold attachOther
    rw [h0']
    simp only
    rw [hp]
  | none =>
    obtain ⟨l, hl⟩ : ∃ l, W.g.nodes t = vtx :: l := by
      cases hx : W.g.nodes t with
      | nil => rw [hx] at h0'; cases h0'
      | cons a l => rw [hx] at h0'; cases h0'; exact ⟨l, rfl⟩
    refine ⟨true, _, ?_, by simp, fun _ => ⟨⟨h.prepend ht hl hp hb hvS hc, rfl, ?_⟩, ?_⟩⟩
    · unfold attachOther
      rw [h0']
      simp only
      rw [hp]
    · exact prepend_conn ht hb hvS (fun u => rfl)
    · unfold front
      show (if t = t then vS :: W.g.nodes t else W.g.nodes t).head? = some vS
      rw [if_pos rfl]
      rfl

theorem flipFirst_spec (h : Sound W T) {t : Nat} (ht : t ∈ T) (tpc : Nat → Nat) (closer : Bool) (vS : Nat)
    (noFlip : Bool) : ∃ N W1, (∀ f, N ≤ f → flipFirst f tpc closer W t vS noFlip = some W1) ∧ Like W W1 T ∧
      (W1 = W ∨ IsRoot W1.g T t) := by
  have h2 := h.forest.two t ht
  obtain ⟨b, hb⟩ : ∃ b, (W.g.nodes t).getLast? = some b := by
    cases hx : (W.g.nodes t).getLast? with
    | none => rw [List.getLast?_eq_none_iff] at hx; rw [hx] at h2; simp at h2
    | some b => exact ⟨b, rfl⟩
  obtain ⟨N1, c, hc1, hc2⟩ := C115_canFlip h.forest t ht
  cases noFlip with
  | true => exact ⟨0, W, fun f _ => by unfold flipFirst; rw [hb]; rfl, Like.refl h, Or.inl rfl⟩
  | false =>
    by_cases hcond : c = true ∧ tpc vS = tpc b ∧ closer = true ∧ W.g.next b = []
    · obtain ⟨W1, N2, h3, h4, h5, _⟩ := h.flipped ht (hc2.1 hcond.1)
      refine ⟨max N1 N2, W1, ?_, h4, Or.inr h5⟩
      intro f hf
      unfold flipFirst
      rw [hb]
      simp only [Bool.false_eq_true, if_false]
      rw [hc1 f (by omega)]
      simp only
      rw [if_pos hcond]
      exact h3 f (by omega)
    · refine ⟨N1, W, ?_, Like.refl h, Or.inl rfl⟩
      intro f hf
      unfold flipFirst
      rw [hb]
      simp only [Bool.false_eq_true, if_false]
      rw [hc1 f hf]
      simp only
      rw [if_neg hcond]

/-- `x` is a track of the tree of `t`, or of the tree with the node `n` -/
def Met (g : Graph) (T : List Nat) (t n x : Nat) : Prop := Conn g T x t ∨ ∃ u ∈ T, n ∈ g.nodes u ∧ Conn g T x u

/-- **C117.** Attaching a track to a node ends without an exception. When it reports failure nothing has changed. When
it reports success the track starts at the node, the tree of the track and the tree of the node have become one tree,
no other tracks were joined or separated, and hits stay. A node of the same tree is refused. -/
theorem C117_attach (h : Sound W T) {t : Nat} (ht : t ∈ T) (tpc : Nat → Nat) (closer : Bool) (vS : Nat)
    (noFlip : Bool) :
    ∃ N r W', (∀ f, N ≤ f → attachTo f tpc closer W t vS noFlip = .ok (r, W')) ∧ Sound W' T ∧ W'.hits = W.hits ∧
      (r = false → W' = W) ∧
      (r = true → front W'.g t = some vS ∧
        ∀ x y, Conn W'.g T x y ↔ Conn W.g T x y ∨ (Met W.g T t vS x ∧ Met W.g T t vS y)) ∧
      (front W.g t ≠ some vS → (∃ u ∈ T, vS ∈ W.g.nodes u ∧ Conn W.g T t u) → r = false) ∧
      ((∀ u ∈ T, vS ∉ W.g.nodes u) → r = false) := by
  have hF := h.forest
  obtain ⟨vtx, _, _, _, h0⟩ := hF.front_some ht
  have h0' : (W.g.nodes t).head? = some vtx := h0
  by_cases hv : vtx = vS
  · refine ⟨0, true, W, ?_, h, rfl, by simp, fun _ => ⟨by rw [h0, hv], ?_⟩, ?_, ?_⟩
    · intro f _
      unfold attachTo
      rw [h0']
      simp only
      rw [if_pos hv]
    · intro x y
      constructor
      · exact Or.inl
      · have hone : ∀ z, Met W.g T t vS z → Conn W.g T z t := by
          rintro z (h1 | ⟨u, hu, h1, h2⟩)
          · exact h1
          · exact conn_trans h2 (EqvGen.rel _ _ ⟨hu, ht, vS, h1, by rw [← hv]; exact front_mem h0⟩)
        rintro (h1 | ⟨h1, h2⟩)
        · exact h1
        · exact conn_trans (hone x h1) (conn_symm (hone y h2))
    · intro h1
      rw [h0, hv] at h1
      exact absurd rfl h1
    · intro h1
      exact absurd (by rw [← hv]; exact front_mem h0) (h1 t ht)
  · obtain ⟨N1, r, h1, h2, h3⟩ := sameTree_spec hF (vS := vS) ht
    have refuse : (∀ f, N1 ≤ f → attachTo f tpc closer W t vS noFlip = .ok (false, W)) →
        ∃ N r W', (∀ f, N ≤ f → attachTo f tpc closer W t vS noFlip = .ok (r, W')) ∧ Sound W' T ∧ W'.hits = W.hits ∧
          (r = false → W' = W) ∧
          (r = true → front W'.g t = some vS ∧
            ∀ x y, Conn W'.g T x y ↔ Conn W.g T x y ∨ (Met W.g T t vS x ∧ Met W.g T t vS y)) ∧
          (front W.g t ≠ some vS → (∃ u ∈ T, vS ∈ W.g.nodes u ∧ Conn W.g T t u) → r = false) ∧
          ((∀ u ∈ T, vS ∉ W.g.nodes u) → r = false) := fun hx =>
      ⟨N1, false, W, hx, h, rfl, fun _ => rfl, by simp, fun _ _ => rfl, fun _ => rfl⟩
    have hunf : ∀ f, N1 ≤ f → attachTo f tpc closer W t vS noFlip = (match r with
        | none => .ok (false, W)
        | some true => .ok (false, W)
        | some false =>
          if vS ∈ W.g.nodes t then .ok (false, W)
          else
            match flipFirst f tpc closer W t vS noFlip with
            | none => .undef
            | some W1 => if tpc vS = tpc vtx then attachSame f W1 t vS else attachOther W1 t vS) := by
      intro f hf
      unfold attachTo
      rw [h0']
      simp only
      rw [if_neg hv, h1 f hf]
      rcases r with _ | _ | _ <;> rfl
    rcases r with _ | _ | _
    · exact refuse hunf
    · -- different trees
      obtain ⟨b, hb, hvS⟩ : ∃ b ∈ T, vS ∈ W.g.nodes b := by
        by_contra hx
        push Not at hx
        have := h2.2 hx
        cases this
      have hiff := h3 false rfl
      have hc : ¬ Conn W.g T t b := fun hx => by
        have := (hiff b hb hvS).2 hx
        cases this
      have hvt : vS ∉ W.g.nodes t := fun hx => by
        have := (hiff t ht hx).2 (conn_refl _)
        cases this
      obtain ⟨N2, W1, h4, h5, h6⟩ := flipFirst_spec h ht tpc closer vS noFlip
      have hF1 := h5.sound.forest
      obtain ⟨vtx1, _, _, _, h01⟩ := hF1.front_some ht
      have hvS1 := (h5.mem b hb vS).2 hvS
      have hc1 : ¬ Conn W1.g T t b := fun hx => hc ((h5.conn t b).1 hx)
      -- both branches
      have hboth : ∃ N r W', (∀ f, N ≤ f →
            (if tpc vS = tpc vtx then attachSame f W1 t vS else attachOther W1 t vS) = .ok (r, W')) ∧
          (r = false → W' = W1 ∧ W1.g.prev vtx1 ≠ none) ∧
          (r = true → Attached W1 W' T t b ∧ front W'.g t = some vS) := by
        by_cases htp : tpc vS = tpc vtx
        · obtain ⟨N, r, W', e1, e2, e3⟩ := attachSame_spec h5.sound ht h01 hb hvS1 hc1
          exact ⟨N, r, W', fun f hf => by rw [if_pos htp]; exact e1 f hf, e2, e3⟩
        · obtain ⟨r, W', e1, e2, e3⟩ := attachOther_spec h5.sound ht h01 hb hvS1 hc1
          exact ⟨0, r, W', fun f _ => by rw [if_neg htp]; exact e1, e2, e3⟩
      obtain ⟨N3, r, W', e1, e2, e3⟩ := hboth
      have hrun : ∀ f, max N1 (max N2 N3) ≤ f → attachTo f tpc closer W t vS noFlip = .ok (r, W') := by
        intro f hf
        rw [hunf f (by omega)]
        simp only
        rw [if_neg hvt, h4 f (by omega)]
        simp only
        exact e1 f (by omega)
      have hsame : front W.g t ≠ some vS → (∃ u ∈ T, vS ∈ W.g.nodes u ∧ Conn W.g T t u) → r = false := by
        rintro _ ⟨u, hu, h7, h8⟩
        have := (hiff u hu h7).2 h8
        cases this
      have hnone : (∀ u ∈ T, vS ∉ W.g.nodes u) → r = false := fun hx => absurd hvS (hx b hb)
      cases r with
      | false =>
        obtain ⟨e4, e5⟩ := e2 rfl
        have hW : W1 = W := by
          rcases h6 with h6 | ⟨_, v, e6, e7⟩
          · exact h6
          · rw [h01] at e6
            cases e6
            exact absurd e7 e5
        refine ⟨_, false, W', hrun, by rw [e4, hW]; exact h, by rw [e4, hW], fun _ => by rw [e4, hW], by simp,
          hsame, hnone⟩
      | true =>
        obtain ⟨e4, e5⟩ := e3 rfl
        refine ⟨_, true, W', hrun, e4.sound, e4.hits.trans h5.hits, by simp, fun _ => ⟨e5, fun x y => ?_⟩, hsame, hnone⟩
        rw [e4.conn, joined_like h5]
        have hm : ∀ z, (Conn W.g T z t ∨ Conn W.g T z b) ↔ Met W.g T t vS z := by
          intro z
          constructor
          · rintro (h7 | h7)
            · exact Or.inl h7
            · exact Or.inr ⟨b, hb, hvS, h7⟩
          · rintro (h7 | ⟨u, hu, h7, h8⟩)
            · exact Or.inl h7
            · exact Or.inr (conn_trans h8 (EqvGen.rel _ _ ⟨hu, hb, vS, h7, hvS⟩))
        unfold Joined
        rw [hm, hm]
    · exact refuse hunf

/-! ### examples -/

/-- the observable part of an attachment -/
def attView (r : Out (Bool × World)) : Option (Bool × List (List Nat) × List (List Nat)) :=
  match r with
  | .ok (b, W) => some (b, (List.range 5).map W.g.nodes, (List.range 5).map W.hits)
  | _ => none

/-- track 4 replaces its first node by node 1 of track 0 -/
example : attView (attachTo 20 (fun _ => 0) false exW 4 1 false) = some
    (true, [[0, 1, 2], [1, 3], [4, 5], [4, 6, 7], [1, 9]], [[0, 1], [10, 11], [20, 21], [30, 31], [40, 41]]) := by
  decide +kernel

/-- track 3 starts where track 2 starts and moves with it -/
example : attView (attachTo 20 (fun _ => 0) false exW 2 1 false) = some
    (true, [[0, 1, 2], [1, 3], [1, 5], [1, 6, 7], [8, 9]], [[0, 1], [10, 11], [20, 21], [30, 31], [40, 41]]) := by
  decide +kernel

/-- the other end is closer: the track is turned first -/
example : attView (attachTo 20 (fun _ => 0) true exW 2 1 false) = some
    (true, [[0, 1, 2], [1, 3], [1, 4], [4, 6, 7], [8, 9]], [[0, 1], [10, 11], [20, 21], [30, 31], [40, 41]]) := by
  decide +kernel

/-- another TPC: the node is put before the first one -/
example : attView (attachTo 20 (fun v => v) false exW 2 1 false) = some
    (true, [[0, 1, 2], [1, 3], [1, 4, 5], [4, 6, 7], [8, 9]], [[0, 1], [10, 11], [20, 21], [30, 31], [40, 41]]) := by
  decide +kernel

/-- the node of the own tree, and one that is nowhere -/
example : (attView (attachTo 20 (fun _ => 0) false exW 1 2 false)).map (·.1) = some false ∧
    (attView (attachTo 20 (fun _ => 0) false exW 1 77 false)).map (·.1) = some false := by
  decide +kernel

example : ∃ N r W', (∀ f, N ≤ f → attachTo f (fun _ => 0) true exW 2 1 false = .ok (r, W')) ∧
    Sound W' [4, 3, 2, 1, 0] := by
  obtain ⟨N, r, W', h1, h2, _⟩ := C117_attach exW_sound (t := 2) (by decide) (fun _ => 0) true 1 false
  exact ⟨N, r, W', h1, h2⟩

end Verif.PMAlg.Tree

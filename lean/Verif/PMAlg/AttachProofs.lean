import Verif.PMAlg.AttachModel
import Verif.PMAlg.OpsEdit
/-! # Attaching tracks: two nodes of different trees become one -/
namespace Verif.PMAlg.Tree
open Relation

variable {W W' : World} {T : List Nat}

/-- `v` becomes `w` -/
def ren (v w x : Nat) : Nat := if x = v then w else x

theorem ren_self (v w : Nat) : ren v w v = w := if_pos rfl
theorem ren_ne {v x : Nat} (w : Nat) (h : x ≠ v) : ren v w x = x := if_neg h

/-- `W'` is `W` with `v` replaced by `w` everywhere -/
structure Glued (W W' : World) (T : List Nat) (v w : Nat) : Prop where
  nodes : ∀ u ∈ T, W'.g.nodes u = (W.g.nodes u).map (ren v w)
  next : ∀ x, W'.g.next x = if x = v then [] else if x = w then W.g.next w ++ W.g.next v else W.g.next x
  prev : ∀ x, W'.g.prev x = if x = v then none else if x = w then (W.g.prev w).or (W.g.prev v) else W.g.prev x
  snext : ∀ x, ∀ s ∈ W.g.next x, W'.g.snext s = (W.g.snext s).map (ren v w)
  trk : W'.g.trk = W.g.trk
  segs : W'.segs = W.segs
  fresh : W'.fresh = W.fresh
  hits : W'.hits = W.hits

/-- two trees joined at two nodes, one of which is not entered -/
theorem Sound.glue (h : Sound W T) {v w a b : Nat} (ha : a ∈ T) (hb : b ∈ T) (hv : v ∈ W.g.nodes a)
    (hw : w ∈ W.g.nodes b) (hc : ¬ Conn W.g T a b) (hp : W.g.prev v = none ∨ W.g.prev w = none)
    (hG : Glued W W' T v w) : Sound W' T := by
  have hF := h.forest
  have hvw : v ≠ w := by
    rintro rfl
    exact hc (EqvGen.rel _ _ ⟨ha, hb, v, hv, hw⟩)
  have hmem : ∀ x s, s ∈ W.g.next x → s ∈ W'.g.next (ren v w x) := by
    intro x s hs
    rw [hG.next]
    by_cases hxv : x = v
    · subst hxv
      rw [ren_self, if_neg (Ne.symm hvw), if_pos rfl]
      exact List.mem_append_right _ hs
    · rw [ren_ne w hxv, if_neg hxv]
      by_cases hxw : x = w
      · rw [if_pos hxw]; subst hxw; exact List.mem_append_left _ hs
      · rw [if_neg hxw]; exact hs
  have hmem' : ∀ x s, s ∈ W'.g.next x → ∃ y, ren v w y = x ∧ s ∈ W.g.next y := by
    intro x s hs
    rw [hG.next] at hs
    by_cases hxv : x = v
    · rw [if_pos hxv] at hs; cases hs
    · rw [if_neg hxv] at hs
      by_cases hxw : x = w
      · rw [if_pos hxw] at hs
        rcases List.mem_append.1 hs with hs | hs
        · exact ⟨w, by rw [ren_ne w (Ne.symm hvw)]; exact hxw.symm, hs⟩
        · exact ⟨v, by rw [ren_self]; exact hxw.symm, hs⟩
      · rw [if_neg hxw] at hs
        exact ⟨x, ren_ne w hxv, hs⟩
  have hprev : ∀ x s, W.g.prev x = some s → W'.g.prev (ren v w x) = some s := by
    intro x s hs
    rw [hG.prev]
    by_cases hxv : x = v
    · subst hxv
      rw [ren_self, if_neg (Ne.symm hvw), if_pos rfl]
      rcases hp with hp | hp
      · rw [hp] at hs; cases hs
      · rw [hp, hs]; rfl
    · rw [ren_ne w hxv, if_neg hxv]
      by_cases hxw : x = w
      · rw [if_pos hxw]; subst hxw; rw [hs]; rfl
      · rw [if_neg hxw]; exact hs
  have hprev' : ∀ x s, W'.g.prev x = some s → ∃ y, ren v w y = x ∧ W.g.prev y = some s := by
    intro x s hs
    rw [hG.prev] at hs
    by_cases hxv : x = v
    · rw [if_pos hxv] at hs; cases hs
    · rw [if_neg hxv] at hs
      by_cases hxw : x = w
      · rw [if_pos hxw] at hs
        cases hpw : W.g.prev w with
        | none =>
          rw [hpw] at hs
          exact ⟨v, by rw [ren_self]; exact hxw.symm, by simpa using hs⟩
        | some s' =>
          rw [hpw] at hs
          exact ⟨w, by rw [ren_ne w (Ne.symm hvw)]; exact hxw.symm, by simpa [hpw] using hs⟩
      · rw [if_neg hxw] at hs
        exact ⟨x, ren_ne w hxv, hs⟩
  refine Links.sound ⟨?_, ?_, ?_, ?_, ?_, ?_⟩ ?_ ?_
  · intro u hu i x y hx hy
    rw [hG.nodes u hu, List.getElem?_map, Option.map_eq_some_iff] at hx hy
    obtain ⟨x0, hx0, rfl⟩ := hx
    obtain ⟨y0, hy0, rfl⟩ := hy
    obtain ⟨s, h1, h2, h3, h4⟩ := hF.joined u hu i x0 y0 hx0 hy0
    refine ⟨s, hmem x0 s h1, by rw [hG.trk]; exact h2, ?_, hprev y0 s h4⟩
    rw [hG.snext x0 s h1, h3]
    rfl
  · intro x s hs
    obtain ⟨y, rfl, hs'⟩ := hmem' x s hs
    clear hs
    rename' hs' => hs
    obtain ⟨hT, i, z, h1, h2, h3, h4⟩ := hF.seg y s hs
    rw [hG.trk]
    refine ⟨hT, i, ren v w z, ?_, ?_, ?_, hprev z s h4⟩
    · rw [hG.nodes _ hT, List.getElem?_map, h1]; rfl
    · rw [hG.nodes _ hT, List.getElem?_map, h2]; rfl
    · rw [hG.snext y s hs, h3]; rfl
  · intro x s hs
    obtain ⟨y, rfl, hs'⟩ := hprev' x s hs
    clear hs
    rename' hs' => hs
    obtain ⟨z, h1, h2⟩ := hF.entered y s hs
    exact ⟨ren v w z, hmem z s h1, by rw [hG.snext z s h1, h2]; rfl⟩
  · intro x
    rw [hG.next]
    split
    · exact List.nodup_nil
    · split
      · rw [List.nodup_append']
        refine ⟨hF.once w, hF.once v, ?_⟩
        rw [List.disjoint_left]
        intro s h1 h2
        obtain ⟨hT, i, z, h3, h4, h5, _⟩ := hF.seg w s h1
        obtain ⟨_, i', z', h3', h4', h5', _⟩ := hF.seg v s h2
        rw [h5] at h5'
        cases h5'
        have := hF.inj hT h4 h4'
        have hi : i = i' := by omega
        subst hi
        rw [h3] at h3'
        cases h3'
        exact hvw rfl
      · exact hF.once x
  · intro x s hs
    obtain ⟨y, _, hs⟩ := hmem' x s hs
    rw [hG.fresh]
    exact h.old y s hs
  · intro u hu s
    rw [hG.segs, h.segs u hu s, hG.trk]
    constructor
    · rintro ⟨x, h1, h2⟩; exact ⟨_, hmem x s h1, h2⟩
    · rintro ⟨x, h1, h2⟩
      obtain ⟨y, _, h1⟩ := hmem' x s h1
      exact ⟨y, h1, h2⟩
  · intro u hu
    rw [hG.nodes u hu, List.length_map]
    exact hF.two u hu
  · classical
    obtain ⟨rank, hr⟩ := hF.acy
    have hnopre : ∀ x, W.g.prev x = none → ∀ u ∈ T, ∀ (i y : Nat), (W.g.nodes u)[i]? = some y →
        (W.g.nodes u)[i + 1]? ≠ some x := by
      intro x hx u hu i y hy hx'
      obtain ⟨s, _, _, _, h4⟩ := hF.joined u hu i y x hy hx'
      rw [hx] at h4
      cases h4
    rcases hp with hp | hp
    · let tree : Nat → Prop := fun x => ∃ u ∈ T, Conn W.g T a u ∧ x ∈ W.g.nodes u
      have hsame : ∀ u ∈ T, ∀ x y, x ∈ W.g.nodes u → y ∈ W.g.nodes u → tree x → tree y := by
        rintro u hu x y hx hy ⟨u', hu', h1, h2⟩
        exact ⟨u, hu, conn_trans h1 (EqvGen.rel _ _ ⟨hu', hu, x, h2, hx⟩), hy⟩
      have hwn : ¬ tree w := by
        rintro ⟨u, hu, h1, h2⟩
        exact hc (conn_trans h1 (EqvGen.rel _ _ ⟨hu, hb, w, h2, hw⟩))
      have hvt : tree v := ⟨a, ha, conn_refl _, hv⟩
      refine ⟨fun x => if tree x then rank x + rank w + 1 else rank x, ?_⟩
      intro u hu i x y hx hy
      rw [hG.nodes u hu, List.getElem?_map, Option.map_eq_some_iff] at hx hy
      obtain ⟨x0, hx0, rfl⟩ := hx
      obtain ⟨y0, hy0, rfl⟩ := hy
      have hlt := hr u hu i x0 y0 hx0 hy0
      have hyv : y0 ≠ v := by
        rintro rfl
        exact hnopre _ hp u hu i x0 hx0 hy0
      have hmx := List.mem_of_getElem? hx0
      have hmy := List.mem_of_getElem? hy0
      show (if tree (ren v w x0) then rank (ren v w x0) + rank w + 1 else rank (ren v w x0)) <
        (if tree (ren v w y0) then rank (ren v w y0) + rank w + 1 else rank (ren v w y0))
      rw [ren_ne w hyv]
      by_cases hxv : x0 = v
      · subst hxv
        rw [ren_self, if_neg hwn, if_pos (hsame u hu _ y0 hmx hmy hvt)]
        omega
      · rw [ren_ne w hxv]
        by_cases htx : tree x0
        · rw [if_pos htx, if_pos (hsame u hu _ _ hmx hmy htx)]; omega
        · rw [if_neg htx, if_neg (fun h' => htx (hsame u hu _ _ hmy hmx h'))]; exact hlt
    · let tree : Nat → Prop := fun x => ∃ u ∈ T, Conn W.g T b u ∧ x ∈ W.g.nodes u
      have hsame : ∀ u ∈ T, ∀ x y, x ∈ W.g.nodes u → y ∈ W.g.nodes u → tree x → tree y := by
        rintro u hu x y hx hy ⟨u', hu', h1, h2⟩
        exact ⟨u, hu, conn_trans h1 (EqvGen.rel _ _ ⟨hu', hu, x, h2, hx⟩), hy⟩
      have hvn : ¬ tree v := by
        rintro ⟨u, hu, h1, h2⟩
        exact hc (conn_symm (conn_trans h1 (EqvGen.rel _ _ ⟨hu, ha, v, h2, hv⟩)))
      have hwt : tree w := ⟨b, hb, conn_refl _, hw⟩
      refine ⟨fun x => if x = w then rank v else if tree x then rank x + rank v + 1 else rank x, ?_⟩
      intro u hu i x y hx hy
      rw [hG.nodes u hu, List.getElem?_map, Option.map_eq_some_iff] at hx hy
      obtain ⟨x0, hx0, rfl⟩ := hx
      obtain ⟨y0, hy0, rfl⟩ := hy
      have hlt := hr u hu i x0 y0 hx0 hy0
      have hyw : y0 ≠ w := by
        rintro rfl
        exact hnopre _ hp u hu i x0 hx0 hy0
      have hmx := List.mem_of_getElem? hx0
      have hmy := List.mem_of_getElem? hy0
      let R : Nat → Nat := fun x => if x = w then rank v else if tree x then rank x + rank v + 1 else rank x
      have hR0 : ∀ z, z ∈ W.g.nodes u → ¬ tree z → R (ren v w z) = rank z := by
        intro z hz htz
        by_cases hzv : z = v
        · rw [hzv, ren_self]; exact if_pos rfl
        · rw [ren_ne w hzv]
          show (if z = w then rank v else if tree z then rank z + rank v + 1 else rank z) = _
          rw [if_neg (by rintro rfl; exact htz hwt), if_neg htz]
      have hR1 : ∀ z, tree z → z ≠ w → R (ren v w z) = rank z + rank v + 1 := by
        intro z htz hzw
        rw [ren_ne w (by rintro rfl; exact hvn htz)]
        show (if z = w then rank v else if tree z then rank z + rank v + 1 else rank z) = _
        rw [if_neg hzw, if_pos htz]
      show R (ren v w x0) < R (ren v w y0)
      by_cases htx : tree x0
      · have hty := hsame u hu _ _ hmx hmy htx
        rw [hR1 y0 hty hyw]
        by_cases hxw : x0 = w
        · rw [hxw, ren_ne w (Ne.symm hvw)]
          have : R w = rank v := if_pos rfl
          rw [this]; omega
        · rw [hR1 x0 htx hxw]; omega
      · have hty : ¬ tree y0 := fun h' => htx (hsame u hu _ _ hmy hmx h')
        rw [hR0 x0 hmx htx, hR0 y0 hmy hty]
        exact hlt

theorem conn_cases {g : Graph} {a b : Nat} (h : Conn g T a b) : a = b ∨ (a ∈ T ∧ b ∈ T) := by
  induction h with
  | rel p q h => exact Or.inr ⟨h.1, h.2.1⟩
  | refl p => exact Or.inl rfl
  | symm p q _ ih =>
    rcases ih with h | h
    · exact Or.inl h.symm
    · exact Or.inr ⟨h.2, h.1⟩
  | trans p q r _ _ ih1 ih2 =>
    rcases ih1 with rfl | h1
    · exact ih2
    · rcases ih2 with rfl | h2
      · exact Or.inr h1
      · exact Or.inr ⟨h1.1, h2.2⟩

theorem joined_equiv {g : Graph} {T : List Nat} {t s : Nat} : (∀ a, Joined g T t s a a) ∧
    (∀ a b, Joined g T t s a b → Joined g T t s b a) ∧
    (∀ a b c, Joined g T t s a b → Joined g T t s b c → Joined g T t s a c) := by
  refine ⟨fun a => Or.inl (conn_refl _), ?_, ?_⟩
  · rintro a b (h | ⟨h1, h2⟩)
    · exact Or.inl (conn_symm h)
    · exact Or.inr ⟨h2, h1⟩
  · rintro a b c (h1 | ⟨h1, h1'⟩) (h2 | ⟨h2, h2'⟩)
    · exact Or.inl (conn_trans h1 h2)
    · refine Or.inr ⟨?_, h2'⟩
      rcases h2 with h2 | h2
      · exact Or.inl (conn_trans h1 h2)
      · exact Or.inr (conn_trans h1 h2)
    · refine Or.inr ⟨h1, ?_⟩
      rcases h1' with h | h
      · exact Or.inl (conn_trans (conn_symm h2) h)
      · exact Or.inr (conn_trans (conn_symm h2) h)
    · exact Or.inr ⟨h1, h2'⟩

/-- tracks joined after node lists have been changed so that they meet exactly where they met before, or where tracks
`a` and `b` are joined -/
theorem joined_iff {g g' : Graph} {T : List Nat} {a b : Nat}
    (h1 : ∀ x ∈ T, ∀ y ∈ T, ∀ n, n ∈ g'.nodes x → n ∈ g'.nodes y → Joined g T a b x y)
    (h2 : ∀ x ∈ T, ∀ y ∈ T, ∀ n, n ∈ g.nodes x → n ∈ g.nodes y → Conn g' T x y)
    (h3 : Conn g' T a b) (x y : Nat) : Conn g' T x y ↔ Joined g T a b x y := by
  constructor
  · intro h
    induction h with
    | rel x y h => obtain ⟨hx, hy, n, h4, h5⟩ := h; exact h1 x hx y hy n h4 h5
    | refl x => exact joined_equiv.1 x
    | symm x y _ ih => exact joined_equiv.2.1 _ _ ih
    | trans x y z _ _ ih1 ih2 => exact joined_equiv.2.2 _ _ _ ih1 ih2
  · have hm : ∀ x y, Conn g T x y → Conn g' T x y := by
      intro x y h
      induction h with
      | rel x y h => obtain ⟨hx, hy, n, h4, h5⟩ := h; exact h2 x hx y hy n h4 h5
      | refl x => exact conn_refl _
      | symm x y _ ih => exact conn_symm ih
      | trans x y z _ _ ih1 ih2 => exact conn_trans ih1 ih2
    rintro (h | ⟨h4, h5⟩)
    · exact hm _ _ h
    · have hone : ∀ x, (Conn g T x a ∨ Conn g T x b) → Conn g' T x a := by
        rintro x (h | h)
        · exact hm _ _ h
        · exact conn_trans (hm _ _ h) (conn_symm h3)
      exact conn_trans (hone x h4) (conn_symm (hone y h5))

theorem Glued.conn {v w a b : Nat} (hG : Glued W W' T v w) (ha : a ∈ T) (hb : b ∈ T) (hv : v ∈ W.g.nodes a)
    (hw : w ∈ W.g.nodes b) (x y : Nat) : Conn W'.g T x y ↔ Joined W.g T a b x y := by
  have hm : ∀ u ∈ T, ∀ n, n ∈ W'.g.nodes u ↔ ∃ m, m ∈ W.g.nodes u ∧ ren v w m = n := by
    intro u hu n
    rw [hG.nodes u hu, List.mem_map]
  refine joined_iff ?_ ?_ ?_ x y
  · intro x hx y hy n h1 h2
    obtain ⟨m, hm1, e1⟩ := (hm x hx n).1 h1
    obtain ⟨m', hm2, e2⟩ := (hm y hy n).1 h2
    by_cases hmm : m = m'
    · subst hmm
      exact Or.inl (EqvGen.rel _ _ ⟨hx, hy, m, hm1, hm2⟩)
    · have hin : ∀ z ∈ T, ∀ k, k ∈ W.g.nodes z → (k = v ∨ k = w) → Conn W.g T z a ∨ Conn W.g T z b := by
        rintro z hz k hk (rfl | rfl)
        · exact Or.inl (EqvGen.rel _ _ ⟨hz, ha, _, hk, hv⟩)
        · exact Or.inr (EqvGen.rel _ _ ⟨hz, hb, _, hk, hw⟩)
      have hboth : (m = v ∨ m = w) ∧ (m' = v ∨ m' = w) := by
        unfold ren at e1 e2
        split at e1 <;> split at e2 <;> omega
      exact Or.inr ⟨hin x hx m hm1 hboth.1, hin y hy m' hm2 hboth.2⟩
  · intro x hx y hy n h1 h2
    exact EqvGen.rel _ _ ⟨hx, hy, ren v w n, (hm x hx _).2 ⟨n, h1, rfl⟩, (hm y hy _).2 ⟨n, h2, rfl⟩⟩
  · by_cases hvw : w = v
    · subst hvw
      exact EqvGen.rel _ _ ⟨ha, hb, w, (hm a ha _).2 ⟨w, hv, ren_self w w⟩, (hm b hb _).2 ⟨w, hw, ren_self w w⟩⟩
    · exact EqvGen.rel _ _ ⟨ha, hb, w, (hm a ha _).2 ⟨v, hv, ren_self v w⟩, (hm b hb _).2 ⟨w, hw, ren_ne w hvw⟩⟩

/-! ### the loop that moves the segments -/

theorem moveAll_eq {v w : Nat} (hvw : v ≠ w) (l : List Nat) : ∀ W : World,
    (l.foldl (moveNext v w) W).g.prev = W.g.prev ∧ (l.foldl (moveNext v w) W).g.trk = W.g.trk ∧
    (l.foldl (moveNext v w) W).g.snext = W.g.snext ∧ (l.foldl (moveNext v w) W).segs = W.segs ∧
    (l.foldl (moveNext v w) W).hits = W.hits ∧ (l.foldl (moveNext v w) W).fresh = W.fresh ∧
    (∀ u, (l.foldl (moveNext v w) W).g.nodes u =
      if u ∈ l.map W.g.trk then (W.g.nodes u).set 0 w else W.g.nodes u) ∧
    (∀ x, (l.foldl (moveNext v w) W).g.next x =
      if x = v then (W.g.next v).filter (fun s => s ∉ l) else if x = w then W.g.next w ++ l else W.g.next x) := by
  induction l with
  | nil =>
    intro W
    refine ⟨rfl, rfl, rfl, rfl, rfl, rfl, fun u => by simp, fun x => ?_⟩
    simp only [List.foldl_nil, List.not_mem_nil, not_false_eq_true, decide_true, List.filter_true, List.append_nil]
    by_cases hxv : x = v
    · rw [if_pos hxv, hxv]
    · rw [if_neg hxv]
      by_cases hxw : x = w
      · rw [if_pos hxw, hxw]
      · rw [if_neg hxw]
  | cons a l ih =>
    intro W
    obtain ⟨h1, h2, h3, h4, h5, h6, h7, h8⟩ := ih (moveNext v w W a)
    rw [List.foldl_cons]
    refine ⟨h1, h2, h3, h4, h5, h6, ?_, ?_⟩
    · intro u
      rw [h7]
      have e : (moveNext v w W a).g.trk = W.g.trk := rfl
      have e' : (moveNext v w W a).g.nodes u = if u = W.g.trk a then (W.g.nodes u).set 0 w else W.g.nodes u := rfl
      rw [e, e', List.map_cons]
      by_cases hu : u = W.g.trk a
      · rw [if_pos hu]
        have : u ∈ W.g.trk a :: l.map W.g.trk := by rw [hu]; exact List.mem_cons_self ..
        rw [if_pos this]
        split
        · rw [List.set_set]
        · rfl
      · rw [if_neg hu]
        by_cases hul : u ∈ l.map W.g.trk
        · rw [if_pos hul, if_pos (List.mem_cons_of_mem _ hul)]
        · rw [if_neg hul, if_neg]
          rw [List.mem_cons]
          rintro (h | h)
          · exact hu h
          · exact hul h
    · intro x
      rw [h8]
      have ev : (moveNext v w W a).g.next v = (W.g.next v).filter (· ≠ a) := if_pos rfl
      have ew : (moveNext v w W a).g.next w = W.g.next w ++ [a] := by
        show (if w = v then _ else if w = w then W.g.next w ++ [a] else _) = _
        rw [if_neg (Ne.symm hvw), if_pos rfl]
      by_cases hxv : x = v
      · rw [if_pos hxv, if_pos hxv, ev, List.filter_filter]
        apply List.filter_congr
        intro s _
        by_cases h : s = a <;> simp [h]
      · rw [if_neg hxv, if_neg hxv]
        by_cases hxw : x = w
        · rw [if_pos hxw, if_pos hxw, ew]; simp
        · rw [if_neg hxw, if_neg hxw]
          show (if x = v then _ else if x = w then _ else W.g.next x) = _
          rw [if_neg hxv, if_neg hxw]

theorem map_ren_set {v w : Nat} {l : List Nat} (hnd : l.Nodup) {i : Nat} (hi : l[i]? = some v) :
    l.map (ren v w) = l.set i w := by
  apply List.ext_getElem?
  intro j
  rw [List.getElem?_map, List.getElem?_set]
  by_cases hij : i = j
  · subst hij
    rw [if_pos rfl, if_pos (List.getElem?_eq_some_iff.1 hi).1, hi]
    simp [ren]
  · rw [if_neg hij]
    cases hj : l[j]? with
    | none => rfl
    | some x =>
      have : x ≠ v := by
        rintro rfl
        obtain ⟨h1, e1⟩ := List.getElem?_eq_some_iff.1 hi
        obtain ⟨h2, e2⟩ := List.getElem?_eq_some_iff.1 hj
        exact hij ((List.Nodup.getElem_inj_iff hnd).1 (e1.trans e2.symm))
      simp [ren, this]

theorem map_ren_id {v w : Nat} {l : List Nat} (h : v ∉ l) : l.map (ren v w) = l := by
  rw [List.map_congr_left (g := id)]
  · simp
  · intro x hx
    exact ren_ne w (by rintro rfl; exact h hx)

/-- moving the segments of a node that is not entered -/
theorem Sound.glue_free (h : Sound W T) {v w : Nat} (hvw : v ≠ w) (hp : W.g.prev v = none) :
    Glued W (moveNexts W v w) T v w ∧ (moveNexts W v w).g.next v = [] ∧ (moveNexts W v w).g.prev v = none := by
  have hF := h.forest
  obtain ⟨h1, h2, h3, h4, h5, h6, h7, h8⟩ := moveAll_eq hvw (W.g.next v) W
  have hnil : (moveNexts W v w).g.next v = [] := by
    show ((W.g.next v).foldl (moveNext v w) W).g.next v = []
    rw [h8, if_pos rfl, List.filter_eq_nil_iff]
    intro s hs
    simp [hs]
  refine ⟨⟨?_, ?_, ?_, ?_, h2, h4, h6, h5⟩, hnil, by
    show ((W.g.next v).foldl (moveNext v w) W).g.prev v = none
    rw [h1]; exact hp⟩
  · intro u hu
    show ((W.g.next v).foldl (moveNext v w) W).g.nodes u = _
    rw [h7]
    by_cases hvu : v ∈ W.g.nodes u
    · rcases Forest.node_cases hvu with hf | hd
      · obtain ⟨s, hs, hst⟩ := hF.front_seg hu hf
        rw [if_pos (by rw [← hst]; exact List.mem_map_of_mem hs)]
        refine (map_ren_set (hF.nodes_nodup hu) ?_).symm
        unfold front at hf
        rw [← List.head?_eq_getElem?]
        exact hf
      · obtain ⟨s, hs, _⟩ := hF.prev_tail hu hd
        rw [hp] at hs
        cases hs
    · rw [if_neg, map_ren_id hvu]
      intro hm
      obtain ⟨s, hs, hst⟩ := List.mem_map.1 hm
      obtain ⟨_, i, _, h3, _⟩ := hF.seg v s hs
      rw [hst] at h3
      exact hvu (List.mem_of_getElem? h3)
  · intro x
    by_cases hxv : x = v
    · rw [if_pos hxv, hxv]; exact hnil
    · rw [if_neg hxv]
      show ((W.g.next v).foldl (moveNext v w) W).g.next x = _
      rw [h8, if_neg hxv]
  · intro x
    show ((W.g.next v).foldl (moveNext v w) W).g.prev x = _
    rw [h1]
    by_cases hxv : x = v
    · rw [if_pos hxv, hxv, hp]
    · rw [if_neg hxv]
      by_cases hxw : x = w
      · rw [if_pos hxw, hxw, hp]; simp
      · rw [if_neg hxw]
  · intro x s hs
    show ((W.g.next v).foldl (moveNext v w) W).g.snext s = _
    rw [h3]
    obtain ⟨hT, i, z, h4, h5, h6, hz⟩ := hF.seg x s hs
    rw [h6]
    have : z ≠ v := by
      rintro rfl
      rw [hp] at hz
      cases hz
    rw [Option.map_some, ren_ne w this]

/-- moving the end of a track to a node that is not entered, and the segments after it -/
theorem Sound.glue_end (h : Sound W T) {v w s : Nat} (hvw : v ≠ w) (hv : W.g.prev v = some s)
    (hb : back W.g (W.g.trk s) = some v) (hw : W.g.prev w = none) :
    Glued W (moveNexts (reconnect W (W.g.trk s) s w) v w) T v w ∧
      (moveNexts (reconnect W (W.g.trk s) s w) v w).g.next v = [] ∧
      (moveNexts (reconnect W (W.g.trk s) s w) v w).g.prev v = none := by
  have hF := h.forest
  obtain ⟨hpT, hd⟩ := hF.prev_track hv
  obtain ⟨v', hsv', hsn⟩ := hF.entered v s hv
  have hnl : ∀ s', s' ∈ W.g.next v → W.g.trk s' ≠ W.g.trk s := by
    intro s' hs' he
    have h1 := hF.nextSeg_some hs'
    rw [he, (hF.nextSeg_none hpT (List.mem_of_mem_drop hd)).2 hb] at h1
    cases h1
  have r1 : (reconnect W (W.g.trk s) s w).g.next = W.g.next := rfl
  have r2 : (reconnect W (W.g.trk s) s w).g.trk = W.g.trk := rfl
  have r3 : ∀ x, (reconnect W (W.g.trk s) s w).g.prev x = if x = w then some s else if x = v then none else W.g.prev x := by
    intro x
    show (if x = w then some s else if W.g.snext s = some x ∧ W.g.prev x = some s then none else W.g.prev x) = _
    by_cases hxw : x = w
    · rw [if_pos hxw, if_pos hxw]
    · rw [if_neg hxw, if_neg hxw]
      by_cases hxv : x = v
      · subst hxv; rw [if_pos ⟨hsn, hv⟩, if_pos rfl]
      · rw [if_neg, if_neg hxv]
        rintro ⟨h1, _⟩
        rw [hsn] at h1
        cases h1
        exact hxv rfl
  have r4 : ∀ y, (reconnect W (W.g.trk s) s w).g.snext y = if y = s then some w else W.g.snext y := by
    intro y
    show (if y = s then some w else if W.g.prev w = some y ∧ W.g.snext y = some w then none else W.g.snext y) = _
    by_cases hys : y = s
    · rw [if_pos hys, if_pos hys]
    · rw [if_neg hys, if_neg hys, if_neg]
      rintro ⟨h1, _⟩
      rw [hw] at h1
      cases h1
  have r5 : ∀ u, (reconnect W (W.g.trk s) s w).g.nodes u =
      if u = W.g.trk s then (W.g.nodes (W.g.trk s)).set ((W.g.nodes (W.g.trk s)).length - 1) w else W.g.nodes u :=
    fun u => rfl
  have r6 : (reconnect W (W.g.trk s) s w).segs = W.segs := rfl
  have r7 : (reconnect W (W.g.trk s) s w).hits = W.hits := rfl
  have r8 : (reconnect W (W.g.trk s) s w).fresh = W.fresh := rfl
  generalize reconnect W (W.g.trk s) s w = R at r1 r2 r3 r4 r5 r6 r7 r8
  obtain ⟨h1, h2, h3, h4, h5, h6, h7, h8⟩ := moveAll_eq hvw (R.g.next v) R
  have hprev : ∀ x, (moveNexts R v w).g.prev x = if x = w then some s else if x = v then none else W.g.prev x := by
    intro x
    show ((R.g.next v).foldl (moveNext v w) R).g.prev x = _
    rw [h1]; exact r3 x
  have hnil : (moveNexts R v w).g.next v = [] := by
    show ((R.g.next v).foldl (moveNext v w) R).g.next v = []
    rw [h8, if_pos rfl, List.filter_eq_nil_iff]
    intro s hs
    simp [hs]
  refine ⟨⟨?_, ?_, ?_, ?_, h2.trans r2, h4.trans r6, h6.trans r8, h5.trans r7⟩, hnil, by
    rw [hprev, if_neg hvw, if_pos rfl]⟩
  · intro u hu
    show ((R.g.next v).foldl (moveNext v w) R).g.nodes u = _
    rw [h7, r2, r1, r5]
    by_cases hup : u = W.g.trk s
    · rw [if_neg, if_pos hup, hup]
      · refine (map_ren_set (hF.nodes_nodup hpT) ?_).symm
        unfold back at hb
        rw [← List.getLast?_eq_getElem?]
        exact hb
      · intro hm
        obtain ⟨s', hs', hst⟩ := List.mem_map.1 hm
        exact hnl s' hs' (hst.trans hup)
    · rw [if_neg hup]
      by_cases hvu : v ∈ W.g.nodes u
      · rcases Forest.node_cases hvu with hf | hd'
        · obtain ⟨s', hs', hst⟩ := hF.front_seg hu hf
          rw [if_pos (by rw [← hst]; exact List.mem_map_of_mem hs')]
          refine (map_ren_set (hF.nodes_nodup hu) ?_).symm
          unfold front at hf
          rw [← List.head?_eq_getElem?]
          exact hf
        · exact absurd (hF.tail_unique hu hpT hd' hd) hup
      · rw [if_neg, map_ren_id hvu]
        intro hm
        obtain ⟨s', hs', hst⟩ := List.mem_map.1 hm
        obtain ⟨_, i, _, h3, _⟩ := hF.seg v s' hs'
        rw [hst] at h3
        exact hvu (List.mem_of_getElem? h3)
  · intro x
    by_cases hxv : x = v
    · rw [if_pos hxv, hxv]; exact hnil
    · rw [if_neg hxv]
      show ((R.g.next v).foldl (moveNext v w) R).g.next x = _
      rw [h8, if_neg hxv, r1]
  · intro x
    rw [hprev]
    by_cases hxv : x = v
    · rw [if_pos hxv, if_neg (by rw [hxv]; exact hvw), if_pos hxv]
    · rw [if_neg hxv, if_neg hxv]
      by_cases hxw : x = w
      · rw [if_pos hxw, if_pos hxw, hw, hv]; rfl
      · rw [if_neg hxw, if_neg hxw]
  · intro x s' hs'
    show ((R.g.next v).foldl (moveNext v w) R).g.snext s' = _
    rw [h3, r4]
    obtain ⟨hT, i, z, h4, h5, h6, hz⟩ := hF.seg x s' hs'
    rw [h6]
    by_cases hss : s' = s
    · rw [if_pos hss]
      rw [hss, hsn] at h6
      cases h6
      rw [Option.map_some, ren_self]
    · rw [if_neg hss]
      have : z ≠ v := by
        rintro rfl
        rw [hv] at hz
        cases hz
        exact hss rfl
      rw [Option.map_some, ren_ne w this]

end Verif.PMAlg.Tree

import Mathlib.Algebra.Order.Field.Rat
import Mathlib.Tactic.NormNum
import Verif.Voronoi.BeachRemove

/-! C83-C86: the beach line keeps one tree and one chain; what insertions, removals and the counters do. -/
namespace Verif.Voronoi

/-! ## Specification -/

/-- `arcs` are the arcs (leaf nodes) of the beach line, from left to right: there is one binary tree below the root pointer, its
parent and child pointers agree, its left-to-right order is the predecessor/successor chain, and its leaves are `arcs`. -/
def IsBeach (s : Beach) (arcs : List Nat) : Prop := ∃ t, WF s t ∧ arcs = t.leaves

/-- the sites of the arcs -/
def sites (s : Beach) (arcs : List Nat) : List Nat := arcs.map (fun i => (s.heap i).event)

/-- the positions of the breakpoints between neighbouring sites -/
def gaps (bp : Nat → Nat → ℚ) (l : List Nat) : List ℚ := List.zipWith bp l l.tail

/-! ## C83 -/

theorem sites_same {s s' : Beach} {l : List Nat} (h : ∀ j ∈ l, (s'.heap j).event = (s.heap j).event) : sites s' l = sites s l :=
  List.map_congr_left h

/-- a new site in the empty beach line -/
theorem C83_first (toLeft : Nat → Nat → Bool) (s : Beach) (hs : s.root = none) (ev : Nat) :
    ∃ new s', s.insert toLeft ev = some (new, s') ∧ IsBeach s' [new] ∧ sites s' [new] = [ev] := by
  obtain ⟨s', h1, h2, _, _, h5, _⟩ := insert_empty toLeft s hs ev
  exact ⟨s.next, s', h1, ⟨.leaf s.next, h2, rfl⟩, by simp [sites, h5]⟩

theorem inserted_sites {s s' : Beach} {t t' : T} {ev i : Nat} (hw : WF s t) (h : Inserted s s' t t' ev i) {A B : List Nat}
    (ht : t.leaves = A ++ i :: B) :
    sites s' (A ++ (s.next + 1) :: s.next :: i :: B) = sites s A ++ (s.heap i).event :: ev :: (s.heap i).event :: sites s B := by
  have hlt : ∀ j ∈ t.leaves, j < s.next := fun j hj => hw.bound j (leaves_sub t j hj)
  have hold : ∀ j ∈ t.leaves, (s'.heap j).event = (s.heap j).event := by
    intro j hj
    have := (h.old j (hlt j hj)).1
    simp only [pl, Prod.mk.injEq] at this
    exact this.1
  rw [ht] at hold
  have e1 := sites_same (s := s) (s' := s') (l := A) (fun j hj => hold j (by simp [hj]))
  have e2 := sites_same (s := s) (s' := s') (l := B) (fun j hj => hold j (by simp [hj]))
  have e3 := hold i (by simp)
  have e4 : (s'.heap s.next).event = ev := by have := (h.new s.next (Or.inl rfl)).1; simp only [pl, Prod.mk.injEq] at this; exact this.1
  have e5 : (s'.heap (s.next + 1)).event = (s.heap i).event := by have := h.copy.1; simp only [pl, Prod.mk.injEq] at this; exact this.1
  simp only [sites, List.map_append, List.map_cons] at e1 e2 ⊢
  rw [e1, e2, e3, e4, e5]

/-- C83: inserting a site splits exactly one arc: the arc's site appears on both sides of the new one, everything else is unchanged,
and the returned leaf is the new arc.  Whatever the comparisons answer, the pointers stay one tree and one chain. -/
theorem C83_insert (toLeft : Nat → Nat → Bool) (s : Beach) (arcs : List Nat) (hs : IsBeach s arcs) (ev : Nat) :
    ∃ A i B left new s', arcs = A ++ i :: B ∧ s.insert toLeft ev = some (new, s') ∧ IsBeach s' (A ++ left :: new :: i :: B) ∧
      sites s' (A ++ left :: new :: i :: B) = sites s A ++ (s.heap i).event :: ev :: (s.heap i).event :: sites s B := by
  obtain ⟨t, hw, rfl⟩ := hs
  obtain ⟨i, s', t', hi, h1, h2⟩ := insert_wf toLeft s t hw ev
  obtain ⟨A, B, h3, h4⟩ := h2.leaves
  exact ⟨A, i, B, s.next + 1, s.next, s', h3, h1, ⟨t', h2.wf, h4.symm⟩, inserted_sites hw h2 h3⟩

theorem gaps_get (bp : Nat → Nat → ℚ) (l : List Nat) (j : Nat) (a b : Nat) (ha : l[j]? = some a) (hb : l[j + 1]? = some b) :
    (gaps bp l)[j]? = some (bp a b) := by
  unfold gaps
  rw [List.getElem?_zipWith, ha, List.getElem?_tail, hb]

theorem gaps_append_right (bp : Nat → Nat → ℚ) (A B : List Nat) (e : Nat) : gaps bp (A ++ e :: B) = gaps bp (A ++ [e]) ++ gaps bp (e :: B) := by
  induction A with
  | nil => simp [gaps]
  | cons a A ih =>
    have h : ∀ l : List Nat, ∀ x, gaps bp (a :: (A ++ x :: l)) = bp a ((A ++ x :: l).headD 0) :: gaps bp (A ++ x :: l) := by
      intro l x
      cases A <;> simp [gaps]
    rw [List.cons_append, List.cons_append, h B e, h [] e, ih]
    cases A <;> simp

/-- C83: when the breakpoint positions are in order, the arc that is split is the one that lies over the site: all breakpoints to
its left are at or below the site's position and all breakpoints to its right are above it. -/
theorem C83_position (bp : Nat → Nat → ℚ) (y : ℚ) (s : Beach) (arcs : List Nat) (hs : IsBeach s arcs) (ev : Nat)
    (hord : (gaps bp (sites s arcs)).Pairwise (· ≤ ·)) :
    ∃ A i B left new s', arcs = A ++ i :: B ∧ s.insert (fun l r => decide (y < bp l r)) ev = some (new, s') ∧
      IsBeach s' (A ++ left :: new :: i :: B) ∧
      sites s' (A ++ left :: new :: i :: B) = sites s A ++ (s.heap i).event :: ev :: (s.heap i).event :: sites s B ∧
      (∀ g ∈ gaps bp (sites s (A ++ [i])), g ≤ y) ∧ (∀ g ∈ gaps bp (sites s (i :: B)), y < g) := by
  obtain ⟨t, hw, rfl⟩ := hs
  -- the number of breakpoints at or below `y`
  have hne := leaves_ne t
  have hlen : (gaps bp (sites s t.leaves)).length + 1 = t.leaves.length := by
    have : 0 < t.leaves.length := List.length_pos_iff.2 hne
    simp [gaps, sites]; omega
  have key : ∃ k, k < t.leaves.length ∧ ∀ (j : Nat) (g : ℚ), (gaps bp (sites s t.leaves))[j]? = some g → (y < g ↔ k ≤ j) := by
    generalize gaps bp (sites s t.leaves) = G at *
    have : ∃ k, k ≤ G.length ∧ ∀ (j : Nat) (g : ℚ), G[j]? = some g → (y < g ↔ k ≤ j) := by
      clear hlen
      induction G with
      | nil => exact ⟨0, by simp, by simp⟩
      | cons g G ih =>
        rw [List.pairwise_cons] at hord
        by_cases hg : y < g
        · refine ⟨0, by simp, fun j g' hj => ⟨fun _ => by omega, fun _ => ?_⟩⟩
          have hm : g' ∈ g :: G := List.mem_of_getElem? hj
          rcases List.mem_cons.1 hm with rfl | h
          · exact hg
          · exact lt_of_lt_of_le hg (hord.1 g' h)
        · obtain ⟨k, k1, k2⟩ := ih hord.2
          refine ⟨k + 1, by simp; omega, fun j g' hj => ?_⟩
          cases j with
          | zero => simp only [List.getElem?_cons_zero, Option.some.injEq] at hj; subst hj; exact ⟨fun h => absurd h hg, fun h => by omega⟩
          | succ j => rw [List.getElem?_cons_succ] at hj; rw [k2 j g' hj]; omega
    obtain ⟨k, k1, k2⟩ := this
    exact ⟨k, by omega, k2⟩
  obtain ⟨k, hk, hcmp⟩ := key
  have hfind := findBest_at (fun l r => decide (y < bp l r)) s.heap t none none none (s.next + 1) k hw.rep hw.thread (wf_fuel hw) hk
    (by
      intro j a b ha hb
      have := hcmp j (bp (s.heap a).event (s.heap b).event) (gaps_get bp _ j _ _ (by simp [sites, ha]) (by simp [sites, hb]))
      simp [this])
  rw [List.getElem?_eq_getElem hk, Option.map_some, ← hw.root] at hfind
  obtain ⟨s', t', h1, h2⟩ := insert_at _ s t hw ev _ (List.getElem_mem hk) hfind
  have hsplit : t.leaves = t.leaves.take k ++ t.leaves[k] :: t.leaves.drop (k + 1) := by simp
  have hnd : t.leaves.Nodup := by
    have : t.leaves.Sublist t.ids := by
      clear * -
      induction t with
      | leaf i => exact List.Sublist.refl _
      | node i l r ihl ihr => exact List.Sublist.append ihl (List.Sublist.cons _ ihr)
    exact hw.nodup.sublist this
  obtain ⟨A, B, h3, h4⟩ := h2.leaves
  have hAB : A = t.leaves.take k ∧ B = t.leaves.drop (k + 1) := by
    have hA : A.length = k := by
      have e1 : t.leaves[A.length]? = some t.leaves[k] := by
        conv_lhs => rw [h3]
        simp
      have e2 : A.length < t.leaves.length := by rw [h3]; simp
      rw [List.getElem?_eq_getElem e2, Option.some.injEq] at e1
      exact (List.nodup_iff_injective_getElem.1 hnd (a₁ := ⟨_, e2⟩) (a₂ := ⟨k, hk⟩) e1 |> Fin.mk.inj_iff.1)
    have e3 : A ++ (t.leaves[k] :: B) = t.leaves.take k ++ t.leaves[k] :: t.leaves.drop (k + 1) := by rw [← h3]; exact hsplit
    have := List.append_inj e3 (by rw [List.length_take]; omega)
    exact ⟨this.1, (List.cons.inj this.2).2⟩
  refine ⟨A, t.leaves[k], B, s.next + 1, s.next, s', h3, h1, ⟨t', h2.wf, h4.symm⟩, inserted_sites hw h2 h3, ?_, ?_⟩
  · intro g hg
    have hg' : ∃ j, j < k ∧ (gaps bp (sites s t.leaves))[j]? = some g := by
      have e : gaps bp (sites s t.leaves) = gaps bp (sites s (A ++ [t.leaves[k]])) ++ gaps bp (sites s (t.leaves[k] :: B)) := by
        conv_lhs => rw [h3]
        simp only [sites, List.map_append, List.map_cons, List.map_nil]
        exact gaps_append_right bp _ _ _
      obtain ⟨j, hj, hjg⟩ := List.getElem_of_mem hg
      refine ⟨j, ?_, ?_⟩
      · have : (gaps bp (sites s (A ++ [t.leaves[k]]))).length ≤ k := by
          simp [gaps, sites, hAB.1]
        omega
      · rw [e, List.getElem?_append_left hj, List.getElem?_eq_getElem hj, hjg]
    obtain ⟨j, j1, j2⟩ := hg'
    have := (hcmp j g j2).not.2 (by omega)
    exact not_lt.1 this
  · intro g hg
    have e : gaps bp (sites s t.leaves) = gaps bp (sites s (A ++ [t.leaves[k]])) ++ gaps bp (sites s (t.leaves[k] :: B)) := by
      conv_lhs => rw [h3]
      simp only [sites, List.map_append, List.map_cons, List.map_nil]
      exact gaps_append_right bp _ _ _
    obtain ⟨j, hj, hjg⟩ := List.getElem_of_mem hg
    have hlen2 : (gaps bp (sites s (A ++ [t.leaves[k]]))).length = k := by
      simp only [gaps, sites, hAB.1, List.length_zipWith, List.length_map, List.length_append, List.length_take, List.length_tail, List.length_singleton]
      omega
    refine (hcmp (k + j) g ?_).2 (by omega)
    rw [e, List.getElem?_append_right (by omega), hlen2, show k + j - k = j by omega, List.getElem?_eq_getElem hj, hjg]

/-! ## C84 -/

/-- C84: removing an arc that has neighbours on both sides and a circle event takes out exactly that arc; the returned node is the
breakpoint between its two neighbours; the circle events of the two neighbours, and no others, become invalid. -/
theorem C84_remove (s : Beach) (A B : List Nat) (a i k : Nat) (hs : IsBeach s (A ++ a :: i :: k :: B)) (hc : (s.heap i).assoc ≠ none)
    (hsep : ∀ j ∈ A ++ a :: i :: k :: B, ∀ n, (s.heap j).assoc = some n → (s.heap n).parent = none ∧ (s.heap n).pred = none ∧ (s.heap n).succ = none) :
    ∃ b s', s.remove i = some (some b, s') ∧ IsBeach s' (A ++ a :: k :: B) ∧ sites s' (A ++ a :: k :: B) = sites s (A ++ a :: k :: B) ∧
      (s'.heap a).succ = some b ∧ (s'.heap k).pred = some b ∧ (s'.heap b).pred = some a ∧ (s'.heap b).succ = some k ∧
      (∀ e, s'.valid e = (s.valid e && !((s.heap a).assoc.any (fun c => (s.heap c).event == e)) &&
        !((s.heap k).assoc.any (fun c => (s.heap c).event == e)))) := by
  obtain ⟨t, hw, ht⟩ := hs
  have hi : i ∈ t.leaves := by rw [← ht]; simp
  have hsub : t.leaves.Sublist t.ids := by
    clear * -
    induction t with
    | leaf i => exact List.Sublist.refl _
    | node i l r ihl ihr => exact List.Sublist.append ihl (List.Sublist.cons _ ihr)
  have hnd := hw.nodup.sublist hsub
  rw [← ht] at hnd
  -- neighbours exist
  obtain ⟨c0, hc0⟩ := exists_ctx t i hi
  have hids : t.ids = ctxL c0 ++ [i] ++ ctxR c0 := by rw [← hc0, ids_plug]; rfl
  have hlv : t.leaves = arcsL c0 ++ [i] ++ arcsR c0 := by rw [← hc0, leaves_plug]; rfl
  have hth := hw.thread
  rw [hids, List.append_assoc, thread_append] at hth
  obtain ⟨_, hpi, hsi, _⟩ := hth
  have hinj : A ++ [a] = arcsL c0 ∧ k :: B = arcsR c0 := by
    have e : (A ++ [a]) ++ i :: (k :: B) = arcsL c0 ++ i :: arcsR c0 := by
      rw [show (A ++ [a]) ++ i :: (k :: B) = A ++ a :: i :: k :: B by simp, ht, hlv]; simp
    have hl : i ∉ A ++ [a] := by
      have := List.nodup_append.1 hnd
      intro h
      simp only [List.mem_append, List.mem_singleton] at h
      rcases h with h | h
      · exact this.2.2 i h i (by simp) rfl
      · have := (List.nodup_cons.1 this.2.1).1; rw [h] at this; simp at this
    have hl2 : i ∉ arcsL c0 := by
      have hn2 := hnd
      rw [ht, hlv, List.append_assoc] at hn2
      intro h
      exact (List.nodup_append.1 hn2).2.2 i h i (by simp) rfl
    have h1 := congrArg (fun l => l.takeWhile (fun x => !decide (x = i))) e
    have h2 := congrArg (fun l => (l.dropWhile (fun x => !decide (x = i))).tail) e
    have hp : ∀ (X Y : List Nat), i ∉ X → (X ++ i :: Y).takeWhile (fun x => !decide (x = i)) = X ∧
        ((X ++ i :: Y).dropWhile (fun x => !decide (x = i))).tail = Y := by
      intro X Y hX
      induction X with
      | nil => simp
      | cons z X ih =>
        simp only [List.mem_cons, not_or] at hX
        have hz : (!decide (z = i)) = true := by simp; exact fun h => hX.1 h.symm
        obtain ⟨h1, h2⟩ := ih hX.2
        refine ⟨?_, ?_⟩
        · rw [List.cons_append, List.takeWhile_cons_of_pos (p := fun x => !decide (x = i)) hz, h1]
        · rw [List.cons_append, List.dropWhile_cons_of_pos (p := fun x => !decide (x = i)) hz, h2]
    simp only [(hp _ _ hl).1, (hp _ _ hl2).1] at h1
    simp only [(hp _ _ hl).2, (hp _ _ hl2).2] at h2
    exact ⟨h1, h2⟩
  have hp : (s.heap i).pred ≠ none := by
    rw [hpi]
    rcases ctxL_shape c0 with h | ⟨P, A', a', x, h, h'⟩
    · rw [h.2] at hinj; simp at hinj
    · rw [h]; simp
  have hsu : (s.heap i).succ ≠ none := by
    rw [hsi]
    rcases ctxR_shape c0 with h | ⟨Q, B', y, k', h, h'⟩
    · rw [h.2] at hinj; simp at hinj
    · rw [h]; simp
  -- circle nodes are not in the tree
  have hsep' : ∀ j ∈ t.leaves, ∀ n, (s.heap j).assoc = some n → n ∉ t.ids := by
    intro j hj n hn hmem
    rw [← ht] at hj
    obtain ⟨q1, q2, q3⟩ := hsep j hj n hn
    -- a node of a tree with at least two nodes has a neighbour in the chain
    obtain ⟨X, Y, hXY⟩ := List.append_of_mem hmem
    have h := hw.thread
    rw [hXY, thread_append] at h
    obtain ⟨_, w1, w2, _⟩ := h
    rw [q2] at w1
    rw [q3] at w2
    have hX : X = [] := by
      rcases List.eq_nil_or_concat X with h | ⟨X', z, h⟩
      · exact h
      · rw [h, List.concat_eq_append] at w1; simp at w1
    have hY : Y = [] := by cases Y with
      | nil => rfl
      | cons z Y => simp at w2
    have hlen : t.ids.length = 1 := by rw [hXY, hX, hY]; rfl
    have h2 := hsub.length_le
    rw [← ht, hlen] at h2
    simp at h2
    omega
  obtain ⟨a', k', x, y, b, s', t', h1, h2⟩ := remove_wf s t hw i hi hp hsu hc hsep'
  obtain ⟨A', B', h3, h4⟩ := h2.leaves
  have heq : A = A' ∧ a = a' ∧ k = k' ∧ B = B' := by
    have e : A ++ a :: i :: k :: B = A' ++ a' :: i :: k' :: B' := by rw [ht, h3]
    have hl : (A ++ [a]).length = (A' ++ [a']).length := by
      have e1 : (A ++ [a]) ++ i :: k :: B = (A' ++ [a']) ++ i :: k' :: B' := by simpa using e
      have n1 : ((A ++ [a]) ++ i :: k :: B).Nodup := by simpa using hnd
      have n2 : ((A' ++ [a']) ++ i :: k' :: B').Nodup := by rw [← e1]; exact n1
      have m1 : ((A ++ [a]) ++ i :: k :: B)[(A ++ [a]).length]? = some i := by simp
      have m2 : ((A ++ [a]) ++ i :: k :: B)[(A' ++ [a']).length]? = some i := by rw [e1]; simp
      have l1 : (A ++ [a]).length < ((A ++ [a]) ++ i :: k :: B).length := by simp
      have l2 : (A' ++ [a']).length < ((A ++ [a]) ++ i :: k :: B).length := by rw [e1]; simp
      rw [List.getElem?_eq_getElem l1, Option.some.injEq] at m1
      rw [List.getElem?_eq_getElem l2, Option.some.injEq] at m2
      exact (List.nodup_iff_injective_getElem.1 n1 (a₁ := ⟨_, l1⟩) (a₂ := ⟨_, l2⟩) (m1.trans m2.symm) |> Fin.mk.inj_iff.1)
    simp only [List.length_append, List.length_singleton, Nat.add_right_cancel_iff] at hl
    have := List.append_inj e hl
    simp only [List.cons.injEq, true_and] at this
    tauto
  obtain ⟨rfl, rfl, rfl, rfl⟩ := heq
  obtain ⟨P, Q, i1, i2⟩ := h2.ids
  have hT := h2.wf.thread
  rw [i2, thread_append] at hT
  obtain ⟨_, _, w2, w3, w4, w5, _⟩ := hT
  refine ⟨b, s', h1, ⟨t', h2.wf, h4.symm⟩, sites_same (fun j _ => h2.event j), by simpa using w2, w5, w3, by simpa using w4, h2.valid⟩

/-! ## C85 -/

theorem countLeaves_spec (h : Nat → Node) (t : T) : ∀ p f, Rep h p t → t.height < f → Beach.countLeaves h f t.root = some t.leaves.length := by
  induction t with
  | leaf i =>
    intro p f hr hf
    obtain ⟨f, rfl⟩ : ∃ g, f = g + 1 := ⟨f - 1, by omega⟩
    simp only [Rep, tf, Prod.mk.injEq] at hr
    simp [Beach.countLeaves, hr, T.leaves]
  | node i l r ihl ihr =>
    intro p f hr hf
    obtain ⟨f, rfl⟩ : ∃ g, f = g + 1 := ⟨f - 1, by omega⟩
    obtain ⟨h1, h2, h3⟩ := hr
    simp only [tf, Prod.mk.injEq] at h1
    simp only [T.height] at hf
    rw [root_node]
    simp [Beach.countLeaves, h1, ihl _ f h2 (by omega), ihr _ f h3 (by omega), T.leaves]

theorem ids_length (t : T) : t.ids.length + 1 = 2 * t.leaves.length := by
  induction t with
  | leaf i => rfl
  | node i l r ihl ihr => simp only [T.ids, T.leaves, List.length_append, List.length_cons]; omega

theorem countNodes_spec (h : Nat → Node) (t : T) : ∀ p f, Rep h p t → t.height + 1 < f → Beach.countNodes h f (some t.root) = some t.ids.length := by
  induction t with
  | leaf i =>
    intro p f hr hf
    obtain ⟨f, rfl⟩ : ∃ g, f = g + 2 := ⟨f - 2, by omega⟩
    simp only [Rep, tf, Prod.mk.injEq] at hr
    simp [Beach.countNodes, hr, T.ids]
  | node i l r ihl ihr =>
    intro p f hr hf
    obtain ⟨f, rfl⟩ : ∃ g, f = g + 1 := ⟨f - 1, by omega⟩
    obtain ⟨h1, h2, h3⟩ := hr
    simp only [tf, Prod.mk.injEq] at h1
    simp only [T.height] at hf
    rw [root_node]
    simp [Beach.countNodes, h1, ihl _ f h2 (by omega), ihr _ f h3 (by omega), T.ids]
    omega

theorem leftmost_spec (h : Nat → Node) (t : T) : ∀ p f, Rep h p t → t.height < f → Beach.leftmost h f t.root = t.leaves.head? := by
  induction t with
  | leaf i =>
    intro p f hr hf
    obtain ⟨f, rfl⟩ : ∃ g, f = g + 1 := ⟨f - 1, by omega⟩
    simp only [Rep, tf, Prod.mk.injEq] at hr
    simp [Beach.leftmost, hr, T.leaves]
  | node i l r ihl ihr =>
    intro p f hr hf
    obtain ⟨f, rfl⟩ : ∃ g, f = g + 1 := ⟨f - 1, by omega⟩
    obtain ⟨h1, h2, h3⟩ := hr
    simp only [tf, Prod.mk.injEq] at h1
    simp only [T.height] at hf
    rw [root_node]
    simp only [Beach.leftmost, h1, ihl _ f h2 (by omega), T.leaves]
    rw [List.head?_append]
    cases hl : l.leaves.head? with
    | none => simp at hl; exact absurd hl (leaves_ne l)
    | some a => rfl

theorem walkRight_spec (h : Nat → Node) (xs : List Nat) : ∀ p f, Thread h p xs none → xs.length ≤ f →
    Beach.walkRight h f xs.head? = some (xs.countP (fun i => Beach.isLeaf (h i))) := by
  induction xs with
  | nil => intro p f _ _; cases f <;> rfl
  | cons x xs ih =>
    intro p f ht hf
    obtain ⟨f, rfl⟩ : ∃ g, f = g + 1 := ⟨f - 1, by simp at hf; omega⟩
    obtain ⟨t1, t2, t3⟩ := ht
    simp only [List.head?_cons, Beach.walkRight, t2, Option.or_none]
    rw [ih (some x) f t3 (by simp at hf; omega)]
    simp [List.countP_cons]

theorem count_leaves (h : Nat → Node) (t : T) : ∀ p, Rep h p t → t.ids.countP (fun i => Beach.isLeaf (h i)) = t.leaves.length := by
  induction t with
  | leaf i => intro p hr; simp only [Rep, tf, Prod.mk.injEq] at hr; simp [T.ids, T.leaves, Beach.isLeaf, hr]
  | node i l r ihl ihr =>
    intro p hr
    obtain ⟨h1, h2, h3⟩ := hr
    simp only [tf, Prod.mk.injEq] at h1
    have hl : Beach.isLeaf (h i) = false := by simp [Beach.isLeaf, h1]
    simp [T.ids, T.leaves, List.countP_append, List.countP_cons, ihl _ h2, ihr _ h3, hl]

/-- C85: `countLeaves` and `traverseBeach` give the number of arcs and `countNodes` the number of arcs and breakpoints, which is
twice the number of arcs minus one. -/
theorem C85_counts (s : Beach) (arcs : List Nat) (hs : IsBeach s arcs) :
    ∃ r, s.root = some r ∧ Beach.countLeaves s.heap (s.next + 1) r = some arcs.length ∧ s.traverse = some arcs.length ∧
      Beach.countNodes s.heap (s.next + 2) s.root = some (2 * arcs.length - 1) := by
  obtain ⟨t, hw, rfl⟩ := hs
  refine ⟨t.root, hw.root, countLeaves_spec _ _ _ _ hw.rep (wf_fuel hw), ?_, ?_⟩
  · obtain ⟨z, zs, hz⟩ : ∃ z zs, t.ids = z :: zs := by
      cases h : t.ids with
      | nil => exact absurd h (ids_ne _)
      | cons z zs => exact ⟨z, zs, rfl⟩
    have hhead : t.leaves.head? = some z := by rw [← ids_head, hz]; rfl
    have hth := hw.thread
    have hcount := count_leaves s.heap t _ hw.rep
    have hlen := length_bound hw.nodup hw.bound
    rw [hz] at hth hcount hlen
    obtain ⟨t1, t2, t3⟩ := hth
    simp only [Beach.traverse, hw.root, leftmost_spec s.heap t _ _ hw.rep (wf_fuel hw), hhead, t1, t2, Option.or_none]
    rw [walkRight_spec s.heap zs (some z) (s.next + 1) t3 (by simp at hlen; omega)]
    simp only [Beach.walkLeft]
    rw [List.countP_cons] at hcount
    simp only [Option.some.injEq]
    omega
  · rw [hw.root, countNodes_spec s.heap t _ _ hw.rep (by have := wf_fuel hw; omega)]
    have := ids_length t
    simp only [Option.some.injEq]
    omega

/-! ## C86 -/

/-- the depth of the longest branch of a state's tree, and of its left and right parts -/
def depths (s : Beach) : Option (Nat × Nat) :=
  match s.root with
  | none => none
  | some r =>
    match (s.heap r).left, (s.heap r).right with
    | some l, some q =>
      match Beach.treeDepth s.heap (s.next + 1) l, Beach.treeDepth s.heap (s.next + 1) q with
      | some a, some b => some (a, b)
      | _, _ => none
    | _, _ => none

/-- three sites: the second one splits the only arc, the third one the arc of the second -/
def exThree : Option Beach :=
  match Beach.empty.insert (fun _ _ => false) 1 with
  | some (_, s) =>
    match s.insert (fun _ _ => false) 2 with
    | some (_, s) =>
      match s.insert (fun l _ => l == 2) 3 with
      | some (_, s) => some s
      | none => none
    | none => none
  | none => none

/-- C86 fails: after three insertions the two branches of the root differ by three levels (left 0, right 3), although the tree is
rebalanced after every insertion and the limit is 2. -/
theorem C86_refuted : (exThree.bind depths) = some (0, 3) ∨ (exThree.bind depths) = some (3, 0) := by decide +kernel

/-- C86, the part that holds: whatever rotations `rebalance` does on its way up from an arc, it ends, the result is again one tree
and one chain with the same arcs in the same order, on the same sites, and no circle event changes. -/
theorem C86_order_partial (s : Beach) (arcs : List Nat) (hs : IsBeach s arcs) (i : Nat) (hi : i ∈ arcs) :
    ∃ s', Beach.rebalance (s.next + 1) s i = some s' ∧ IsBeach s' arcs ∧ sites s' arcs = sites s arcs ∧ s'.valid = s.valid ∧
      ∀ j, (s'.heap j).assoc = (s.heap j).assoc := by
  obtain ⟨t, hw, rfl⟩ := hs
  obtain ⟨c, hc⟩ := exists_ctx t i hi
  have hids : t.ids = ctxL c ++ (T.leaf i).ids ++ ctxR c := by rw [← hc, ids_plug]
  have hrep := hw.rep
  rw [← hc] at hrep
  obtain ⟨g1, g2⟩ := (rep_plug _ _ _).1 hrep
  have hb := hw.bound
  have hn := hw.nodup
  rw [hids] at hb hn
  have hlen := length_bound hn hb
  have hcl := ctx_length c
  simp only [T.ids, List.length_append, List.length_cons, List.length_nil] at hlen hcl
  obtain ⟨s', z1, z2, z3, z4⟩ := rebalance_spec c (s.next + 1) s (.leaf i) (by omega) g1 g2 hn hb
  have hr : ∀ j, (s'.heap j).event = (s.heap j).event ∧ (s'.heap j).pred = (s.heap j).pred ∧ (s'.heap j).succ = (s.heap j).succ ∧
      (s'.heap j).assoc = (s.heap j).assoc := by
    intro j
    have := z4.rest j
    simp only [rest, Prod.mk.injEq] at this
    tauto
  refine ⟨s', z1, ⟨rebal (.leaf i) c, ⟨z2, z3, ?_, ?_, ?_⟩, ?_⟩, sites_same (fun j _ => (hr j).1), z4.valid, fun j => (hr j).2.2.2⟩
  · rw [ids_rebal, ← hids]
    exact hw.thread.frame _ _ _ (fun j _ => ⟨(hr j).2.1, (hr j).2.2.1⟩)
  · rw [ids_rebal]; exact hn
  · rw [ids_rebal, z4.next]; exact hb
  · rw [leaves_rebal, ← leaves_plug, hc]

/-! ## Examples -/

/-- a beach line of five arcs with a circle event (node 9, event 9) on its middle arc -/
def exFive : Option Beach :=
  match exThree with
  | some s =>
    let c := s.next
    match s.traverse with
    | some 5 =>
      -- the middle arc is node 5, the third inserted leaf
      some ((s.push { event := 9, assoc := some 5 }).mod 5 (fun n => { n with assoc := some c }))
    | _ => none
  | none => none

/-- the arcs of the beach line of `exThree`, found by walking the chain -/
def arcsOf (s : Beach) : List (Nat × Nat) :=
  let rec go : Nat → Option Nat → List (Nat × Nat)
    | 0, _ => []
    | _ + 1, none => []
    | f + 1, some i => (if Beach.isLeaf (s.heap i) = true then [(i, (s.heap i).event)] else []) ++ go f (s.heap i).succ
  match s.root with
  | some r => go (s.next + 1) (Beach.leftmost s.heap (s.next + 1) r)
  | none => []

/-- three insertions: sites 1 2 3 2 1 from left to right -/
example : exThree.map arcsOf = some [(2, 1), (6, 2), (5, 3), (1, 2), (0, 1)] := by decide +kernel

/-- removing the middle arc leaves 1 2 2 1 -/
example : (exFive.bind (fun s => s.remove 5)).map (fun r => (r.1.isSome, arcsOf r.2)) = some (true, [(2, 1), (6, 2), (1, 2), (0, 1)]) := by decide +kernel

/-- removing an arc at the end of the beach line follows a null pointer -/
example : (exFive.bind (fun s => s.remove 2)).isNone = true := by decide +kernel

/-- the hypotheses of C83, C84 and C85 are met -/
example : ∃ s arcs, IsBeach s arcs ∧ sites s arcs = [1, 2, 3, 2, 1] := by
  obtain ⟨n1, s1, a1, b1, c1⟩ := C83_first (fun _ _ => false) Beach.empty rfl 1
  obtain ⟨A, i, B, l, n2, s2, e2, a2, b2, c2⟩ := C83_insert (fun _ _ => false) s1 _ b1 2
  have h1 : A = [] ∧ i = n1 ∧ B = [] := by
    rcases A with _ | ⟨a, A⟩ <;> simp at e2 ⊢
    exact ⟨e2.1.symm, e2.2⟩
  obtain ⟨rfl, rfl, rfl⟩ := h1
  simp only [sites, List.map_cons, List.map_nil, List.cons.injEq, and_true] at c1
  have hs : sites s2 [l, n2, i] = [1, 2, 1] := by
    have h := c2
    simp only [sites, List.map_nil, List.nil_append, c1] at h ⊢
    exact h
  have b2' : IsBeach s2 [l, n2, i] := b2
  obtain ⟨A, j, B, l', n3, s3, e3, a3, b3, c3, d3, d4⟩ := C83_position (fun a _ => if a = 2 then 5 else 0) 3 s2 _ b2' 3 (by
    rw [hs]; simp [gaps])
  refine ⟨s3, _, b3, ?_⟩
  rw [c3]
  simp only [sites, List.map_cons, List.map_nil, List.cons.injEq, and_true] at hs
  obtain ⟨q1, q2, q3⟩ := hs
  rcases A with _ | ⟨a, _ | ⟨b, _ | ⟨c, A⟩⟩⟩
  · simp only [List.nil_append, List.cons.injEq] at e3
    obtain ⟨rfl, rfl⟩ := e3
    have := d4 0 (by simp [sites, gaps, q1, q2, q3])
    norm_num at this
  · simp only [List.cons_append, List.nil_append, List.cons.injEq] at e3
    obtain ⟨rfl, rfl, rfl⟩ := e3
    simp [sites, q1, q2, q3]
  · simp only [List.cons_append, List.nil_append, List.cons.injEq] at e3
    obtain ⟨rfl, rfl, rfl, rfl⟩ := e3
    have := d3 5 (by simp [sites, gaps, q1, q2, q3])
    norm_num at this
  · simp at e3

end Verif.Voronoi

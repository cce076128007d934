import Verif.Voronoi.BeachInsert

/-! `removeLeaf`. -/
namespace Verif.Voronoi

theorem ctxL_shape (c : List Fr) : (ctxL c = [] ∧ arcsL c = []) ∨ ∃ P A a x, ctxL c = P ++ [a, x] ∧ arcsL c = A ++ [a] := by
  induction c with
  | nil => left; exact ⟨rfl, rfl⟩
  | cons f c ih =>
    simp only [ctxL, arcsL]
    cases f.isLeft
    · right
      simp only [Bool.false_eq_true, if_false]
      obtain ⟨S, a, hS⟩ : ∃ S a, f.sib.ids = S ++ [a] := by
        rcases List.eq_nil_or_concat f.sib.ids with h | ⟨S, a, h⟩
        · exact absurd h (ids_ne _)
        · exact ⟨S, a, by rw [h, List.concat_eq_append]⟩
      obtain ⟨S', a', hS'⟩ : ∃ S a, f.sib.leaves = S ++ [a] := by
        rcases List.eq_nil_or_concat f.sib.leaves with h | ⟨S, a, h⟩
        · exact absurd h (leaves_ne _)
        · exact ⟨S, a, by rw [h, List.concat_eq_append]⟩
      have h1 := ids_getLast f.sib
      rw [hS, hS'] at h1
      simp only [List.getLast?_concat, Option.some.injEq] at h1
      subst h1
      refine ⟨ctxL c ++ S, arcsL c ++ S', a, f.id, ?_, ?_⟩
      · rw [hS]; simp
      · rw [hS']; simp
    · simpa using ih

theorem ctxR_shape (c : List Fr) : (ctxR c = [] ∧ arcsR c = []) ∨ ∃ Q B y k, ctxR c = y :: k :: Q ∧ arcsR c = k :: B := by
  induction c with
  | nil => left; exact ⟨rfl, rfl⟩
  | cons f c ih =>
    simp only [ctxR, arcsR]
    cases f.isLeft
    · simpa using ih
    · right
      simp only [if_true]
      obtain ⟨k, S, hS⟩ : ∃ a S, f.sib.ids = a :: S := by
        cases h : f.sib.ids with
        | nil => exact absurd h (ids_ne _)
        | cons a S => exact ⟨a, S, rfl⟩
      obtain ⟨k', S', hS'⟩ : ∃ a S, f.sib.leaves = a :: S := by
        cases h : f.sib.leaves with
        | nil => exact absurd h (leaves_ne _)
        | cons a S => exact ⟨a, S, rfl⟩
      have h1 := ids_head f.sib
      rw [hS, hS'] at h1
      simp only [List.head?_cons, Option.some.injEq] at h1
      subst h1
      exact ⟨S ++ ctxR c, S' ++ arcsR c, f.id, k, by rw [hS]; simp, by rw [hS']; simp⟩

theorem unlink_thread {h h' : Nat → Node} {U V : List Nat} {u v m k : Nat} (ht : Thread h none (U ++ m :: u :: v :: k :: V) none)
    (hn : (U ++ m :: u :: v :: k :: V).Nodup)
    (hp : ∀ j, j ≠ u → j ≠ v → (h' j).pred = if j = k then some m else (h j).pred)
    (hs : ∀ j, j ≠ u → j ≠ v → (h' j).succ = if j = m then some k else (h j).succ) : Thread h' none (U ++ m :: k :: V) none := by
  rw [thread_append] at ht ⊢
  obtain ⟨t1, t2, t3, t4, t5, t6, t7, t8, t9, t10⟩ := ht
  have n1 := List.nodup_append.1 hn
  have n2 := n1.2.1
  simp only [List.nodup_cons, List.mem_cons, not_or] at n2
  obtain ⟨⟨m1, m2, m3, m4⟩, ⟨u1, u2, u3⟩, ⟨v1, v2⟩, k1, n3⟩ := n2
  have hU : ∀ j ∈ U, j ≠ m ∧ j ≠ u ∧ j ≠ v ∧ j ≠ k := fun j hj =>
    ⟨n1.2.2 j hj m (by simp), n1.2.2 j hj u (by simp), n1.2.2 j hj v (by simp), n1.2.2 j hj k (by simp)⟩
  have hV : ∀ j ∈ V, j ≠ m ∧ j ≠ u ∧ j ≠ v ∧ j ≠ k := fun j hj =>
    ⟨by rintro rfl; exact m4 hj, by rintro rfl; exact u3 hj, by rintro rfl; exact v2 hj, by rintro rfl; exact k1 hj⟩
  refine ⟨t1.frame _ _ _ (fun j hj => ?_), ?_, ?_, ?_, ?_, t10.frame _ _ _ (fun j hj => ?_)⟩
  · obtain ⟨e1, e2, e3, e4⟩ := hU j hj
    rw [hp j e2 e3, hs j e2 e3, if_neg e4, if_neg e1]
    exact ⟨rfl, rfl⟩
  · rw [hp m m1 m2, if_neg m3, t2]
  · rw [hs m m1 m2, if_pos rfl]; rfl
  · rw [hp k (Ne.symm u2) (Ne.symm v1), if_pos rfl]
  · rw [hs k (Ne.symm u2) (Ne.symm v1), if_neg (Ne.symm m3), t9]
  · obtain ⟨e1, e2, e3, e4⟩ := hV j hj
    rw [hp j e2 e3, hs j e2 e3, if_neg e4, if_neg e1]
    exact ⟨rfl, rfl⟩

/-- the tree part -/
theorem unlinkTree_spec (s : Beach) (i : Nat) (f g : Fr) (c : List Fr) (hr : Rep s.heap none (plug (.leaf i) (f :: g :: c)))
    (hn : (plug (.leaf i) (f :: g :: c)).ids.Nodup) :
    ∃ s', s.unlinkTree i f.id g.id = some s' ∧ Rep s'.heap (ctxParent c) (wrap g f.sib) ∧ RepC s'.heap (wrap g f.sib).root c ∧
      (∀ j, rest (s'.heap j) = rest (s.heap j)) ∧ s'.next = s.next ∧ s'.valid = s.valid ∧
      s'.heap i = s.heap i ∧ s'.heap f.id = s.heap f.id := by
  obtain ⟨r1, r2, r3, r4⟩ := (rep_plug _ _ _).1 hr
  rw [ids_plug] at hn
  obtain ⟨d1, d2, d3⟩ := ctx_disj hn
  have hi := d2 i (by simp [T.ids])
  obtain ⟨n1, n2, n3⟩ := ctx_cons_nodup d1
  have hig : i ≠ f.id ∧ i ∉ f.sib.ids ∧ i ∉ ctxL (g :: c) ∧ i ∉ ctxR (g :: c) := by
    have h1 : ¬ (i ∈ ctxL (f :: g :: c) ∨ i ∈ ctxR (f :: g :: c)) := by tauto
    rw [ctx_cons_mem] at h1
    tauto
  have hnd2 : (ctxL (g :: c) ++ f.sib.ids ++ ctxR (g :: c)).Nodup := by
    have h := d1
    simp only [ctxL, ctxR] at h ⊢
    cases hb : f.isLeft
    · simp only [hb, Bool.false_eq_true, if_false, List.append_assoc] at h ⊢
      refine h.sublist ?_
      exact List.Sublist.append (List.Sublist.refl _) (List.Sublist.append (List.Sublist.refl _) (List.sublist_cons_self _ _))
    · simp only [hb, if_true, List.append_assoc] at h ⊢
      refine h.sublist ?_
      exact List.Sublist.append (List.Sublist.refl _) (List.sublist_cons_self _ _)
  obtain ⟨e1, e2, e3⟩ := ctx_disj hnd2
  obtain ⟨g1, g2, g3⟩ := r4
  have hsr : f.sib.root ≠ i := by rintro h; exact hig.2.1 (h ▸ root_mem _)
  have hfs : f.id ≠ f.sib.root := fun h => n1 (h ▸ root_mem _)
  have hsib : (if (s.heap f.id).right = some i then (s.heap f.id).left else (s.heap f.id).right) = some f.sib.root := by
    simp only [tf, Prod.mk.injEq] at r2
    rw [r2.2.1, r2.2.2]
    cases f.isLeft
    · simp
    · simp [hsr]
  have hgf : g.id ≠ f.id := by
    intro h
    have := (ctx_cons_mem g c g.id).2 (Or.inl rfl)
    rw [h] at this
    tauto
  have hgi : g.id ≠ i := by
    intro h
    have := (ctx_cons_mem g c g.id).2 (Or.inl rfl)
    rw [h] at this
    tauto
  have hgs : g.id ≠ f.sib.root := by
    intro h
    have := (ctx_cons_mem g c g.id).2 (Or.inl rfl)
    have h2 := e2 f.sib.root (root_mem _)
    rw [h] at this
    tauto
  -- the new child of the grandparent
  have hstep : RepC (if (s.heap g.id).left = some f.id then s.mod g.id (fun n => { n with left := some f.sib.root })
      else s.mod g.id (fun n => { n with right := some f.sib.root })).heap f.sib.root (g :: c) := by
    apply RepC.setChild (h := s.heap) (ch := f.id) ⟨g1, g2, g3⟩ _ _ e1
    · simp only [tf, Prod.mk.injEq] at g1
      cases hb : g.isLeft
      · simp only [hb, Bool.false_eq_true, if_false] at g1
        have : g.sib.root ≠ f.id := by
          intro h
          have := (ctx_cons_mem g c g.sib.root).2 (Or.inr (Or.inl (root_mem _)))
          rw [h] at this
          tauto
        rw [g1.2.1, if_neg (by simpa using this)]
        simp [mod_heap, tf, g1]
      · simp only [hb, if_true] at g1
        rw [g1.2.1, if_pos rfl]
        simp [mod_heap, tf, g1]
    · intro j hj _
      by_cases hh : (s.heap g.id).left = some f.id
      · rw [if_pos hh, mod_heap, if_neg hj]
      · rw [if_neg hh, mod_heap, if_neg hj]
  have hmem : (g.id ∈ ctxL (g :: c) ∨ g.id ∈ ctxR (g :: c)) := (ctx_cons_mem g c g.id).2 (Or.inl rfl)
  unfold Beach.unlinkTree
  simp only [hsib]
  have hrest1 : ∀ j, rest ((if (s.heap g.id).left = some f.id then s.mod g.id (fun n => { n with left := some f.sib.root })
      else s.mod g.id (fun n => { n with right := some f.sib.root })).heap j) = rest (s.heap j) := by
    intro j
    by_cases hh : (s.heap g.id).left = some f.id
    · rw [if_pos hh, mod_heap]; by_cases e : j = g.id
      · subst e; simp [rest]
      · simp [e]
    · rw [if_neg hh, mod_heap]; by_cases e : j = g.id
      · subst e; simp [rest]
      · simp [e]
  have hoth : ∀ j, j ≠ g.id → (if (s.heap g.id).left = some f.id then s.mod g.id (fun n => { n with left := some f.sib.root })
      else s.mod g.id (fun n => { n with right := some f.sib.root })).heap j = s.heap j := by
    intro j hj
    by_cases hh : (s.heap g.id).left = some f.id
    · rw [if_pos hh, mod_heap, if_neg hj]
    · rw [if_neg hh, mod_heap, if_neg hj]
  have hnx : (if (s.heap g.id).left = some f.id then s.mod g.id (fun n => { n with left := some f.sib.root })
      else s.mod g.id (fun n => { n with right := some f.sib.root })).next = s.next := by
    by_cases hh : (s.heap g.id).left = some f.id <;> simp [hh, Beach.mod]
  have hvl : (if (s.heap g.id).left = some f.id then s.mod g.id (fun n => { n with left := some f.sib.root })
      else s.mod g.id (fun n => { n with right := some f.sib.root })).valid = s.valid := by
    by_cases hh : (s.heap g.id).left = some f.id <;> simp [hh, Beach.mod]
  generalize (if (s.heap g.id).left = some f.id then s.mod g.id (fun n => { n with left := some f.sib.root })
      else s.mod g.id (fun n => { n with right := some f.sib.root })) = s1 at *
  have hA : Rep (s1.mod f.sib.root fun n => { n with parent := some g.id }).heap (some g.id) f.sib := by
    refine r3.reparent e3 ?_ (fun k hk hne => ?_)
    · rw [mod_heap, if_pos rfl]; simp [tf, hoth _ (Ne.symm hgs)]
    · rw [mod_heap, if_neg hne, hoth k]
      rintro rfl
      have := e2 g.id hk
      tauto
  have hB : RepC (s1.mod f.sib.root fun n => { n with parent := some g.id }).heap f.sib.root (g :: c) := by
    refine hstep.frame _ _ (fun k hk => ?_)
    have : k ≠ f.sib.root := by
      rintro rfl
      have := e2 f.sib.root (root_mem _)
      tauto
    rw [mod_heap, if_neg this]
  have hC := (rep_plug _ (g :: c) f.sib).2 ⟨hA, hB⟩
  have hD := (rep_plug _ c (wrap g f.sib)).1 hC
  refine ⟨_, rfl, hD.1, hD.2, fun j => ?_, hnx, hvl, ?_, ?_⟩
  · rw [mod_heap, ← hrest1 j]
    by_cases e : j = f.sib.root
    · subst e; simp [rest]
    · simp [e]
  · rw [mod_heap, if_neg (Ne.symm hsr), hoth i (Ne.symm hgi)]
  · rw [mod_heap, if_neg hfs, hoth f.id (Ne.symm hgf)]

theorem zap_heap (s : Beach) (i p j : Nat) (h1 : j ≠ i) (h2 : j ≠ p) : (s.zap i p).heap j = s.heap j := by
  simp [Beach.zap, mod_heap, h1, h2]

theorem zap_assoc (s : Beach) (i p j : Nat) : ((s.zap i p).heap j).assoc = (s.heap j).assoc := by
  by_cases h1 : j = i
  · subst h1
    by_cases h2 : j = p
    · subst h2; simp [Beach.zap, mod_heap]
    · simp [Beach.zap, mod_heap, h2]
  · by_cases h2 : j = p
    · subst h2; simp [Beach.zap, mod_heap, h1]
    · rw [zap_heap s i p j h1 h2]

theorem zap_event (s : Beach) (i p j : Nat) : ((s.zap i p).heap j).event = (s.heap j).event := by
  by_cases h1 : j = i
  · subst h1
    by_cases h2 : j = p
    · subst h2; simp [Beach.zap, mod_heap]
    · simp [Beach.zap, mod_heap, h2]
  · by_cases h2 : j = p
    · subst h2; simp [Beach.zap, mod_heap, h1]
    · rw [zap_heap s i p j h1 h2]

/-- what a removal of leaf `i` does: `a`, `k` are the neighbouring arcs, `x`, `y` the breakpoints next to it, `b` the one that stays -/
structure Removed (s s' : Beach) (t t' : T) (i a k x y b : Nat) : Prop where
  wf : WF s' t'
  ids : ∃ P Q, t.ids = P ++ a :: x :: i :: y :: k :: Q ∧ t'.ids = P ++ a :: b :: k :: Q
  leaves : ∃ A B, t.leaves = A ++ a :: i :: k :: B ∧ t'.leaves = A ++ a :: k :: B
  brk : b = x ∨ b = y
  next : s'.next = s.next
  pl : ∀ j, j ∈ t'.ids → pl (s'.heap j) = pl (s.heap j)
  event : ∀ j, (s'.heap j).event = (s.heap j).event
  cleared : (s'.heap a).assoc = none ∧ (s'.heap k).assoc = none
  kept : ∀ j, (s.heap a).assoc ≠ some j → (s.heap k).assoc ≠ some j → j ≠ a → j ≠ k → (s'.heap j).assoc = (s.heap j).assoc
  assoc : ∀ j, (s'.heap j).assoc = (s.heap j).assoc ∨ (s'.heap j).assoc = none
  valid : ∀ e, s'.valid e = (s.valid e && !((s.heap a).assoc.any (fun c => (s.heap c).event == e)) &&
    !((s.heap k).assoc.any (fun c => (s.heap c).event == e)))

/-- the two `dropCircle` calls together -/
theorem drop2_spec (s : Beach) (a k : Nat) (hak : (s.heap a).assoc ≠ some k) (hne : a ≠ k) :
    (∀ j, noAssoc (((s.dropCircle a).dropCircle k).heap j) = noAssoc (s.heap j)) ∧ ((s.dropCircle a).dropCircle k).next = s.next ∧
    (((s.dropCircle a).dropCircle k).heap a).assoc = none ∧ (((s.dropCircle a).dropCircle k).heap k).assoc = none ∧
    (∀ j, (s.heap a).assoc ≠ some j → (s.heap k).assoc ≠ some j → j ≠ a → j ≠ k → (((s.dropCircle a).dropCircle k).heap j).assoc = (s.heap j).assoc) ∧
    (∀ j, (((s.dropCircle a).dropCircle k).heap j).assoc = (s.heap j).assoc ∨ (((s.dropCircle a).dropCircle k).heap j).assoc = none) ∧
    (∀ e, ((s.dropCircle a).dropCircle k).valid e = (s.valid e && !((s.heap a).assoc.any (fun c => (s.heap c).event == e)) &&
      !((s.heap k).assoc.any (fun c => (s.heap c).event == e)))) := by
  obtain ⟨a1, a2, a3, a4, a5, a6, a7⟩ := dropCircle_spec s a
  obtain ⟨b1, b2, b3, b4, b5, b6, b7⟩ := dropCircle_spec (s.dropCircle a) k
  have hk := a5 k hak (Ne.symm hne)
  refine ⟨fun j => (b1 j).trans (a1 j), b2.trans a2, ?_, b4, ?_, ?_, ?_⟩
  · rcases b6 a with h | h
    · rw [h, a4]
    · exact h
  · intro j h1 h2 h3 h4
    rw [b5 j (by rw [hk]; exact h2) h4, a5 j h1 h3]
  · intro j
    rcases b6 j with h | h
    · rcases a6 j with h' | h'
      · left; rw [h, h']
      · right; rw [h, h']
    · right; exact h
  · intro e
    rw [b7, a7, hk]
    have : ∀ c, ((s.dropCircle a).heap c).event = (s.heap c).event := by
      intro c
      have := a1 c
      simp only [noAssoc, Prod.mk.injEq] at this
      exact this.1
    simp only [this]

theorem unlinkChain_noChain (s : Beach) (i p a c x y j : Nat) : noChain ((s.unlinkChain i p a c x y).heap j) = noChain (s.heap j) ∧
    (s.unlinkChain i p a c x y).next = s.next ∧ (s.unlinkChain i p a c x y).valid = s.valid := by
  unfold Beach.unlinkChain
  by_cases h : (s.heap p).left = some i
  · rw [if_pos h]
    refine ⟨?_, rfl, rfl⟩
    rw [mod_noChain _ _ _ (by intro n; rfl), mod_noChain _ _ _ (by intro n; rfl)]
  · rw [if_neg h]
    refine ⟨?_, rfl, rfl⟩
    rw [mod_noChain _ _ _ (by intro n; rfl), mod_noChain _ _ _ (by intro n; rfl)]

theorem remove_wf (s : Beach) (t : T) (hw : WF s t) (i : Nat) (hi : i ∈ t.leaves) (hp : (s.heap i).pred ≠ none) (hs : (s.heap i).succ ≠ none)
    (has : (s.heap i).assoc ≠ none) (hsep : ∀ j ∈ t.leaves, ∀ n, (s.heap j).assoc = some n → n ∉ t.ids) :
    ∃ a k x y b s' t', s.remove i = some (some b, s') ∧ Removed s s' t t' i a k x y b := by
  obtain ⟨c0, hc⟩ := exists_ctx t i hi
  -- the chain around `i`
  have hids : t.ids = ctxL c0 ++ [i] ++ ctxR c0 := by rw [← hc, ids_plug]; rfl
  have hlv : t.leaves = arcsL c0 ++ [i] ++ arcsR c0 := by rw [← hc, leaves_plug]; rfl
  have hth := hw.thread
  rw [hids, List.append_assoc, thread_append] at hth
  obtain ⟨_, hpi, hsi, _⟩ := hth
  simp only [Option.or_none] at hpi
  have hsi' : (s.heap i).succ = (ctxR c0).head? := by rw [hsi]; simp
  obtain ⟨P, A, a, x, hL, hAL⟩ : ∃ P A a x, ctxL c0 = P ++ [a, x] ∧ arcsL c0 = A ++ [a] := by
    rcases ctxL_shape c0 with h | h
    · rw [hpi, h.1] at hp; simp at hp
    · exact h
  obtain ⟨Q, B, y, k, hR, hBR⟩ : ∃ Q B y k, ctxR c0 = y :: k :: Q ∧ arcsR c0 = k :: B := by
    rcases ctxR_shape c0 with h | h
    · rw [hsi', h.1] at hs; simp at hs
    · exact h
  have hidsF : t.ids = P ++ a :: x :: i :: y :: k :: Q := by rw [hids, hL, hR]; simp
  have hlvF : t.leaves = A ++ a :: i :: k :: B := by rw [hlv, hAL, hBR]; simp
  -- two frames at least
  obtain ⟨f, g, c, rfl⟩ : ∃ f g c, c0 = f :: g :: c := by
    match c0, hL, hR with
    | [], hL, _ => simp [ctxL] at hL
    | [f], hL, hR =>
      exfalso
      simp only [ctxL, ctxR] at hL hR
      cases hb : f.isLeft
      · simp [hb] at hR
      · simp [hb] at hL
    | f :: g :: c, _, _ => exact ⟨f, g, c, rfl⟩
  have hrep := hw.rep
  rw [← hc] at hrep
  obtain ⟨r1, r2, r3, r4⟩ := (rep_plug _ _ _).1 hrep
  have hpar : (s.heap i).parent = some f.id := by simp only [Rep, tf, Prod.mk.injEq] at r1; exact r1.1
  have hgpar : (s.heap f.id).parent = some g.id := by simp only [tf, Prod.mk.injEq] at r2; exact r2.1
  obtain ⟨s1, u1, u2, u3, u4, u5, u6, u7, u8⟩ := unlinkTree_spec s i f g c hrep (by rw [hc]; exact hw.nodup)
  have u4' : ∀ j, (s1.heap j).event = (s.heap j).event ∧ (s1.heap j).pred = (s.heap j).pred ∧ (s1.heap j).succ = (s.heap j).succ ∧
      (s1.heap j).assoc = (s.heap j).assoc ∧ (s1.heap j).half = (s.heap j).half ∧ (s1.heap j).face = (s.heap j).face := by
    intro j
    have := u4 j
    simpa only [rest, Prod.mk.injEq] using this
  -- chain facts
  have hth := hw.thread
  rw [hidsF, thread_append] at hth
  obtain ⟨_, ta1, ta2, tx1, tx2, ti1, ti2, ty1, ty2, tk1, tk2, _⟩ := hth
  have hnd := hw.nodup
  rw [hidsF] at hnd
  have hnd2 := (List.nodup_append.1 hnd).2.1
  simp only [List.nodup_cons, List.mem_cons, not_or] at hnd2
  obtain ⟨⟨ax, ai, ay, ak, aQ⟩, ⟨xi, xy, xk, xQ⟩, ⟨iy, ik, iQ⟩, ⟨yk, yQ⟩, kQ, _⟩ := hnd2
  have hal : a ∈ t.leaves := by rw [hlvF]; simp
  have hkl : k ∈ t.leaves := by rw [hlvF]; simp
  have hkid : k ∈ t.ids := by rw [hidsF]; simp
  have hiid : i ∈ t.ids := by rw [hidsF]; simp
  have hak : (s1.heap a).assoc ≠ some k := by rw [(u4' a).2.2.2.1]; intro h; exact hsep a hal k h hkid
  obtain ⟨v1, v2, v3, v4, v5, v6, v7⟩ := drop2_spec s1 a k hak ak
  unfold Beach.remove
  simp only [hpar, hgpar, u1, (u4' i).2.1, (u4' i).2.2.1, ti1, ti2, List.head?_cons, Option.some_or, (u4' x).2.1, (u4' y).2.2.1, tx1, ty2]
  generalize hs2 : (s1.dropCircle a).dropCircle k = s2 at *
  have v1' : ∀ j, (s2.heap j).event = (s1.heap j).event ∧ tf (s2.heap j) = tf (s1.heap j) ∧ (s2.heap j).pred = (s1.heap j).pred ∧
      (s2.heap j).succ = (s1.heap j).succ ∧ (s2.heap j).half = (s1.heap j).half ∧ (s2.heap j).face = (s1.heap j).face := by
    intro j
    have := v1 j
    simpa only [noAssoc, Prod.mk.injEq] using this
  have hpl2 : (s2.heap f.id).left = (s.heap f.id).left := by
    have := (v1' f.id).2.1
    simp only [tf, Prod.mk.injEq] at this
    rw [this.2.1, u8]
  have hx := fun j => unlinkChain_noChain s2 i f.id a k x y j
  have hx' : ∀ j, ((s2.unlinkChain i f.id a k x y).heap j).event = (s2.heap j).event ∧ tf ((s2.unlinkChain i f.id a k x y).heap j) = tf (s2.heap j) ∧
      ((s2.unlinkChain i f.id a k x y).heap j).assoc = (s2.heap j).assoc ∧
      ((s2.unlinkChain i f.id a k x y).heap j).half = (s2.heap j).half ∧ ((s2.unlinkChain i f.id a k x y).heap j).face = (s2.heap j).face := by
    intro j
    have := (hx j).1
    simpa only [noChain, Prod.mk.injEq] using this
  -- the two cases: which breakpoint is the parent
  have main : ∃ b, (b = x ∨ b = y) ∧ (f.id = x ∨ f.id = y) ∧ b ≠ f.id ∧ ctxL c ++ (wrap g f.sib).ids ++ ctxR c = P ++ a :: b :: k :: Q ∧
      arcsL c ++ (wrap g f.sib).leaves ++ arcsR c = A ++ a :: k :: B ∧
      (∀ h' : Nat → Node, (∀ j, j ≠ i → j ≠ f.id → (h' j).pred = ((s2.unlinkChain i f.id a k x y).heap j).pred ∧
        (h' j).succ = ((s2.unlinkChain i f.id a k x y).heap j).succ) → Thread h' none (P ++ a :: b :: k :: Q) none) := by
    have hw1 : ctxL c ++ (wrap g f.sib).ids ++ ctxR c = ctxL (g :: c) ++ f.sib.ids ++ ctxR (g :: c) := by
      obtain ⟨b, i, sb⟩ := g
      cases b <;> simp [wrap, T.ids, ctxL, ctxR]
    have hw2 : arcsL c ++ (wrap g f.sib).leaves ++ arcsR c = arcsL (g :: c) ++ f.sib.leaves ++ arcsR (g :: c) := by
      obtain ⟨b, i, sb⟩ := g
      cases b <;> simp [wrap, T.leaves, arcsL, arcsR]
    simp only [tf, Prod.mk.injEq] at r2
    have hthr := hw.thread
    rw [hidsF] at hthr
    cases hb : f.isLeft
    · -- right child: the parent is the left breakpoint
      simp only [hb, Bool.false_eq_true, if_false] at r2
      have e1 : ctxL (f :: g :: c) = ctxL (g :: c) ++ f.sib.ids ++ [f.id] := by simp only [ctxL, hb, Bool.false_eq_true, if_false]
      have e2 : ctxR (f :: g :: c) = ctxR (g :: c) := by simp only [ctxR, hb, Bool.false_eq_true, if_false]
      have e3 : arcsL (f :: g :: c) = arcsL (g :: c) ++ f.sib.leaves := by simp only [arcsL, hb, Bool.false_eq_true, if_false]
      have e4 : arcsR (f :: g :: c) = arcsR (g :: c) := by simp only [arcsR, hb, Bool.false_eq_true, if_false]
      rw [e1] at hL; rw [e2] at hR; rw [e3] at hAL; rw [e4] at hBR
      have hL' : (ctxL (g :: c) ++ f.sib.ids) ++ [f.id] = (P ++ [a]) ++ [x] := by rw [hL]; simp
      obtain ⟨h1, h2⟩ := List.append_inj' hL' rfl
      have h2 : f.id = x := by simpa using h2
      have hleft : (s2.heap f.id).left ≠ some i := by
        rw [hpl2, r2.2.1]
        intro h
        have h5 : i ∈ f.sib.ids := by
          have : f.sib.root = i := by simpa using h
          rw [← this]; exact root_mem _
        have h6 : i ∈ P ++ [a] := by rw [← h1]; simp [h5]
        have h7 := (List.nodup_append.1 hnd).2.2 i
        simp only [List.mem_append, List.mem_singleton] at h6
        rcases h6 with h6 | h6
        · exact h7 h6 i (by simp) rfl
        · exact ai h6.symm
      refine ⟨y, Or.inr rfl, Or.inl h2, by rw [h2]; exact Ne.symm xy, ?_, ?_, ?_⟩
      · rw [hw1, h1, hR]; simp
      · rw [hw2, hAL, hBR]; simp
      · intro h' hh'
        have hheap : ∀ j, (s2.unlinkChain i f.id a k x y).heap j =
            ((s2.mod a (fun n => { n with succ := some y })).mod y (fun n => { n with pred := some a })).heap j := by
          intro j; unfold Beach.unlinkChain; rw [if_neg hleft]
        have := unlink_thread (h := s.heap) (h' := h') (U := P) (V := k :: Q) (u := x) (v := i) (m := a) (k := y) hthr hnd
          (by
            intro j j1 j2
            rw [(hh' j j2 (by rw [h2]; exact j1)).1, hheap, mod_heap]
            by_cases e : j = y
            · subst e; simp
            · rw [if_neg e, if_neg e, mod_heap]
              by_cases e' : j = a
              · subst e'; rw [if_pos rfl]; simp [v1', u4']
              · rw [if_neg e', (v1' j).2.2.1, (u4' j).2.1])
          (by
            intro j j1 j2
            rw [(hh' j j2 (by rw [h2]; exact j1)).2, hheap, mod_heap]
            by_cases e : j = y
            · subst e
              rw [if_pos rfl, if_neg (Ne.symm ay)]
              simp only [mod_heap, if_neg (Ne.symm ay)]
              rw [(v1' j).2.2.2.1, (u4' j).2.2.1]
            · rw [if_neg e, mod_heap]
              by_cases e' : j = a
              · subst e'; rw [if_pos rfl, if_pos rfl]
              · rw [if_neg e', if_neg e', (v1' j).2.2.2.1, (u4' j).2.2.1])
        exact this
    · -- left child: the parent is the right breakpoint
      simp only [hb, if_true] at r2
      have e1 : ctxL (f :: g :: c) = ctxL (g :: c) := by simp only [ctxL, hb, if_true]
      have e2 : ctxR (f :: g :: c) = f.id :: f.sib.ids ++ ctxR (g :: c) := by simp only [ctxR, hb, if_true]
      have e3 : arcsL (f :: g :: c) = arcsL (g :: c) := by simp only [arcsL, hb, if_true]
      have e4 : arcsR (f :: g :: c) = f.sib.leaves ++ arcsR (g :: c) := by simp only [arcsR, hb, if_true]
      rw [e1] at hL; rw [e2] at hR; rw [e3] at hAL; rw [e4] at hBR
      simp only [List.cons_append, List.cons.injEq] at hR
      obtain ⟨h2, h1⟩ := hR
      have hleft : (s2.heap f.id).left = some i := by rw [hpl2, r2.2.1]; rfl
      refine ⟨x, Or.inl rfl, Or.inr h2, by rw [h2]; exact xy, ?_, ?_, ?_⟩
      · rw [hw1, List.append_assoc, h1, hL]; simp
      · rw [hw2, List.append_assoc, hBR, hAL]; simp
      · intro h' hh'
        have hheap : ∀ j, (s2.unlinkChain i f.id a k x y).heap j =
            ((s2.mod k (fun n => { n with pred := some x })).mod x (fun n => { n with succ := some k })).heap j := by
          intro j; unfold Beach.unlinkChain; rw [if_pos hleft]
        have hthr' : Thread s.heap none ((P ++ [a]) ++ x :: i :: y :: k :: Q) none := by simpa using hthr
        have hnd' : ((P ++ [a]) ++ x :: i :: y :: k :: Q).Nodup := by simpa using hnd
        have := unlink_thread (h := s.heap) (h' := h') (U := P ++ [a]) (V := Q) (u := i) (v := y) (m := x) (k := k) hthr' hnd'
          (by
            intro j j1 j2
            rw [(hh' j j1 (by rw [h2]; exact j2)).1, hheap, mod_heap]
            by_cases e : j = x
            · subst e
              rw [if_pos rfl, if_neg xk]
              simp only [mod_heap, if_neg xk]
              rw [(v1' j).2.2.1, (u4' j).2.1]
            · rw [if_neg e, mod_heap]
              by_cases e' : j = k
              · subst e'; rw [if_pos rfl, if_pos rfl]
              · rw [if_neg e', if_neg e', (v1' j).2.2.1, (u4' j).2.1])
          (by
            intro j j1 j2
            rw [(hh' j j1 (by rw [h2]; exact j2)).2, hheap, mod_heap]
            by_cases e : j = x
            · subst e; simp
            · rw [if_neg e, if_neg e, mod_heap]
              by_cases e' : j = k
              · subst e'; rw [if_pos rfl]; simp [v1', u4']
              · rw [if_neg e', (v1' j).2.2.2.1, (u4' j).2.2.1])
        simpa using this
  obtain ⟨b, hbxy, hfxy, hbf, hidsN, hlvN, hthN⟩ := main
  have hif : i ≠ f.id := by rcases hfxy with h | h <;> rw [h]; exact Ne.symm xi; exact iy
  generalize hs3 : s2.unlinkChain i f.id a k x y = s3 at *
  have hNmem : ∀ j ∈ P ++ a :: b :: k :: Q, j ≠ i ∧ j ≠ f.id ∧ j ∈ t.ids := by
    intro j hj
    have h1 := (List.nodup_append.1 hnd).2.2
    simp only [List.mem_append, List.mem_cons] at hj
    rw [hidsF]
    rcases hj with h | rfl | rfl | rfl | h
    · refine ⟨h1 j h i (by simp), ?_, by simp [h]⟩
      rcases hfxy with e | e <;> rw [e] <;> exact h1 j h _ (by simp)
    · refine ⟨ai, ?_, by simp⟩
      rcases hfxy with e | e <;> rw [e]
      · exact ax
      · exact ay
    · refine ⟨?_, hbf, ?_⟩
      · rcases hbxy with e | e <;> rw [e]
        · exact xi
        · exact Ne.symm iy
      · rcases hbxy with e | e <;> simp [e]
    · refine ⟨Ne.symm ik, ?_, by simp⟩
      rcases hfxy with e | e <;> rw [e]
      · exact Ne.symm xk
      · exact Ne.symm yk
    · refine ⟨by rintro rfl; exact iQ h, ?_, by simp [h]⟩
      rcases hfxy with e | e <;> rw [e] <;> rintro rfl
      · exact xQ h
      · exact yQ h
  -- the state before balancing
  have hz : ∀ j ∈ P ++ a :: b :: k :: Q, (s3.zap i f.id).heap j = s3.heap j := fun j hj => zap_heap _ _ _ _ (hNmem j hj).1 (hNmem j hj).2.1
  have hnx : (s3.zap i f.id).next = s.next := by
    show s3.next = s.next
    rw [(hx i).2.1, v2, u5]
  have hRepN := (rep_plug s1.heap c (wrap g f.sib)).2 ⟨u2, u3⟩
  have hRepZ : Rep (s3.zap i f.id).heap none (plug (wrap g f.sib) c) := by
    refine hRepN.frame _ _ (fun j hj => ?_)
    rw [ids_plug, hidsN] at hj
    rw [hz j hj, (hx' j).2.1, (v1' j).2.1]
  obtain ⟨w1, w2⟩ := (rep_plug _ c (wrap g f.sib)).1 hRepZ
  have hndN : (ctxL c ++ (wrap g f.sib).ids ++ ctxR c).Nodup := by
    rw [hidsN]
    refine hnd.sublist ?_
    refine List.Sublist.append (List.Sublist.refl _) (List.Sublist.cons_cons _ ?_)
    rcases hbxy with rfl | rfl
    · exact List.Sublist.cons_cons _ ((List.sublist_cons_self _ _).trans (List.sublist_cons_self _ _))
    · exact (List.sublist_cons_self _ _).trans (List.sublist_cons_self _ _)
  have hbdN : ∀ j ∈ ctxL c ++ (wrap g f.sib).ids ++ ctxR c, j < (s3.zap i f.id).next := by
    intro j hj
    rw [hidsN] at hj
    rw [hnx]
    exact hw.bound j (hNmem j hj).2.2
  have hlen := length_bound hndN hbdN
  have hcl := ctx_length c
  simp only [List.length_append] at hlen hcl
  have hgroot : (wrap g f.sib).root = g.id := by
    obtain ⟨b, i, sb⟩ := g
    cases b <;> rfl
  obtain ⟨s', z1, z2, z3, z4⟩ := rebalance_spec c ((s3.zap i f.id).next + 1) (s3.zap i f.id) (wrap g f.sib) (by omega) w1 w2 hndN hbdN
  rw [hgroot] at z1
  rw [z1]
  have hpl : ∀ j, (s'.heap j).event = (s3.heap j).event ∧ (s'.heap j).assoc = (s3.heap j).assoc ∧
      (s'.heap j).pred = ((s3.zap i f.id).heap j).pred ∧ (s'.heap j).succ = ((s3.zap i f.id).heap j).succ ∧
      (s'.heap j).half = ((s3.zap i f.id).heap j).half ∧ (s'.heap j).face = ((s3.zap i f.id).heap j).face := by
    intro j
    have := z4.rest j
    simp only [rest, Prod.mk.injEq] at this
    rw [← zap_event s3 i f.id j, ← zap_assoc s3 i f.id j]
    simp [this]
  have hassoc : ∀ j, (s'.heap j).assoc = (s2.heap j).assoc := fun j => by rw [(hpl j).2.1, (hx' j).2.2.1]
  have hai : (s'.heap i).assoc = (s.heap i).assoc := by
    rw [hassoc, v5 i _ _ (Ne.symm ai) ik, (u4' i).2.2.2.1]
    · rw [(u4' a).2.2.2.1]; intro h; exact hsep a hal i h hiid
    · rw [(u4' k).2.2.2.1]; intro h; exact hsep k hkl i h hiid
  obtain ⟨cn, hcn⟩ := Option.ne_none_iff_exists'.1 has
  have hids' : (rebal (wrap g f.sib) c).ids = P ++ a :: b :: k :: Q := by rw [ids_rebal, hidsN]
  have hth' : Thread s'.heap none (P ++ a :: b :: k :: Q) none := by
    apply hthN
    intro j j1 j2
    rw [(hpl j).2.2.1, (hpl j).2.2.2.1, zap_heap _ _ _ _ j1 j2]
    exact ⟨rfl, rfl⟩
  have hsucc : (s'.heap a).succ = some b := by
    have h := hth'
    rw [thread_append] at h
    simpa using h.2.2.1
  refine ⟨a, k, x, y, b, s', rebal (wrap g f.sib) c, ?_, ?_⟩
  · simp only [hai, hcn, hsucc]
  · refine ⟨⟨z2, z3, by rw [hids']; exact hth', by rw [hids', ← hidsN]; exact hndN, ?_⟩, ⟨P, Q, hidsF, hids'⟩, ⟨A, B, hlvF, by rw [leaves_rebal, hlvN]⟩,
      hbxy, by rw [z4.next, hnx], ?_, ?_, ⟨by rw [hassoc, v3], by rw [hassoc, v4]⟩, ?_, ?_, ?_⟩
    · intro j hj
      rw [hids'] at hj
      rw [z4.next, hnx]
      exact hw.bound j (hNmem j hj).2.2
    · intro j hj
      rw [hids'] at hj
      simp only [pl, Prod.mk.injEq]
      rw [(hpl j).1, (hpl j).2.2.2.2.1, (hpl j).2.2.2.2.2, hz j hj, (hx' j).1, (hx' j).2.2.2.1, (hx' j).2.2.2.2,
        (v1' j).1, (v1' j).2.2.2.2.1, (v1' j).2.2.2.2.2, (u4' j).1, (u4' j).2.2.2.2.1, (u4' j).2.2.2.2.2]
      simp
    · intro j
      rw [(hpl j).1, (hx' j).1, (v1' j).1, (u4' j).1]
    · intro j j1 j2 j3 j4
      rw [hassoc, v5 j (by rw [(u4' a).2.2.2.1]; exact j1) (by rw [(u4' k).2.2.2.1]; exact j2) j3 j4, (u4' j).2.2.2.1]
    · intro j
      rw [hassoc]
      rcases v6 j with h | h
      · left; rw [h, (u4' j).2.2.2.1]
      · right; exact h
    · intro e
      have : s'.valid = s2.valid := by
        rw [z4.valid]
        exact (hx i).2.2
      rw [this, v7, u6]
      simp only [(u4' _).1, (u4' a).2.2.2.1, (u4' k).2.2.2.1]

end Verif.Voronoi

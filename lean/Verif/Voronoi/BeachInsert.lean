import Verif.Voronoi.BeachRot

/-! `insertNewLeaf`. -/
namespace Verif.Voronoi

/-- the beach line `s` is the tree `t`: one tree from the root pointer down, whose left-to-right order is the chain -/
structure WF (s : Beach) (t : T) : Prop where
  rep : Rep s.heap none t
  root : s.root = some t.root
  thread : Thread s.heap none t.ids none
  nodup : t.ids.Nodup
  bound : ∀ i ∈ t.ids, i < s.next

/-- everything of a node but its associated circle -/
def noAssoc (n : Node) : Nat × (Option Nat × Option Nat × Option Nat) × Option Nat × Option Nat × Option Nat × Option Nat :=
  (n.event, tf n, n.pred, n.succ, n.half, n.face)

theorem dropCircle_spec (s : Beach) (i : Nat) : (∀ j, noAssoc ((s.dropCircle i).heap j) = noAssoc (s.heap j)) ∧
    (s.dropCircle i).next = s.next ∧ (s.dropCircle i).root = s.root ∧ ((s.dropCircle i).heap i).assoc = none ∧
    (∀ j, (s.heap i).assoc ≠ some j → j ≠ i → ((s.dropCircle i).heap j).assoc = (s.heap j).assoc) ∧
    (∀ j, ((s.dropCircle i).heap j).assoc = (s.heap j).assoc ∨ ((s.dropCircle i).heap j).assoc = none) ∧
    (∀ e, (s.dropCircle i).valid e = (s.valid e && !((s.heap i).assoc.any (fun c => (s.heap c).event == e)))) := by
  unfold Beach.dropCircle
  cases h : (s.heap i).assoc with
  | none => simp [h]
  | some c =>
    refine ⟨fun j => ?_, rfl, rfl, ?_, fun j hj hji => ?_, fun j => ?_, fun e => ?_⟩
    · by_cases e1 : j = i
      · subst e1
        by_cases e2 : j = c
        · subst e2; simp [Beach.mod, Beach.invalidate, noAssoc, tf]
        · simp [Beach.mod, Beach.invalidate, noAssoc, tf, e2]
      · by_cases e2 : j = c
        · subst e2; simp [Beach.mod, Beach.invalidate, noAssoc, tf, e1]
        · simp [Beach.mod, Beach.invalidate, noAssoc, tf, e1, e2]
    · simp [Beach.mod]
    · have : j ≠ c := by rintro rfl; exact hj rfl
      simp [Beach.mod, Beach.invalidate, hji, this]
    · by_cases e1 : j = i
      · right; simp [Beach.mod, e1]
      · by_cases e2 : j = c
        · right; subst e2; simp [Beach.mod, e1]
        · left; simp [Beach.mod, Beach.invalidate, e1, e2]
    · by_cases e1 : e = (s.heap c).event
      · simp [Beach.mod, Beach.invalidate, e1]
      · have : ((s.heap c).event == e) = false := by simp; exact fun h => e1 h.symm
        simp [Beach.mod, Beach.invalidate, e1, this]

theorem alloc4_heap (s : Beach) (ev i : Nat) (hi : i < s.next) : (s.alloc4 ev i).next = s.next + 4 ∧ (s.alloc4 ev i).root = s.root ∧
    (s.alloc4 ev i).valid = s.valid ∧ (∀ j, j < s.next → (s.alloc4 ev i).heap j = s.heap j) ∧
    (s.alloc4 ev i).heap s.next = { event := ev } ∧ (s.alloc4 ev i).heap (s.next + 1) = s.heap i ∧
    (s.alloc4 ev i).heap (s.next + 2) = { event := ev } ∧ (s.alloc4 ev i).heap (s.next + 3) = { event := ev } := by
  refine ⟨rfl, rfl, rfl, fun j hj => ?_, ?_, ?_, ?_, ?_⟩
  · have h1 : j ≠ s.next := by omega
    have h2 : j ≠ s.next + 1 := by omega
    have h3 : j ≠ s.next + 1 + 1 := by omega
    have h4 : j ≠ s.next + 1 + 1 + 1 := by omega
    simp [Beach.alloc4, Beach.push, h1, h2, h3, h4]
  · simp [Beach.alloc4, Beach.push]
  · have : i ≠ s.next := by omega
    simp [Beach.alloc4, Beach.push, this]
  · simp [Beach.alloc4, Beach.push]
  · simp [Beach.alloc4, Beach.push]

theorem linkTree_spec (s : Beach) (i nw lf bk tp : Nat) (c : List Fr) (hd : [i, nw, lf, bk, tp].Nodup)
    (hi : Rep s.heap (ctxParent c) (.leaf i)) (hnw : (s.heap nw).left = none ∧ (s.heap nw).right = none)
    (hlf : (s.heap lf).left = none ∧ (s.heap lf).right = none) (hc : RepC s.heap i c)
    (hout : ∀ j ∈ [i, nw, lf, bk, tp], j ∉ ctxL c ∧ j ∉ ctxR c) (hn : (ctxL c ++ ctxR c).Nodup) :
    Rep (s.linkTree i nw lf bk tp).heap (ctxParent c) (.node tp (.node bk (.leaf lf) (.leaf nw)) (.leaf i)) ∧
    RepC (s.linkTree i nw lf bk tp).heap tp c ∧ (∀ j, rest ((s.linkTree i nw lf bk tp).heap j) = rest (s.heap j)) ∧
    (s.linkTree i nw lf bk tp).next = s.next ∧ (s.linkTree i nw lf bk tp).valid = s.valid := by
  have hp : (s.heap i).parent = ctxParent c := by simp only [Rep, tf, Prod.mk.injEq] at hi; exact hi.1
  simp only [Rep, tf, Prod.mk.injEq] at hi
  have hc0 : RepC (s.mod tp (fun n => { n with parent := ctxParent c })).heap i c := by
    refine hc.frame _ _ (fun j hj => ?_)
    have : j ≠ tp := by rintro rfl; have := hout j (by simp); tauto
    simp [Beach.mod, this]
  obtain ⟨c1, c2, c3, c4, c5, c6⟩ := replaceChild_spec (s.mod tp (fun n => { n with parent := ctxParent c })) c i tp hc0 (hout i (by simp)) hn
  have hk : ∀ j ∈ [i, nw, lf, bk, tp], ((s.mod tp (fun n => { n with parent := ctxParent c })).replaceChild (ctxParent c) i tp).heap j =
      (s.mod tp (fun n => { n with parent := ctxParent c })).heap j := by
    intro j hj
    apply c2
    intro e
    have := ctxParent_mem e
    have := hout j hj
    tauto
  have hrest : ∀ j, rest ((s.mod tp (fun n => { n with parent := ctxParent c })).heap j) = rest (s.heap j) := by
    intro j; by_cases e : j = tp <;> simp [Beach.mod, rest, e]
  simp only [List.nodup_cons, List.mem_cons, List.not_mem_nil, or_false, not_or, not_false_eq_true, List.nodup_nil, and_true] at hd
  obtain ⟨⟨d1, d2, d3, d4⟩, ⟨d5, d6, d7⟩, ⟨d8, d9⟩, d10⟩ := hd
  have ki := hk i (by simp)
  have kn := hk nw (by simp)
  have kl := hk lf (by simp)
  have kb := hk bk (by simp)
  have kt := hk tp (by simp)
  have e1 : (s.mod tp (fun n => { n with parent := ctxParent c })).heap i = s.heap i := by simp [Beach.mod, d4]
  have e2 : (s.mod tp (fun n => { n with parent := ctxParent c })).heap nw = s.heap nw := by simp [Beach.mod, d7]
  have e3 : (s.mod tp (fun n => { n with parent := ctxParent c })).heap lf = s.heap lf := by simp [Beach.mod, d9]
  have e4 : (s.mod tp (fun n => { n with parent := ctxParent c })).heap bk = s.heap bk := by simp [Beach.mod, d10]
  have e5 : (s.mod tp (fun n => { n with parent := ctxParent c })).heap tp = { s.heap tp with parent := ctxParent c } := by simp [Beach.mod]
  rw [e1] at ki; rw [e2] at kn; rw [e3] at kl; rw [e4] at kb; rw [e5] at kt
  unfold Beach.linkTree
  simp only [hp]
  generalize (s.mod tp (fun n => { n with parent := ctxParent c })).replaceChild (ctxParent c) i tp = s1 at *
  have n1 : s1.next = s.next := c4
  have n2 : s1.valid = s.valid := c5
  clear hk c6 hc0
  refine ⟨⟨?_, ⟨?_, ?_, ?_⟩, ?_⟩, ?_, fun j => ?_, n1, n2⟩
  · simp [Beach.mod, tf, kt, Ne.symm d4, Ne.symm d7, Ne.symm d9, Ne.symm d10, d4, d7, d9, d10]
  · simp [Beach.mod, tf, kb, Ne.symm d3, Ne.symm d6, Ne.symm d8, d10]
  · simp [Beach.mod, Rep, tf, kl, hlf, Ne.symm d2, Ne.symm d5, d8, d9]
  · simp [Beach.mod, Rep, tf, kn, hnw, Ne.symm d1, d5, d6, d7]
  · simp [Beach.mod, Rep, tf, ki, hi, d1, d2, d3, d4]
  · refine c1.frame _ _ (fun j hj => ?_)
    have j1 : j ≠ i := by rintro rfl; have := hout j (by simp); tauto
    have j2 : j ≠ nw := by rintro rfl; have := hout j (by simp); tauto
    have j3 : j ≠ lf := by rintro rfl; have := hout j (by simp); tauto
    have j4 : j ≠ bk := by rintro rfl; have := hout j (by simp); tauto
    have j5 : j ≠ tp := by rintro rfl; have := hout j (by simp); tauto
    simp [Beach.mod, j1, j2, j3, j4, j5]
  · rw [← hrest j, ← c3 j]
    simp only [Beach.mod]
    by_cases j1 : j = nw
    · subst j1; simp [rest, d5, d6, d7, Ne.symm d1]
    · by_cases j2 : j = lf
      · subst j2; simp [rest, j1, d8, d9, Ne.symm d2]
      · by_cases j3 : j = bk
        · subst j3; simp [rest, j1, j2, d10, Ne.symm d3]
        · by_cases j4 : j = i
          · subst j4; simp [rest, d1, d2, d3, d4]
          · by_cases j5 : j = tp
            · subst j5; simp [rest, j1, j2, j3, j4]
            · simp [rest, j1, j2, j3, j4, j5]

/-- the fields of a node outside the chain -/
def noChain (n : Node) : Nat × (Option Nat × Option Nat × Option Nat) × Option Nat × Option Nat × Option Nat :=
  (n.event, tf n, n.assoc, n.half, n.face)

theorem mod_heap (s : Beach) (i : Nat) (f : Node → Node) (j : Nat) : (s.mod i f).heap j = if j = i then f (s.heap i) else s.heap j := rfl

theorem mod_noChain (s : Beach) (i : Nat) (f : Node → Node) (hf : ∀ n, noChain (f n) = noChain n) (j : Nat) :
    noChain ((s.mod i f).heap j) = noChain (s.heap j) := by
  rw [mod_heap]
  by_cases e : j = i
  · rw [if_pos e, hf, e]
  · rw [if_neg e]

theorem linkChain_spec (s : Beach) (i nw lf bk tp : Nat) (P Q : List Nat) (hd : [i, nw, lf, bk, tp].Nodup)
    (hn : (P ++ i :: Q).Nodup) (hout : ∀ j ∈ [nw, lf, bk, tp], j ∉ P ∧ j ∉ Q) (ht : Thread s.heap none (P ++ i :: Q) none) :
    Thread (s.linkChain i nw lf bk tp).heap none (P ++ lf :: bk :: nw :: tp :: i :: Q) none ∧
    (∀ j, noChain ((s.linkChain i nw lf bk tp).heap j) = noChain (s.heap j)) ∧
    (s.linkChain i nw lf bk tp).next = s.next ∧ (s.linkChain i nw lf bk tp).root = s.root ∧ (s.linkChain i nw lf bk tp).valid = s.valid ∧
    (∀ j, j ∉ P ++ lf :: bk :: nw :: tp :: i :: Q → (s.linkChain i nw lf bk tp).heap j = s.heap j) := by
  rw [thread_append] at ht
  obtain ⟨t1, t2, t3, t4⟩ := ht
  simp only [List.head?_cons, Option.or_none] at t1 t2 t3
  have hq : (s.heap i).pred = P.getLast? := by rw [t2]
  simp only [List.nodup_cons, List.mem_cons, List.not_mem_nil, or_false, not_or, not_false_eq_true, List.nodup_nil, and_true] at hd
  obtain ⟨⟨d1, d2, d3, d4⟩, ⟨d5, d6, d7⟩, ⟨d8, d9⟩, d10⟩ := hd
  have hnP := List.nodup_append.1 hn
  have hiP : i ∉ P := fun h => hnP.2.2 i h i (by simp) rfl
  have hiQ : i ∉ Q := (List.nodup_cons.1 hnP.2.1).1
  -- the heap, node by node
  have hheap : ∀ j, (s.linkChain i nw lf bk tp).heap j =
      if j = i then { s.heap i with pred := some tp } else
      if j = tp then { s.heap tp with pred := some nw, succ := some i } else
      if j = nw then { s.heap nw with pred := some bk, succ := some tp } else
      if j = bk then { s.heap bk with pred := some lf, succ := some nw } else
      if j = lf then { s.heap lf with pred := P.getLast?, succ := some bk } else
      if P.getLast? = some j then { s.heap j with succ := some lf } else s.heap j := by
    intro j
    unfold Beach.linkChain
    simp only [hq]
    have hset : ∀ (s2 : Beach) k, (s2.setSuccOf P.getLast? lf).heap k = if P.getLast? = some k then { s2.heap k with succ := some lf } else s2.heap k := by
      intro s2 k
      unfold Beach.setSuccOf
      cases hl : P.getLast? with
      | none => simp
      | some a =>
        simp only [Option.some.injEq, mod_heap]
        by_cases e : k = a
        · subst e; simp
        · rw [if_neg e, if_neg (Ne.symm e)]
    have hlast : ∀ k, k ∉ P → P.getLast? ≠ some k := by
      intro k hk e
      exact hk (List.mem_of_getLast? e)
    have l1 := hlast i hiP
    have l2 := hlast nw (hout nw (by simp)).1
    have l3 := hlast lf (hout lf (by simp)).1
    have l4 := hlast bk (hout bk (by simp)).1
    have l5 := hlast tp (hout tp (by simp)).1
    by_cases j1 : j = i
    · subst j1; simp [mod_heap, hset, d1, d2, d3, d4, l1]
    · by_cases j2 : j = tp
      · subst j2; simp [mod_heap, hset, j1, Ne.symm d7, Ne.symm d9, Ne.symm d10, l5]
      · by_cases j3 : j = nw
        · subst j3; simp [mod_heap, hset, j1, j2, d5, d6, l2]
        · by_cases j4 : j = bk
          · subst j4; simp [mod_heap, hset, j1, j2, j3, Ne.symm d8, l4]
          · by_cases j5 : j = lf
            · subst j5; simp [mod_heap, hset, j1, j2, j3, j4, l3]
            · simp [mod_heap, hset, j1, j2, j3, j4, j5]
  refine ⟨?_, fun j => ?_, ?_, ?_, ?_, fun j hj => ?_⟩
  · rw [thread_append]
    refine ⟨?_, ?_, ?_, ?_, ?_, ?_, ?_, ?_, ?_, ?_, ?_, ?_⟩
    · simp only [List.head?_cons]
      rcases List.eq_nil_or_concat P with rfl | ⟨P', a, rfl⟩
      · trivial
      · rw [List.concat_eq_append] at *
        rw [thread_append] at t1 ⊢
        obtain ⟨u1, u2, u3, _⟩ := t1
        have hla : (P' ++ [a]).getLast? = some a := by simp
        have hmem : ∀ k, k ∈ P' ++ [a] → k ≠ i ∧ k ≠ tp ∧ k ≠ nw ∧ k ≠ bk ∧ k ≠ lf := by
          intro k hk
          refine ⟨?_, ?_, ?_, ?_, ?_⟩ <;> rintro rfl
          · exact hiP hk
          · exact (hout k (by simp)).1 hk
          · exact (hout k (by simp)).1 hk
          · exact (hout k (by simp)).1 hk
          · exact (hout k (by simp)).1 hk
        refine ⟨u1.frame _ _ _ (fun k hk => ?_), ?_, ?_, trivial⟩
        · obtain ⟨k1, k2, k3, k4, k5⟩ := hmem k (by simp [hk])
          rw [hheap, if_neg k1, if_neg k2, if_neg k3, if_neg k4, if_neg k5, hla]
          have : a ≠ k := by
            rintro rfl
            exact (List.nodup_append.1 hnP.1).2.2 a hk a (by simp) rfl
          simp [this]
        · obtain ⟨k1, k2, k3, k4, k5⟩ := hmem a (by simp)
          rw [hheap, if_neg k1, if_neg k2, if_neg k3, if_neg k4, if_neg k5, hla, if_pos rfl]
          exact u2
        · obtain ⟨k1, k2, k3, k4, k5⟩ := hmem a (by simp)
          rw [hheap, if_neg k1, if_neg k2, if_neg k3, if_neg k4, if_neg k5, hla, if_pos rfl]
          rfl
    · rw [hheap, if_neg (Ne.symm d2), if_neg d9, if_neg (Ne.symm d5), if_neg d8, if_pos rfl]; simp
    · rw [hheap, if_neg (Ne.symm d2), if_neg d9, if_neg (Ne.symm d5), if_neg d8, if_pos rfl]; simp
    · rw [hheap, if_neg (Ne.symm d3), if_neg d10, if_neg (Ne.symm d6), if_pos rfl]
    · rw [hheap, if_neg (Ne.symm d3), if_neg d10, if_neg (Ne.symm d6), if_pos rfl]; simp
    · rw [hheap, if_neg (Ne.symm d1), if_neg d7, if_pos rfl]
    · rw [hheap, if_neg (Ne.symm d1), if_neg d7, if_pos rfl]; simp
    · rw [hheap, if_neg (Ne.symm d4), if_pos rfl]
    · rw [hheap, if_neg (Ne.symm d4), if_pos rfl]; simp
    · rw [hheap, if_pos rfl]
    · rw [hheap, if_pos rfl]; simp [t3]
    · refine t4.frame _ _ _ (fun k hk => ?_)
      have k1 : k ≠ i := by rintro rfl; exact hiQ hk
      have k2 : k ≠ tp := by rintro rfl; exact (hout k (by simp)).2 hk
      have k3 : k ≠ nw := by rintro rfl; exact (hout k (by simp)).2 hk
      have k4 : k ≠ bk := by rintro rfl; exact (hout k (by simp)).2 hk
      have k5 : k ≠ lf := by rintro rfl; exact (hout k (by simp)).2 hk
      have k6 : P.getLast? ≠ some k := by
        intro e
        exact hnP.2.2 k (List.mem_of_getLast? e) k (by simp [hk]) rfl
      rw [hheap, if_neg k1, if_neg k2, if_neg k3, if_neg k4, if_neg k5, if_neg k6]
      exact ⟨rfl, rfl⟩
  · rw [hheap]
    by_cases j1 : j = i
    · subst j1; simp [noChain, tf]
    · by_cases j2 : j = tp
      · subst j2; simp [j1, noChain, tf]
      · by_cases j3 : j = nw
        · subst j3; simp [j1, j2, noChain, tf]
        · by_cases j4 : j = bk
          · subst j4; simp [j1, j2, j3, noChain, tf]
          · by_cases j5 : j = lf
            · subst j5; simp [j1, j2, j3, j4, noChain, tf]
            · by_cases j6 : P.getLast? = some j <;> simp [j1, j2, j3, j4, j5, j6, noChain, tf]
  · unfold Beach.linkChain Beach.setSuccOf; simp only [hq]; cases P.getLast? <;> rfl
  · unfold Beach.linkChain Beach.setSuccOf; simp only [hq]; cases P.getLast? <;> rfl
  · unfold Beach.linkChain Beach.setSuccOf; simp only [hq]; cases P.getLast? <;> rfl
  · simp only [List.mem_append, List.mem_cons, not_or] at hj
    obtain ⟨k0, k1, k2, k3, k4, k5, _⟩ := hj
    have k6 : P.getLast? ≠ some j := fun e => k0 (List.mem_of_getLast? e)
    rw [hheap, if_neg k5, if_neg k4, if_neg k3, if_neg k2, if_neg k1, if_neg k6]

/-- event, half edge and face of a node -/
def pl (n : Node) : Nat × Option Nat × Option Nat := (n.event, n.half, n.face)

theorem ctx_length (c : List Fr) : c.length ≤ (ctxL c ++ ctxR c).length := by
  induction c with
  | nil => simp
  | cons f c ih =>
    simp only [ctxL, ctxR, List.length_append, List.length_cons] at *
    cases f.isLeft <;> simp <;> omega

/-- splitting a leaf, before the balancing -/
theorem splitLeaf_spec (s : Beach) (t : T) (hw : WF s t) (ev i : Nat) (c : List Fr) (hc : plug (.leaf i) c = t) :
    (s.splitLeaf ev i).1 = s.next ∧ (s.splitLeaf ev i).2.next = s.next + 4 ∧
    Rep (s.splitLeaf ev i).2.heap (ctxParent c) (.node (s.next + 3) (.node (s.next + 2) (.leaf (s.next + 1)) (.leaf s.next)) (.leaf i)) ∧
    RepC (s.splitLeaf ev i).2.heap (s.next + 3) c ∧
    Thread (s.splitLeaf ev i).2.heap none (ctxL c ++ (s.next + 1) :: (s.next + 2) :: s.next :: (s.next + 3) :: i :: ctxR c) none ∧
    (∀ j, j < s.next → pl ((s.splitLeaf ev i).2.heap j) = pl (s.heap j) ∧ ((s.splitLeaf ev i).2.heap j).assoc = ((s.dropCircle i).heap j).assoc) ∧
    (s.splitLeaf ev i).2.valid = (s.dropCircle i).valid ∧
    (∀ j, j = s.next ∨ j = s.next + 2 ∨ j = s.next + 3 → pl ((s.splitLeaf ev i).2.heap j) = (ev, none, none) ∧ ((s.splitLeaf ev i).2.heap j).assoc = none) ∧
    pl ((s.splitLeaf ev i).2.heap (s.next + 1)) = pl (s.heap i) ∧ ((s.splitLeaf ev i).2.heap (s.next + 1)).assoc = none := by
  subst hc
  have hids := ids_plug c (.leaf i)
  have hL : ∀ j ∈ ctxL c, j < s.next := fun j hj => hw.bound j (by rw [hids]; simp [hj])
  have hR : ∀ j ∈ ctxR c, j < s.next := fun j hj => hw.bound j (by rw [hids]; simp [hj])
  have hi : i < s.next := hw.bound i (by rw [hids]; simp [T.ids])
  have hnd := hw.nodup
  rw [hids] at hnd
  obtain ⟨d1, d2, d3⟩ := ctx_disj hnd
  have hii := d2 i (by simp [T.ids])
  have hrep := (rep_plug s.heap c (.leaf i)).1 hw.rep
  obtain ⟨q1, q2, q3, q4, q5, q6, q7⟩ := dropCircle_spec s i
  have q1' : ∀ j, tf ((s.dropCircle i).heap j) = tf (s.heap j) ∧ ((s.dropCircle i).heap j).pred = (s.heap j).pred ∧
      ((s.dropCircle i).heap j).succ = (s.heap j).succ ∧ pl ((s.dropCircle i).heap j) = pl (s.heap j) := by
    intro j
    have := q1 j
    simp only [noAssoc, Prod.mk.injEq] at this
    simp [pl, this]
  unfold Beach.splitLeaf
  simp only [q2]
  generalize s.dropCircle i = s0 at *
  obtain ⟨a1, a2, a3, a4, a5, a6, a7, a8⟩ := alloc4_heap s0 ev i (by rw [q2]; exact hi)
  rw [q2] at a1 a4 a5 a6 a7 a8
  generalize s0.alloc4 ev i = s1 at *
  have hrep1 : Rep s1.heap (ctxParent c) (.leaf i) := by
    refine hrep.1.frame _ _ (fun j hj => ?_)
    simp only [T.ids, List.mem_singleton] at hj
    rw [hj, a4 i hi, (q1' i).1]
  have hrepc1 : RepC s1.heap i c := by
    refine hrep.2.frame _ _ (fun j hj => ?_)
    rw [a4 j (by rcases hj with h | h; exact hL j h; exact hR j h), (q1' j).1]
  have hth : Thread s1.heap none (ctxL c ++ i :: ctxR c) none := by
    have := hw.thread
    rw [hids] at this
    simp only [T.ids, List.append_assoc, List.singleton_append] at this
    refine this.frame _ _ _ (fun j hj => ?_)
    have hj' : j < s.next := by
      simp only [List.mem_append, List.mem_cons] at hj
      rcases hj with h | rfl | h
      · exact hL j h
      · exact hi
      · exact hR j h
    rw [a4 j hj']
    exact ⟨(q1' j).2.1, (q1' j).2.2.1⟩
  have hdist : [i, s.next, s.next + 1, s.next + 2, s.next + 3].Nodup := by
    simp only [List.nodup_cons, List.mem_cons, List.not_mem_nil, or_false, not_or, not_false_eq_true, List.nodup_nil, and_true]
    omega
  have houtc : ∀ j ∈ [s.next, s.next + 1, s.next + 2, s.next + 3], j ∉ ctxL c ∧ j ∉ ctxR c := by
    intro j hj
    refine ⟨fun h => ?_, fun h => ?_⟩
    · have := hL j h; simp at hj; omega
    · have := hR j h; simp at hj; omega
  have hlf : (s1.heap (s.next + 1)).left = none ∧ (s1.heap (s.next + 1)).right = none := by
    rw [a6]
    have h1 := hrep.1
    simp only [Rep] at h1
    have h2 := (q1' i).1
    rw [h1] at h2
    simp only [tf, Prod.mk.injEq] at h2
    exact h2.2
  obtain ⟨l1, l2, l3, l4, l5⟩ := linkTree_spec s1 i s.next (s.next + 1) (s.next + 2) (s.next + 3) c hdist hrep1 (by rw [a5]; simp) hlf hrepc1
    (by
      intro j hj
      rw [List.mem_cons] at hj
      rcases hj with rfl | hj
      · exact hii
      · exact houtc j hj) d1
  generalize s1.linkTree i s.next (s.next + 1) (s.next + 2) (s.next + 3) = s2 at *
  have hth2 : Thread s2.heap none (ctxL c ++ i :: ctxR c) none := by
    refine hth.frame _ _ _ (fun j _ => ?_)
    have := l3 j
    simp only [rest, Prod.mk.injEq] at this
    exact ⟨this.2.1, this.2.2.1⟩
  obtain ⟨m1, m2, m3, m4, m5, m6⟩ := linkChain_spec s2 i s.next (s.next + 1) (s.next + 2) (s.next + 3) (ctxL c) (ctxR c) hdist
    (by simpa [T.ids] using hnd) houtc hth2
  generalize s2.linkChain i s.next (s.next + 1) (s.next + 2) (s.next + 3) = s3 at *
  have hfin : ∀ j, tf (s3.heap j) = tf (s2.heap j) ∧ pl (s3.heap j) = pl (s1.heap j) ∧ (s3.heap j).assoc = (s1.heap j).assoc := by
    intro j
    have e1 := m2 j
    have e2 := l3 j
    simp only [noChain, Prod.mk.injEq] at e1
    simp only [rest, Prod.mk.injEq] at e2
    simp [pl, e1, e2]
  refine ⟨trivial, by rw [m3, l4, a1], l1.frame _ _ (fun j _ => (hfin j).1), l2.frame _ _ (fun j _ => (hfin j).1), m1, ?_, by rw [m5, l5, a3], ?_, ?_, ?_⟩
  · intro j hj
    rw [(hfin j).2.1, (hfin j).2.2, a4 j hj]
    exact ⟨(q1' j).2.2.2, rfl⟩
  · intro j hj
    rw [(hfin j).2.1, (hfin j).2.2]
    rcases hj with rfl | rfl | rfl
    · rw [a5]; exact ⟨rfl, rfl⟩
    · rw [a7]; exact ⟨rfl, rfl⟩
    · rw [a8]; exact ⟨rfl, rfl⟩
  · rw [(hfin _).2.1, a6]; exact (q1' i).2.2.2
  · rw [(hfin _).2.2, a6]; exact q4

theorem ids_getLast (t : T) : t.ids.getLast? = t.leaves.getLast? := by
  induction t with
  | leaf i => rfl
  | node i l r ihl ihr =>
    simp only [T.ids, T.leaves]
    rw [List.getLast?_append, List.getLast?_append, List.getLast?_cons, ihr]
    have := leaves_ne r
    cases h : r.leaves.getLast? with
    | none => simp at h; exact absurd h this
    | some a => simp

theorem ids_head (t : T) : t.ids.head? = t.leaves.head? := by
  induction t with
  | leaf i => rfl
  | node i l r ihl ihr =>
    simp only [T.ids, T.leaves]
    rw [List.head?_append, List.head?_append, ihl]
    have := leaves_ne l
    cases h : l.leaves.head? with
    | none => simp at h; exact absurd h this
    | some a => simp

/-- chain neighbours of an inner node -/
theorem node_nbrs {h : Nat → Node} {i : Nat} {l r : T} {p n : Option Nat} (ht : Thread h p (T.node i l r).ids n) :
    Thread h p l.ids (some i) ∧ Thread h (some i) r.ids n ∧ (h i).pred = l.leaves.getLast? ∧ (h i).succ = r.leaves.head? := by
  simp only [T.ids] at ht
  rw [thread_append] at ht
  obtain ⟨t1, t2, t3, t4⟩ := ht
  refine ⟨by simpa using t1, t4, ?_, ?_⟩
  · rw [t2, ids_getLast]
    have := leaves_ne l
    cases hl : l.leaves.getLast? with
    | none => simp at hl; exact absurd hl this
    | some a => rfl
  · rw [t3, ids_head]
    have := leaves_ne r
    cases hl : r.leaves.head? with
    | none => simp at hl; exact absurd hl this
    | some a => rfl

theorem findBest_spec (toLeft : Nat → Nat → Bool) (h : Nat → Node) (t : T) : ∀ p q n f, Rep h p t → Thread h q t.ids n → t.height < f →
    ∃ i ∈ t.leaves, Beach.findBest toLeft h f (some t.root) = some (some i) := by
  induction t with
  | leaf i =>
    intro p q n f hr ht hf
    obtain ⟨f, rfl⟩ : ∃ g, f = g + 1 := ⟨f - 1, by omega⟩
    simp only [Rep, tf, Prod.mk.injEq] at hr
    exact ⟨i, by simp [T.leaves], by simp [Beach.findBest, hr]⟩
  | node i l r ihl ihr =>
    intro p q n f hr ht hf
    obtain ⟨f, rfl⟩ : ∃ g, f = g + 1 := ⟨f - 1, by omega⟩
    obtain ⟨h1, h2, h3⟩ := hr
    simp only [tf, Prod.mk.injEq] at h1
    simp only [T.height] at hf
    obtain ⟨t1, t2, t3, t4⟩ := node_nbrs ht
    obtain ⟨a, ha⟩ : ∃ a, l.leaves.getLast? = some a := by
      cases hl : l.leaves.getLast? with
      | none => simp at hl; exact absurd hl (leaves_ne l)
      | some a => exact ⟨a, rfl⟩
    obtain ⟨b, hb⟩ : ∃ b, r.leaves.head? = some b := by
      cases hl : r.leaves.head? with
      | none => simp at hl; exact absurd hl (leaves_ne r)
      | some a => exact ⟨a, rfl⟩
    rw [ha] at t3
    rw [hb] at t4
    rw [root_node]
    simp only [Beach.findBest, h1.2.1, h1.2.2, t3, t4]
    by_cases hd : toLeft (h a).event (h b).event = true
    · rw [if_pos hd]
      obtain ⟨k, k1, k2⟩ := ihl _ _ _ f h2 t1 (by omega)
      exact ⟨k, by simp [T.leaves, k1], k2⟩
    · rw [if_neg hd]
      obtain ⟨k, k1, k2⟩ := ihr _ _ _ f h3 t2 (by omega)
      exact ⟨k, by simp [T.leaves, k1], k2⟩

/-- The search finds arc number `k` when the comparisons say "left" exactly for the breakpoints at or after arc `k`. -/
theorem findBest_at (toLeft : Nat → Nat → Bool) (h : Nat → Node) (t : T) : ∀ p q n f k, Rep h p t → Thread h q t.ids n → t.height < f →
    k < t.leaves.length → (∀ j a b, t.leaves[j]? = some a → t.leaves[j + 1]? = some b → toLeft (h a).event (h b).event = decide (k ≤ j)) →
    Beach.findBest toLeft h f (some t.root) = (t.leaves[k]?).map some := by
  induction t with
  | leaf i =>
    intro p q n f k hr ht hf hk _
    obtain ⟨f, rfl⟩ : ∃ g, f = g + 1 := ⟨f - 1, by omega⟩
    simp only [Rep, tf, Prod.mk.injEq] at hr
    simp only [T.leaves, List.length_singleton, Nat.lt_one_iff] at hk
    subst hk
    simp [Beach.findBest, hr, T.leaves]
  | node i l r ihl ihr =>
    intro p q n f k hr ht hf hk hto
    obtain ⟨f, rfl⟩ : ∃ g, f = g + 1 := ⟨f - 1, by omega⟩
    obtain ⟨h1, h2, h3⟩ := hr
    simp only [tf, Prod.mk.injEq] at h1
    simp only [T.height] at hf
    obtain ⟨t1, t2, t3, t4⟩ := node_nbrs ht
    have hll : 0 < l.leaves.length := List.length_pos_iff.2 (leaves_ne l)
    have hrl : 0 < r.leaves.length := List.length_pos_iff.2 (leaves_ne r)
    obtain ⟨a, ha⟩ : ∃ a, l.leaves.getLast? = some a := by
      cases hl : l.leaves.getLast? with
      | none => simp at hl; exact absurd hl (leaves_ne l)
      | some a => exact ⟨a, rfl⟩
    obtain ⟨b, hb⟩ : ∃ b, r.leaves.head? = some b := by
      cases hl : r.leaves.head? with
      | none => simp at hl; exact absurd hl (leaves_ne r)
      | some a => exact ⟨a, rfl⟩
    rw [ha] at t3
    rw [hb] at t4
    simp only [T.leaves, List.length_append] at hk hto
    have hcmp : toLeft (h a).event (h b).event = decide (k ≤ l.leaves.length - 1) := by
      apply hto
      · rw [List.getElem?_append_left (by omega), ← List.getLast?_eq_getElem?]; exact ha
      · rw [List.getElem?_append_right (by omega), show l.leaves.length - 1 + 1 - l.leaves.length = 0 by omega, ← List.head?_eq_getElem?]; exact hb
    rw [root_node]
    simp only [Beach.findBest, h1.2.1, h1.2.2, t3, t4, hcmp, decide_eq_true_eq, T.leaves]
    by_cases hd : k ≤ l.leaves.length - 1
    · rw [if_pos hd, List.getElem?_append_left (by omega)]
      apply ihl _ _ _ f k h2 t1 (by omega) (by omega)
      intro j a' b' ja jb
      have hj : j + 1 < l.leaves.length := by
        by_contra hcon
        rw [List.getElem?_eq_none (by omega)] at jb
        simp at jb
      exact hto j a' b' (by rw [List.getElem?_append_left (by omega)]; exact ja) (by rw [List.getElem?_append_left (by omega)]; exact jb)
    · rw [if_neg hd, List.getElem?_append_right (by omega)]
      apply ihr _ _ _ f (k - l.leaves.length) h3 t2 (by omega) (by omega)
      intro j a' b' ja jb
      rw [hto (l.leaves.length + j) a' b' (by rw [List.getElem?_append_right (by omega)]; simpa using ja)
        (by rw [List.getElem?_append_right (by omega)]; rw [show l.leaves.length + j + 1 - l.leaves.length = j + 1 by omega]; exact jb)]
      simp only [decide_eq_decide]
      omega

/-- what an insertion at leaf `i` does -/
structure Inserted (s s' : Beach) (t t' : T) (ev i : Nat) : Prop where
  wf : WF s' t'
  ids : ∃ P Q, t.ids = P ++ i :: Q ∧ t'.ids = P ++ (s.next + 1) :: (s.next + 2) :: s.next :: (s.next + 3) :: i :: Q
  leaves : ∃ A B, t.leaves = A ++ i :: B ∧ t'.leaves = A ++ (s.next + 1) :: s.next :: i :: B
  next : s'.next = s.next + 4
  valid : s'.valid = (s.dropCircle i).valid
  old : ∀ j, j < s.next → pl (s'.heap j) = pl (s.heap j) ∧ (s'.heap j).assoc = ((s.dropCircle i).heap j).assoc
  new : ∀ j, j = s.next ∨ j = s.next + 2 ∨ j = s.next + 3 → pl (s'.heap j) = (ev, none, none) ∧ (s'.heap j).assoc = none
  copy : pl (s'.heap (s.next + 1)) = pl (s.heap i) ∧ (s'.heap (s.next + 1)).assoc = none

theorem wf_fuel {s : Beach} {t : T} (hw : WF s t) : t.height < s.next + 1 := by
  have := height_lt t
  have := length_bound hw.nodup hw.bound
  omega

theorem insert_at (toLeft : Nat → Nat → Bool) (s : Beach) (t : T) (hw : WF s t) (ev i : Nat) (hi : i ∈ t.leaves)
    (hf : Beach.findBest toLeft s.heap (s.next + 1) s.root = some (some i)) :
    ∃ s' t', s.insert toLeft ev = some (s.next, s') ∧ Inserted s s' t t' ev i := by
  obtain ⟨c, hc⟩ := exists_ctx t i hi
  obtain ⟨p1, p2, p3, p4, p5, p6, p7, p8, p9, p10⟩ := splitLeaf_spec s t hw ev i c hc
  have hids : t.ids = ctxL c ++ [i] ++ ctxR c := by rw [← hc, ids_plug]; rfl
  have hlv : t.leaves = arcsL c ++ [i] ++ arcsR c := by rw [← hc, leaves_plug]; rfl
  unfold Beach.insert
  rw [hf]
  simp only [p1]
  generalize hsp : (s.splitLeaf ev i).2 = s1 at *
  -- the context of the new leaf
  have hctx : plug (.leaf s.next) (⟨false, s.next + 2, .leaf (s.next + 1)⟩ :: ⟨true, s.next + 3, .leaf i⟩ :: c) =
      plug (.node (s.next + 3) (.node (s.next + 2) (.leaf (s.next + 1)) (.leaf s.next)) (.leaf i)) c := rfl
  have hrep : Rep s1.heap none (plug (.leaf s.next) (⟨false, s.next + 2, .leaf (s.next + 1)⟩ :: ⟨true, s.next + 3, .leaf i⟩ :: c)) := by
    rw [hctx]
    exact (rep_plug _ _ _).2 ⟨p3, p4⟩
  obtain ⟨g1, g2⟩ := (rep_plug _ _ _).1 hrep
  have hnew : ctxL (⟨false, s.next + 2, .leaf (s.next + 1)⟩ :: ⟨true, s.next + 3, .leaf i⟩ :: c) ++ (T.leaf s.next).ids ++
      ctxR (⟨false, s.next + 2, .leaf (s.next + 1)⟩ :: ⟨true, s.next + 3, .leaf i⟩ :: c) =
      ctxL c ++ (s.next + 1) :: (s.next + 2) :: s.next :: (s.next + 3) :: i :: ctxR c := by
    simp [ctxL, ctxR, T.ids]
  have hbd : ∀ j ∈ ctxL c ++ (s.next + 1) :: (s.next + 2) :: s.next :: (s.next + 3) :: i :: ctxR c, j < s1.next := by
    intro j hj
    have h1 := hw.bound j
    rw [hids] at h1
    rw [p2]
    simp only [List.mem_append, List.mem_cons, List.not_mem_nil, or_false] at hj h1
    rcases hj with h | rfl | rfl | rfl | rfl | rfl | h <;> first | omega | (have := h1 (by tauto); omega)
  have hnd : (ctxL c ++ (s.next + 1) :: (s.next + 2) :: s.next :: (s.next + 3) :: i :: ctxR c).Nodup := by
    have h0 := hw.nodup
    have hb := hw.bound
    rw [hids] at h0 hb
    rw [List.append_assoc] at h0
    have h1 := List.nodup_append.1 h0
    have hLb : ∀ j ∈ ctxL c, j < s.next := fun j hj => hb j (by simp [hj])
    have hRb : ∀ j ∈ i :: ctxR c, j < s.next := fun j hj => hb j (by simp at hj ⊢; tauto)
    refine List.nodup_append.2 ⟨h1.1, ?_, ?_⟩
    · have e : ∀ k, s.next ≤ k → k ∉ i :: ctxR c := fun k hk hm => by have := hRb k hm; omega
      refine List.nodup_cons.2 ⟨?_, List.nodup_cons.2 ⟨?_, List.nodup_cons.2 ⟨?_, List.nodup_cons.2 ⟨e _ (by omega), h1.2.1⟩⟩⟩⟩
      · simp only [List.mem_cons, not_or]
        have := e (s.next + 1) (by omega)
        simp only [List.mem_cons, not_or] at this
        exact ⟨by omega, by omega, by omega, this⟩
      · simp only [List.mem_cons, not_or]
        have := e (s.next + 2) (by omega)
        simp only [List.mem_cons, not_or] at this
        exact ⟨by omega, by omega, this⟩
      · simp only [List.mem_cons, not_or]
        have := e (s.next) (by omega)
        simp only [List.mem_cons, not_or] at this
        exact ⟨by omega, this⟩
    · intro a ha b hb' e
      subst e
      have := hLb a ha
      simp only [List.mem_cons] at hb'
      rcases hb' with h | h | h | h | h | h
      · omega
      · omega
      · omega
      · omega
      · exact h1.2.2 a ha a (by simp [h]) rfl
      · exact h1.2.2 a ha a (by simp [h]) rfl
  have hlen := length_bound hnd hbd
  have hcl := ctx_length c
  simp only [List.length_append, List.length_cons] at hlen hcl
  obtain ⟨s', z1, z2, z3, z4⟩ := rebalance_spec (⟨false, s.next + 2, .leaf (s.next + 1)⟩ :: ⟨true, s.next + 3, .leaf i⟩ :: c) (s1.next + 1) s1
    (.leaf s.next) (by simp only [List.length_cons]; omega) g1 g2 (by rw [hnew]; exact hnd) (by rw [hnew]; exact hbd)
  have z1' : Beach.rebalance (s1.next + 1) s1 s.next = some s' := z1
  rw [z1']
  have hids' : (rebal (.leaf s.next) (⟨false, s.next + 2, .leaf (s.next + 1)⟩ :: ⟨true, s.next + 3, .leaf i⟩ :: c)).ids =
      ctxL c ++ (s.next + 1) :: (s.next + 2) :: s.next :: (s.next + 3) :: i :: ctxR c := by rw [ids_rebal, hnew]
  have hpl : ∀ j, pl (s'.heap j) = pl (s1.heap j) ∧ (s'.heap j).assoc = (s1.heap j).assoc ∧ (s'.heap j).pred = (s1.heap j).pred ∧ (s'.heap j).succ = (s1.heap j).succ := by
    intro j
    have := z4.rest j
    simp only [rest, Prod.mk.injEq] at this
    simp [pl, this]
  refine ⟨s', _, rfl, ⟨z2, z3, ?_, ?_, ?_⟩, ⟨ctxL c, ctxR c, by simp [hids], hids'⟩, ⟨arcsL c, arcsR c, by simp [hlv], ?_⟩, ?_, ?_, ?_, ?_, ?_⟩
  · rw [hids']
    exact p5.frame _ _ _ (fun j _ => ⟨(hpl j).2.2.1, (hpl j).2.2.2⟩)
  · rw [hids']; exact hnd
  · rw [hids', z4.next]; exact hbd
  · rw [leaves_rebal]; simp [arcsL, arcsR, T.leaves]
  · rw [z4.next, p2]
  · rw [z4.valid, p7]
  · intro j hj
    rw [(hpl j).1, (hpl j).2.1]
    exact p6 j hj
  · intro j hj
    rw [(hpl j).1, (hpl j).2.1]
    exact p8 j hj
  · rw [(hpl _).1, (hpl _).2.1]
    exact ⟨p9, p10⟩

/-- inserting into a beach line splits one of its arcs -/
theorem insert_wf (toLeft : Nat → Nat → Bool) (s : Beach) (t : T) (hw : WF s t) (ev : Nat) :
    ∃ i s' t', i ∈ t.leaves ∧ s.insert toLeft ev = some (s.next, s') ∧ Inserted s s' t t' ev i := by
  obtain ⟨i, hi, hf⟩ := findBest_spec toLeft s.heap t none none none (s.next + 1) hw.rep hw.thread (wf_fuel hw)
  rw [← hw.root] at hf
  obtain ⟨s', t', h1, h2⟩ := insert_at toLeft s t hw ev i hi hf
  exact ⟨i, s', t', hi, h1, h2⟩

/-- the first arc -/
theorem insert_empty (toLeft : Nat → Nat → Bool) (s : Beach) (hs : s.root = none) (ev : Nat) :
    ∃ s', s.insert toLeft ev = some (s.next, s') ∧ WF s' (.leaf s.next) ∧ s'.next = s.next + 1 ∧ s'.valid = s.valid ∧
      s'.heap s.next = { event := ev } ∧ (∀ j, j ≠ s.next → s'.heap j = s.heap j) := by
  refine ⟨{ s.push { event := ev } with root := some s.next }, ?_, ⟨?_, rfl, ?_, by simp [T.ids], ?_⟩, rfl, rfl, ?_, ?_⟩
  · simp [Beach.insert, hs, Beach.findBest, Beach.rebalance, Beach.balanceNode, Beach.push]
  · simp [Rep, tf, Beach.push]
  · simp [Thread, T.ids, Beach.push]
  · intro i hi; simp [T.ids] at hi; simp [Beach.push, hi]
  · simp [Beach.push]
  · intro j hj; simp [Beach.push, hj]

end Verif.Voronoi

import Mathlib.Data.List.Perm.Subperm
import Verif.Voronoi.BeachTree

/-! Rotations and `rebalance`. -/
namespace Verif.Voronoi

/-- everything of a node but its tree pointers -/
def rest (n : Node) : Nat × Option Nat × Option Nat × Option Nat × Option Nat × Option Nat := (n.event, n.pred, n.succ, n.assoc, n.half, n.face)

/-- what one call of the balancing does to a subtree (BeachLine.cxx:543-561 seen on trees) -/
def fix : T → T
  | .leaf i => .leaf i
  | .node i l r =>
    if r.height + 2 < l.height then
      match l with
      | .node j a b => .node j a (.node i b r)
      | .leaf j => .node i (.leaf j) r
    else if l.height + 2 < r.height then
      match r with
      | .node j a b => .node j (.node i l a) b
      | .leaf j => .node i l (.leaf j)
    else .node i l r

/-- what `rebalance` does to the tree: balance, then go up -/
def rebal (t : T) : List Fr → T
  | [] => fix t
  | f :: c => rebal (wrap f (fix t)) c

theorem ids_fix (t : T) : (fix t).ids = t.ids := by
  cases t with
  | leaf i => rfl
  | node i l r =>
    simp only [fix]
    by_cases h1 : r.height + 2 < l.height
    · rw [if_pos h1]; cases l <;> simp [T.ids]
    · rw [if_neg h1]
      by_cases h2 : l.height + 2 < r.height
      · rw [if_pos h2]; cases r <;> simp [T.ids]
      · rw [if_neg h2]

theorem leaves_fix (t : T) : (fix t).leaves = t.leaves := by
  cases t with
  | leaf i => rfl
  | node i l r =>
    simp only [fix]
    by_cases h1 : r.height + 2 < l.height
    · rw [if_pos h1]; cases l <;> simp [T.leaves]
    · rw [if_neg h1]
      by_cases h2 : l.height + 2 < r.height
      · rw [if_pos h2]; cases r <;> simp [T.leaves]
      · rw [if_neg h2]

theorem ids_rebal (c : List Fr) : ∀ t, (rebal t c).ids = ctxL c ++ t.ids ++ ctxR c := by
  induction c with
  | nil => intro t; simp [rebal, ids_fix, ctxL, ctxR]
  | cons f c ih =>
    intro t
    show (rebal (wrap f (fix t)) c).ids = _
    rw [ih]
    obtain ⟨b, i, s⟩ := f
    cases b <;> simp [wrap, T.ids, ctxL, ctxR, ids_fix]

theorem leaves_rebal (c : List Fr) : ∀ t, (rebal t c).leaves = arcsL c ++ t.leaves ++ arcsR c := by
  induction c with
  | nil => intro t; simp [rebal, leaves_fix, arcsL, arcsR]
  | cons f c ih =>
    intro t
    show (rebal (wrap f (fix t)) c).leaves = _
    rw [ih]
    obtain ⟨b, i, s⟩ := f
    cases b <;> simp [wrap, T.leaves, arcsL, arcsR, leaves_fix]

theorem treeDepth_spec (h : Nat → Node) (t : T) : ∀ p f, Rep h p t → t.height < f → Beach.treeDepth h f t.root = some t.height := by
  induction t with
  | leaf i =>
    intro p f hr hf
    obtain ⟨f, rfl⟩ : ∃ g, f = g + 1 := ⟨f - 1, by omega⟩
    simp only [Rep, tf, Prod.mk.injEq] at hr
    simp only [Beach.treeDepth, T.root, hr.2.1, hr.2.2, T.height]
  | node i l r ihl ihr =>
    intro p f hr hf
    obtain ⟨f, rfl⟩ : ∃ g, f = g + 1 := ⟨f - 1, by omega⟩
    obtain ⟨h1, h2, h3⟩ := hr
    simp only [tf, Prod.mk.injEq] at h1
    simp only [T.height] at hf
    show Beach.treeDepth h (f + 1) i = _
    simp only [Beach.treeDepth, h1.2.1, h1.2.2, ihl _ f h2 (by omega), ihr _ f h3 (by omega), T.height]

theorem height_lt (t : T) : t.height < t.ids.length := by
  induction t with
  | leaf i => simp [T.height, T.ids]
  | node i l r ihl ihr => simp [T.height, T.ids]; omega

theorem length_bound {l : List Nat} (hn : l.Nodup) {n : Nat} (hb : ∀ i ∈ l, i < n) : l.length ≤ n := by
  have := List.Subperm.length_le (l₁ := l) (l₂ := List.range n) (List.Nodup.subperm hn (fun i hi => List.mem_range.2 (hb i hi)))
  simpa using this

/-- the state of `s'` differs from `s` only in tree pointers of nodes of `xs` and in the root -/
structure OnlyTree (s s' : Beach) (xs : List Nat) : Prop where
  next : s'.next = s.next
  valid : s'.valid = s.valid
  rest : ∀ j, rest (s'.heap j) = rest (s.heap j)
  out : ∀ j, j ∉ xs → s'.heap j = s.heap j

theorem OnlyTree.refl (s : Beach) (xs : List Nat) : OnlyTree s s xs := ⟨rfl, rfl, fun _ => rfl, fun _ _ => rfl⟩

theorem OnlyTree.trans {s s' s'' : Beach} {xs : List Nat} (h : OnlyTree s s' xs) (h' : OnlyTree s' s'' xs) : OnlyTree s s'' xs :=
  ⟨h'.next.trans h.next, h'.valid.trans h.valid, fun j => (h'.rest j).trans (h.rest j), fun j hj => (h'.out j hj).trans (h.out j hj)⟩

theorem ctx_cons_nodup' {f : Fr} {c : List Fr} {u : List Nat} (hn : (ctxL (f :: c) ++ u ++ ctxR (f :: c)).Nodup) :
    (ctxL (f :: c) ++ ctxR (f :: c)).Nodup ∧ (∀ j ∈ u, j ∉ ctxL (f :: c) ∧ j ∉ ctxR (f :: c)) ∧ u.Nodup := by
  rw [List.append_assoc] at hn
  have h1 := List.nodup_append.1 hn
  have h2 := List.nodup_append.1 h1.2.1
  refine ⟨List.nodup_append.2 ⟨h1.1, h2.2.1, fun a ha b hb => h1.2.2 a ha b (by simp [hb])⟩, fun j hj => ⟨fun h => ?_, fun h => ?_⟩, h2.1⟩
  · exact h1.2.2 j h j (by simp [hj]) rfl
  · exact h2.2.2 j hj j h rfl

/-- `replaceChild` under a context -/
theorem replaceChild_spec (s : Beach) (c : List Fr) (old new : Nat) (hr : RepC s.heap old c) (hold : old ∉ ctxL c ∧ old ∉ ctxR c)
    (hn : (ctxL c ++ ctxR c).Nodup) : RepC (s.replaceChild (ctxParent c) old new).heap new c ∧
    (∀ j, ctxParent c ≠ some j → (s.replaceChild (ctxParent c) old new).heap j = s.heap j) ∧
    (∀ j, rest ((s.replaceChild (ctxParent c) old new).heap j) = rest (s.heap j)) ∧
    (s.replaceChild (ctxParent c) old new).next = s.next ∧ (s.replaceChild (ctxParent c) old new).valid = s.valid ∧
    (ctxParent c = none → (s.replaceChild (ctxParent c) old new).root = some new) := by
  cases c with
  | nil => simp [ctxParent, Beach.replaceChild, RepC]
  | cons f c =>
    have hr0 := hr
    obtain ⟨h1, h2, h3⟩ := hr
    obtain ⟨n1, n2, n3⟩ := ctx_cons_nodup hn
    simp only [tf, Prod.mk.injEq] at h1
    have hsib : f.sib.root ≠ old := by
      rintro rfl
      have := (ctx_cons_mem f c f.sib.root).2 (Or.inr (Or.inl (root_mem _)))
      tauto
    simp only [ctxParent, Beach.replaceChild]
    cases hb : f.isLeft
    · simp only [hb, Bool.false_eq_true, if_false] at h1
      rw [if_neg (by rw [h1.2.1]; simpa using hsib)]
      refine ⟨?_, ?_, ?_, rfl, rfl, by simp⟩
      · apply hr0.setChild _ _ hn
        · simp [Beach.mod, tf, h1, hb]
        · intro j hj _; simp [Beach.mod, hj]
      · intro j hj
        have : j ≠ f.id := fun e => hj (by rw [e])
        simp [Beach.mod, this]
      · intro j; by_cases e : j = f.id <;> simp [Beach.mod, rest, e]
    · simp only [hb, if_true] at h1
      rw [if_pos h1.2.1]
      refine ⟨?_, ?_, ?_, rfl, rfl, by simp⟩
      · apply hr0.setChild _ _ hn
        · simp [Beach.mod, tf, h1, hb]
        · intro j hj _; simp [Beach.mod, hj]
      · intro j hj
        have : j ≠ f.id := fun e => hj (by rw [e])
        simp [Beach.mod, this]
      · intro j; by_cases e : j = f.id <;> simp [Beach.mod, rest, e]

/-- the membership facts used by both rotations -/
theorem ctx_disj {c : List Fr} {u : List Nat} (hn : (ctxL c ++ u ++ ctxR c).Nodup) :
    (ctxL c ++ ctxR c).Nodup ∧ (∀ j ∈ u, j ∉ ctxL c ∧ j ∉ ctxR c) ∧ u.Nodup := by
  rw [List.append_assoc] at hn
  have h1 := List.nodup_append.1 hn
  have h2 := List.nodup_append.1 h1.2.1
  refine ⟨List.nodup_append.2 ⟨h1.1, h2.2.1, fun a ha b hb => h1.2.2 a ha b (by simp [hb])⟩, fun j hj => ⟨fun h => ?_, fun h => ?_⟩, h2.1⟩
  · exact h1.2.2 j h j (by simp [hj]) rfl
  · exact h2.2.2 j hj j h rfl

theorem rotateLeft_spec (s : Beach) (i j : Nat) (a b r : T) (c : List Fr)
    (hr : Rep s.heap (ctxParent c) (.node i (.node j a b) r)) (hc : RepC s.heap i c)
    (hn : (ctxL c ++ (T.node i (.node j a b) r).ids ++ ctxR c).Nodup) :
    ∃ s', s.rotateLeft i = some (j, s') ∧ Rep s'.heap (ctxParent c) (.node j a (.node i b r)) ∧ RepC s'.heap j c ∧
      OnlyTree s s' (ctxL c ++ (T.node i (.node j a b) r).ids ++ ctxR c) := by
  obtain ⟨d1, d2, d3⟩ := ctx_disj hn
  have hi := d2 i (by simp [T.ids])
  have hjm := d2 j (by simp [T.ids])
  have hbm := d2 b.root (by simp [T.ids, root_mem])
  obtain ⟨c1, c2, c3, c4, c5, c6⟩ := replaceChild_spec s c i j hc hi d1
  have hout : ∀ k, k ∉ ctxL c → k ∉ ctxR c → (s.replaceChild (ctxParent c) i j).heap k = s.heap k := by
    intro k k1 k2
    apply c2
    intro e
    have := ctxParent_mem e
    tauto
  obtain ⟨r1, ⟨r2, r3, r4⟩, r5⟩ := hr
  have hpi : (s.heap i).parent = ctxParent c := by simp only [tf, Prod.mk.injEq] at r1; exact r1.1
  have hli : (s.heap i).left = some j := by simp only [tf, Prod.mk.injEq] at r1; exact r1.2.1
  have hrj : (s.heap j).right = some b.root := by simp only [tf, Prod.mk.injEq] at r2; exact r2.2.2
  -- distinctness
  simp only [T.ids, List.append_assoc, List.cons_append] at d3
  have e1 := List.nodup_append.1 d3
  have e2 := List.nodup_cons.1 e1.2.1
  have e3 := List.nodup_append.1 e2.2
  have e4 := List.nodup_cons.1 e3.2.1
  have hij : i ≠ j := by rintro rfl; exact e2.1 (by simp)
  have hib : i ≠ b.root := by intro e; exact e3.2.2 b.root (root_mem b) i (by simp) e.symm
  have hjb : j ≠ b.root := by intro e; exact e2.1 (by rw [e]; simp [root_mem])
  have hai : ∀ k ∈ a.ids, k ≠ i ∧ k ≠ j ∧ k ≠ b.root := fun k hk =>
    ⟨fun e => e1.2.2 k hk i (by simp) e, fun e => e1.2.2 k hk j (by simp) e, fun e => e1.2.2 k hk b.root (by simp [root_mem]) e⟩
  have hbi : ∀ k ∈ b.ids, k ≠ i ∧ k ≠ j := fun k hk =>
    ⟨fun e => e3.2.2 k hk i (by simp) e, fun e => e2.1 (by rw [← e]; simp [hk])⟩
  have hri : ∀ k ∈ r.ids, k ≠ i ∧ k ≠ j ∧ k ≠ b.root := fun k hk =>
    ⟨fun e => e4.1 (by rw [← e]; exact hk), fun e => e2.1 (by rw [← e]; simp [hk]), fun e => e3.2.2 b.root (root_mem b) k (by simp [hk]) e.symm⟩
  unfold Beach.rotateLeft
  rw [hli]
  simp only [hpi]
  generalize hs1 : s.replaceChild (ctxParent c) i j = s1 at *
  have hs1j : (s1.heap j).right = some b.root := by rw [hout j hjm.1 hjm.2]; exact hrj
  have hm : ((((s1.mod j fun n => { n with parent := ctxParent c }).mod i fun n => { n with parent := some j })).heap j).right = some b.root := by
    simp [Beach.mod, hij.symm, hs1j]
  rw [hm]
  refine ⟨_, rfl, ?_, ?_, ?_⟩
  · refine ⟨?_, ?_, ?_, ?_, ?_⟩
    · simp only [tf, Prod.mk.injEq] at r2
      simp [Beach.mod, tf, hij, hij.symm, hjb, hout j hjm.1 hjm.2, r2]
    · refine r3.frame _ _ (fun k hk => ?_)
      obtain ⟨k1, k2, k3⟩ := hai k hk
      have := d2 k (by simp [T.ids, hk])
      simp [Beach.mod, tf, k1, k2, k3, hout k this.1 this.2]
    · simp only [tf, Prod.mk.injEq] at r1
      simp [Beach.mod, tf, hij, hij.symm, hib, hout i hi.1 hi.2, r1]
    · refine r4.reparent e3.1 ?_ (fun k hk hne => ?_)
      · simp [Beach.mod, tf, hib.symm, hjb.symm, hout b.root hbm.1 hbm.2]
      · obtain ⟨k1, k2⟩ := hbi k hk
        have := d2 k (by simp [T.ids, hk])
        simp [Beach.mod, tf, k1, k2, hne, hout k this.1 this.2]
    · refine r5.frame _ _ (fun k hk => ?_)
      obtain ⟨k1, k2, k3⟩ := hri k hk
      have := d2 k (by simp [T.ids, hk])
      simp [Beach.mod, tf, k1, k2, k3, hout k this.1 this.2]
  · refine c1.frame _ _ (fun k hk => ?_)
    have k1 : k ≠ i := by rintro rfl; tauto
    have k2 : k ≠ j := by rintro rfl; tauto
    have k3 : k ≠ b.root := by rintro rfl; tauto
    simp [Beach.mod, tf, k1, k2, k3]
  · refine ⟨c4, c5, fun k => ?_, fun k hk => ?_⟩
    · rw [← c3 k]
      by_cases k1 : k = i
      · subst k1; simp [Beach.mod, rest, hij, hib]
      · by_cases k2 : k = j
        · subst k2; simp [Beach.mod, rest, k1, hjb]
        · by_cases k3 : k = b.root
          · subst k3; simp [Beach.mod, rest, k1, k2]
          · simp [Beach.mod, rest, k1, k2, k3]
    · have hk' : k ∉ ctxL c ∧ k ∉ (T.node i (.node j a b) r).ids ∧ k ∉ ctxR c := by
        simp only [List.mem_append, not_or] at hk; tauto
      have k1 : k ≠ i := by rintro rfl; exact hk'.2.1 (by simp [T.ids])
      have k2 : k ≠ j := by rintro rfl; exact hk'.2.1 (by simp [T.ids])
      have k3 : k ≠ b.root := by rintro rfl; exact hk'.2.1 (by simp [T.ids, root_mem])
      simp [Beach.mod, k1, k2, k3, hout k hk'.1 hk'.2.2]

theorem rotateRight_spec (s : Beach) (i j : Nat) (l a b : T) (c : List Fr)
    (hr : Rep s.heap (ctxParent c) (.node i l (.node j a b))) (hc : RepC s.heap i c)
    (hn : (ctxL c ++ (T.node i l (.node j a b)).ids ++ ctxR c).Nodup) :
    ∃ s', s.rotateRight i = some (j, s') ∧ Rep s'.heap (ctxParent c) (.node j (.node i l a) b) ∧ RepC s'.heap j c ∧
      OnlyTree s s' (ctxL c ++ (T.node i l (.node j a b)).ids ++ ctxR c) := by
  obtain ⟨d1, d2, d3⟩ := ctx_disj hn
  have hi := d2 i (by simp [T.ids])
  have hjm := d2 j (by simp [T.ids])
  have ham := d2 a.root (by simp [T.ids, root_mem])
  obtain ⟨c1, c2, c3, c4, c5, c6⟩ := replaceChild_spec s c i j hc hi d1
  have hout : ∀ k, k ∉ ctxL c → k ∉ ctxR c → (s.replaceChild (ctxParent c) i j).heap k = s.heap k := by
    intro k k1 k2
    apply c2
    intro e
    have := ctxParent_mem e
    tauto
  obtain ⟨r1, r5, r2, r3, r4⟩ := hr
  have hpi : (s.heap i).parent = ctxParent c := by simp only [tf, Prod.mk.injEq] at r1; exact r1.1
  have hri' : (s.heap i).right = some j := by simp only [tf, Prod.mk.injEq] at r1; exact r1.2.2
  have hlj : (s.heap j).left = some a.root := by simp only [tf, Prod.mk.injEq] at r2; exact r2.2.1
  -- distinctness
  simp only [T.ids] at d3
  have e1 := List.nodup_append.1 d3
  have e2 := List.nodup_cons.1 e1.2.1
  have e3 := List.nodup_append.1 e2.2
  have e4 := List.nodup_cons.1 e3.2.1
  have hij : i ≠ j := by rintro rfl; exact e2.1 (by simp)
  have hia : i ≠ a.root := by intro e; exact e2.1 (by rw [e]; simp [root_mem])
  have hja : j ≠ a.root := by intro e; exact e3.2.2 a.root (root_mem a) j (by simp) e.symm
  have hli : ∀ k ∈ l.ids, k ≠ i ∧ k ≠ j ∧ k ≠ a.root := fun k hk =>
    ⟨fun e => e1.2.2 k hk i (by simp) e, fun e => e1.2.2 k hk j (by simp) e, fun e => e1.2.2 k hk a.root (by simp [root_mem]) e⟩
  have hai : ∀ k ∈ a.ids, k ≠ i ∧ k ≠ j := fun k hk =>
    ⟨fun e => e2.1 (by rw [← e]; simp [hk]), fun e => e3.2.2 k hk j (by simp) e⟩
  have hbi : ∀ k ∈ b.ids, k ≠ i ∧ k ≠ j ∧ k ≠ a.root := fun k hk =>
    ⟨fun e => e2.1 (by rw [← e]; simp [hk]), fun e => e4.1 (by rw [← e]; exact hk), fun e => e3.2.2 a.root (root_mem a) k (by simp [hk]) e.symm⟩
  unfold Beach.rotateRight
  rw [hri']
  simp only [hpi]
  generalize hs1 : s.replaceChild (ctxParent c) i j = s1 at *
  have hs1j : (s1.heap j).left = some a.root := by rw [hout j hjm.1 hjm.2]; exact hlj
  have hm : ((((s1.mod j fun n => { n with parent := ctxParent c }).mod i fun n => { n with parent := some j })).heap j).left = some a.root := by
    simp [Beach.mod, hij.symm, hs1j]
  rw [hm]
  refine ⟨_, rfl, ?_, ?_, ?_⟩
  · refine ⟨?_, ⟨?_, ?_, ?_⟩, ?_⟩
    · simp only [tf, Prod.mk.injEq] at r2
      simp [Beach.mod, tf, hij, hij.symm, hja, hout j hjm.1 hjm.2, r2]
    · simp only [tf, Prod.mk.injEq] at r1
      simp [Beach.mod, tf, hij, hij.symm, hia, hout i hi.1 hi.2, r1]
    · refine r5.frame _ _ (fun k hk => ?_)
      obtain ⟨k1, k2, k3⟩ := hli k hk
      have := d2 k (by simp [T.ids, hk])
      simp [Beach.mod, tf, k1, k2, k3, hout k this.1 this.2]
    · refine r3.reparent e3.1 ?_ (fun k hk hne => ?_)
      · simp [Beach.mod, tf, hia.symm, hja.symm, hout a.root ham.1 ham.2]
      · obtain ⟨k1, k2⟩ := hai k hk
        have := d2 k (by simp [T.ids, hk])
        simp [Beach.mod, tf, k1, k2, hne, hout k this.1 this.2]
    · refine r4.frame _ _ (fun k hk => ?_)
      obtain ⟨k1, k2, k3⟩ := hbi k hk
      have := d2 k (by simp [T.ids, hk])
      simp [Beach.mod, tf, k1, k2, k3, hout k this.1 this.2]
  · refine c1.frame _ _ (fun k hk => ?_)
    have k1 : k ≠ i := by rintro rfl; tauto
    have k2 : k ≠ j := by rintro rfl; tauto
    have k3 : k ≠ a.root := by rintro rfl; tauto
    simp [Beach.mod, tf, k1, k2, k3]
  · refine ⟨c4, c5, fun k => ?_, fun k hk => ?_⟩
    · rw [← c3 k]
      by_cases k1 : k = i
      · subst k1; simp [Beach.mod, rest, hij, hia]
      · by_cases k2 : k = j
        · subst k2; simp [Beach.mod, rest, k1, hja]
        · by_cases k3 : k = a.root
          · subst k3; simp [Beach.mod, rest, k1, k2]
          · simp [Beach.mod, rest, k1, k2, k3]
    · have hk' : k ∉ ctxL c ∧ k ∉ (T.node i l (.node j a b)).ids ∧ k ∉ ctxR c := by
        simp only [List.mem_append, not_or] at hk; tauto
      have k1 : k ≠ i := by rintro rfl; exact hk'.2.1 (by simp [T.ids])
      have k2 : k ≠ j := by rintro rfl; exact hk'.2.1 (by simp [T.ids])
      have k3 : k ≠ a.root := by rintro rfl; exact hk'.2.1 (by simp [T.ids, root_mem])
      simp [Beach.mod, k1, k2, k3, hout k hk'.1 hk'.2.2]

/-- one balancing step -/
theorem balanceNode_spec (s : Beach) (t : T) (c : List Fr) (hr : Rep s.heap (ctxParent c) t) (hc : RepC s.heap t.root c)
    (hn : (ctxL c ++ t.ids ++ ctxR c).Nodup) (hb : ∀ i ∈ ctxL c ++ t.ids ++ ctxR c, i < s.next) :
    ∃ s', s.balanceNode t.root = some ((fix t).root, s') ∧ Rep s'.heap (ctxParent c) (fix t) ∧ RepC s'.heap (fix t).root c ∧
      OnlyTree s s' (ctxL c ++ t.ids ++ ctxR c) := by
  cases t with
  | leaf i =>
    simp only [Rep, tf, Prod.mk.injEq] at hr
    refine ⟨s, ?_, ?_, hc, OnlyTree.refl _ _⟩
    · simp [Beach.balanceNode, T.root, hr.2.1, fix]
    · simp only [fix, Rep, tf, Prod.mk.injEq]; exact hr
  | node i l r =>
    have hr0 := hr
    obtain ⟨r1, r2, r3⟩ := hr
    have hlen := length_bound hn hb
    have hl := height_lt l
    have hh := height_lt r
    simp only [T.ids, List.length_append, List.length_cons] at hlen
    have t1 := treeDepth_spec s.heap l _ (s.next + 1) r2 (by omega)
    have t2 := treeDepth_spec s.heap r _ (s.next + 1) r3 (by omega)
    simp only [tf, Prod.mk.injEq] at r1
    have key : s.balanceNode (T.node i l r).root = if r.height + 2 < l.height then s.rotateLeft i else if l.height + 2 < r.height then s.rotateRight i else some (i, s) := by
      show s.balanceNode i = _
      simp only [Beach.balanceNode, r1.2.1, r1.2.2, t1, t2]
    rw [key]
    simp only [fix]
    by_cases h1 : r.height + 2 < l.height
    · rw [if_pos h1, if_pos h1]
      cases l with
      | leaf j => simp [T.height] at h1
      | node j a b => exact rotateLeft_spec s i j a b r c hr0 hc hn
    · rw [if_neg h1, if_neg h1]
      by_cases h2 : l.height + 2 < r.height
      · rw [if_pos h2, if_pos h2]
        cases r with
        | leaf j => simp [T.height] at h2
        | node j a b => exact rotateRight_spec s i j l a b c hr0 hc hn
      · rw [if_neg h2, if_neg h2]
        exact ⟨s, rfl, hr0, hc, OnlyTree.refl _ _⟩

/-- `rebalance` walks to the root, keeps one tree with the same left-to-right order and sets the root pointer. -/
theorem rebalance_spec (c : List Fr) : ∀ (f : Nat) (s : Beach) (t : T), c.length < f → Rep s.heap (ctxParent c) t → RepC s.heap t.root c →
    (ctxL c ++ t.ids ++ ctxR c).Nodup → (∀ i ∈ ctxL c ++ t.ids ++ ctxR c, i < s.next) →
    ∃ s', Beach.rebalance f s t.root = some s' ∧ Rep s'.heap none (rebal t c) ∧ s'.root = some (rebal t c).root ∧
      OnlyTree s s' (ctxL c ++ t.ids ++ ctxR c) := by
  induction c with
  | nil =>
    intro f s t hf hr hc hn hb
    obtain ⟨f, rfl⟩ : ∃ g, f = g + 1 := ⟨f - 1, by simp at hf; omega⟩
    obtain ⟨s', b1, b2, b3, b4⟩ := balanceNode_spec s t [] hr hc hn hb
    refine ⟨{ s' with root := some (fix t).root }, ?_, b2, rfl, ⟨b4.next, b4.valid, b4.rest, b4.out⟩⟩
    simp only [Beach.rebalance, b1]
    rw [b2.tf_root]
    rfl
  | cons fr c ih =>
    intro f s t hf hr hc hn hb
    obtain ⟨f, rfl⟩ : ∃ g, f = g + 1 := ⟨f - 1, by simp at hf; omega⟩
    obtain ⟨s', b1, b2, b3, b4⟩ := balanceNode_spec s t (fr :: c) hr hc hn hb
    have hids : ctxL c ++ (wrap fr (fix t)).ids ++ ctxR c = ctxL (fr :: c) ++ t.ids ++ ctxR (fr :: c) := by
      obtain ⟨b, i, sb⟩ := fr
      cases b <;> simp [wrap, T.ids, ctxL, ctxR, ids_fix]
    have hw : Rep s'.heap (ctxParent c) (wrap fr (fix t)) ∧ RepC s'.heap (wrap fr (fix t)).root c := by
      have := (rep_plug s'.heap (fr :: c) (fix t)).2 ⟨b2, b3⟩
      exact (rep_plug s'.heap c (wrap fr (fix t))).1 this
    have hroot : (wrap fr (fix t)).root = fr.id := by
      obtain ⟨b, i, sb⟩ := fr
      cases b <;> rfl
    obtain ⟨s'', q1, q2, q3, q4⟩ := ih f s' (wrap fr (fix t)) (by simp at hf; omega) hw.1 hw.2 (by rw [hids]; exact hn)
      (by rw [hids, b4.next]; exact hb)
    refine ⟨s'', ?_, q2, q3, ?_⟩
    · simp only [Beach.rebalance, b1]
      rw [b2.tf_root]
      simp only [ctxParent]
      rw [← hroot]
      exact q1
    · rw [hids] at q4
      exact b4.trans q4

end Verif.Voronoi

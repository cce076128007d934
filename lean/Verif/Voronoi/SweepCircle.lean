import Verif.Voronoi.SweepInv

/-! `makeLeftCircleEvent`, `makeRightCircleEvent`. -/
namespace Verif.Voronoi

theorem Chain.unsnoc {φ : Nat → Nat → Nat → Prop} {P : List Nat} {i : Nat} (h : Chain φ (P ++ [i])) :
    P = [] ∨ ∃ P' a x, P = P' ++ [a, x] ∧ φ a x i ∧ Chain φ (P' ++ [a]) := by
  rcases List.eq_nil_or_concat P with rfl | ⟨P1, x, rfl⟩
  · exact Or.inl rfl
  · right
    rw [List.concat_eq_append] at h ⊢
    rw [List.append_assoc] at h
    rcases Chain.split P1 x [i] h with ⟨_, h2⟩ | ⟨P', a, k, Q', e1, e2, h1, h2, h3⟩
    · simp [Chain] at h2
    · simp only [List.cons.injEq] at e2
      exact ⟨P', a, x, by simp [e1], e2.1 ▸ h1, h2⟩

theorem Chain.uncons {φ : Nat → Nat → Nat → Prop} {Q : List Nat} {i : Nat} (h : Chain φ (i :: Q)) :
    Q = [] ∨ ∃ y k Q', Q = y :: k :: Q' ∧ φ i y k ∧ Chain φ (k :: Q') := by
  rcases Q with _ | ⟨y, _ | ⟨k, Q'⟩⟩
  · exact Or.inl rfl
  · simp [Chain] at h
  · exact Or.inr ⟨y, k, Q', rfl, h.1, h.2⟩

theorem Inv.around {o : Oracle} {s : Sweep} {t : T} (hI : Inv o s t) {P Q : List Nat} {i : Nat} (hi : i ∈ t.leaves) (h : t.ids = P ++ i :: Q) :
    Chain (Brk s) (P ++ [i]) ∧ Chain (Brk s) (i :: Q) := by
  have hc := hI.chain
  rw [h] at hc
  rcases Chain.split P i Q hc with h' | ⟨P', a, k, Q', _, _, h1, _, _⟩
  · exact h'
  · exact absurd h1.2.1 ((hI.arc i (leaves_sub t i hi)).1 hi)

/-- an inner arc has four neighbours in the chain -/
theorem Inv.leftOf {o : Oracle} {s : Sweep} {t : T} (hI : Inv o s t) {i : Nat} (hi : i ∈ t.leaves) :
    (s.beach.heap i).pred = none ∨ ∃ x a, (s.beach.heap i).pred = some x ∧ (s.beach.heap x).pred = some a ∧ a ∈ t.leaves ∧
      (s.beach.heap x).succ = some i ∧ (s.beach.heap a).succ = some x ∧ Brk s a x i := by
  obtain ⟨P, Q, h⟩ := List.append_of_mem (leaves_sub t i hi)
  have hth := hI.wf.thread
  rw [h] at hth
  rcases (hI.around hi h).1.unsnoc with rfl | ⟨P', a, x, rfl, h1, _⟩
  · exact Or.inl hth.1
  · right
    have t1 : Thread s.beach.heap none ((P' ++ [a]) ++ x :: i :: Q) none := by simpa using hth
    have t2 : Thread s.beach.heap none (P' ++ a :: x :: (i :: Q)) none := by simpa using hth
    refine ⟨x, a, (thr_link t1).2, (thr_link t2).2, ?_, (thr_link t1).1, (thr_link t2).1, h1⟩
    exact (hI.arc a (by rw [h]; simp)).2 h1.1

theorem Inv.rightOf {o : Oracle} {s : Sweep} {t : T} (hI : Inv o s t) {i : Nat} (hi : i ∈ t.leaves) :
    (s.beach.heap i).succ = none ∨ ∃ y k, (s.beach.heap i).succ = some y ∧ (s.beach.heap y).succ = some k ∧ k ∈ t.leaves ∧
      (s.beach.heap y).pred = some i ∧ (s.beach.heap k).pred = some y ∧ Brk s i y k := by
  obtain ⟨P, Q, h⟩ := List.append_of_mem (leaves_sub t i hi)
  have hth := hI.wf.thread
  rw [h] at hth
  rcases (hI.around hi h).2.uncons with rfl | ⟨y, k, Q', rfl, h1, _⟩
  · exact Or.inl (thr_last hth)
  · right
    have t2 : Thread s.beach.heap none ((P ++ [i]) ++ y :: k :: Q') none := by simpa using hth
    refine ⟨y, k, (thr_link hth).1, (thr_link t2).1, ?_, (thr_link hth).2, (thr_link t2).2, h1⟩
    exact (hI.arc k (by rw [h]; simp)).2 h1.2.2.1

theorem makeLeft_inv {o : Oracle} (ho : ∀ x, o.same x x = true) {s : Sweep} {t : T} (hI : Inv o s t) (leaf e : Nat) (hl : leaf ∈ t.leaves) :
    ∃ s', s.makeLeft o leaf e = some s' ∧ Inv o s' t ∧ s'.nf = s.nf ∧ s'.nv = s.nv ∧ s'.queue.length ≤ s.queue.length + 1 := by
  unfold Sweep.makeLeft
  rcases hI.leftOf hl with h | ⟨p, mid, h1, h2, h3, h4, h5, _⟩
  · rw [h]; exact ⟨s, rfl, hI, rfl, rfl, by omega⟩
  · simp only [h1, h2]
    rcases hI.leftOf h3 with h | ⟨q, edge, g1, g2, _, _, _, _⟩
    · rw [h]; exact ⟨s, rfl, hI, rfl, rfl, by omega⟩
    · simp only [g1, g2]
      by_cases hs : o.same (s.beach.heap leaf).event (s.beach.heap edge).event = true
      · rw [if_pos hs]; exact ⟨s, rfl, hI, rfl, rfl, by omega⟩
      · rw [if_neg hs]
        by_cases hc : o.circle e (s.beach.heap edge).event (s.beach.heap mid).event (s.beach.heap leaf).event = true
        · rw [if_pos hc]
          obtain ⟨_, _, _, _, e5, _, e7, _, e9, _⟩ := attach_other s mid
          refine ⟨_, rfl, attach_inv hI mid h3 ⟨q, edge, p, leaf, g1, g2, h5, h4, ?_⟩, e5, e7, by rw [e9]; simp⟩
          intro h
          exact hs (by rw [h]; exact ho _)
        · rw [if_neg hc]; exact ⟨s, rfl, hI, rfl, rfl, by omega⟩

theorem makeRight_inv {o : Oracle} (ho : ∀ x, o.same x x = true) {s : Sweep} {t : T} (hI : Inv o s t) (leaf e : Nat) (hl : leaf ∈ t.leaves) :
    ∃ s', s.makeRight o leaf e = some s' ∧ Inv o s' t ∧ s'.nf = s.nf ∧ s'.nv = s.nv ∧ s'.queue.length ≤ s.queue.length + 1 := by
  unfold Sweep.makeRight
  rcases hI.rightOf hl with h | ⟨p, mid, h1, h2, h3, h4, h5, _⟩
  · rw [h]; exact ⟨s, rfl, hI, rfl, rfl, by omega⟩
  · simp only [h1, h2]
    rcases hI.rightOf h3 with h | ⟨q, edge, g1, g2, _, _, _, _⟩
    · rw [h]; exact ⟨s, rfl, hI, rfl, rfl, by omega⟩
    · simp only [g1, g2]
      by_cases hs : o.same (s.beach.heap leaf).event (s.beach.heap edge).event = true
      · rw [if_pos hs]; exact ⟨s, rfl, hI, rfl, rfl, by omega⟩
      · rw [if_neg hs]
        by_cases hc : o.circle e (s.beach.heap leaf).event (s.beach.heap mid).event (s.beach.heap edge).event = true
        · rw [if_pos hc]
          obtain ⟨_, _, _, _, e5, _, e7, _, e9, _⟩ := attach_other s mid
          refine ⟨_, rfl, attach_inv hI mid h3 ⟨p, leaf, q, edge, h5, h4, g1, g2, ?_⟩, e5, e7, by rw [e9]; simp⟩
          intro h
          exact hs (by rw [h]; exact ho _)
        · rw [if_neg hc]; exact ⟨s, rfl, hI, rfl, rfl, by omega⟩

/-- a new circle event changes no site -/
theorem attach_event (s : Sweep) (mid j : Nat) (hj : j < s.beach.next) : ((s.attach mid).beach.heap j).event = (s.beach.heap j).event := by
  have hn : j ≠ s.beach.next := by omega
  have hmod : ∀ (b : Beach) (i : Nat) (a : Option Nat), ((b.mod i (fun n => { n with assoc := a })).heap j).event = (b.heap j).event := by
    intro b i a
    simp only [Beach.mod]
    by_cases h : j = i <;> simp [h]
  unfold Sweep.attach
  dsimp only
  rw [hmod, hmod]
  split
  · rw [show ∀ (b : Beach) x, (b.invalidate x).heap = b.heap from fun _ _ => rfl, hmod]
    simp [Beach.push, hn]
  · simp [Beach.push, hn]

theorem makeLeft_event {o : Oracle} {s s' : Sweep} {leaf e : Nat} (h : s.makeLeft o leaf e = some s') (j : Nat) (hj : j < s.beach.next) :
    (s'.beach.heap j).event = (s.beach.heap j).event := by
  unfold Sweep.makeLeft at h
  repeat' split at h
  all_goals first
    | (simp only [Option.some.injEq] at h; subst h; first | rfl | exact attach_event _ _ _ hj)
    | simp at h

theorem makeRight_event {o : Oracle} {s s' : Sweep} {leaf e : Nat} (h : s.makeRight o leaf e = some s') (j : Nat) (hj : j < s.beach.next) :
    (s'.beach.heap j).event = (s.beach.heap j).event := by
  unfold Sweep.makeRight at h
  repeat' split at h
  all_goals first
    | (simp only [Option.some.injEq] at h; subst h; first | rfl | exact attach_event _ _ _ hj)
    | simp at h

/-- the sites of the arcs, from left to right -/
def arcSites (s : Sweep) (t : T) : List Nat := t.leaves.map (fun i => (s.beach.heap i).event)

/-- the sites at the two ends of the beach line -/
def ends (s : Sweep) (t : T) : Option Nat × Option Nat := ((arcSites s t).head?, (arcSites s t).getLast?)

end Verif.Voronoi

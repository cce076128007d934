import Verif.Voronoi.SweepModel
import Verif.Voronoi.BeachRemove

/-! The invariant of the Voronoi sweep. -/
namespace Verif.Voronoi

/-- arcs and breakpoints alternate along `l`, and every breakpoint `b` between arcs `a` and `k` satisfies `φ a b k` -/
def Chain (φ : Nat → Nat → Nat → Prop) : List Nat → Prop
  | [] => False
  | [_] => True
  | [_, _] => False
  | a :: b :: k :: l => φ a b k ∧ Chain φ (k :: l)

theorem Chain.map {φ ψ : Nat → Nat → Nat → Prop} (f : Nat → Nat) : ∀ l : List Nat,
    (∀ a ∈ l, ∀ b ∈ l, ∀ k ∈ l, φ a b k → ψ (f a) (f b) (f k)) → Chain φ l → Chain ψ (l.map f)
  | [], _, h => h
  | [_], _, _ => trivial
  | [_, _], _, h => h
  | a :: b :: k :: l, hf, h => by
    refine ⟨hf a (by simp) b (by simp) k (by simp) h.1, ?_⟩
    have := Chain.map f (k :: l) (fun a ha b hb k' hk => hf a (by simp at ha ⊢; tauto) b (by simp at hb ⊢; tauto) k' (by simp at hk ⊢; tauto)) h.2
    simpa using this

theorem Chain.mono {φ ψ : Nat → Nat → Nat → Prop} {l : List Nat} (hf : ∀ a ∈ l, ∀ b ∈ l, ∀ k ∈ l, φ a b k → ψ a b k) (h : Chain φ l) : Chain ψ l := by
  have := Chain.map (φ := φ) (ψ := ψ) id l hf h
  simpa using this

theorem Chain.split {φ : Nat → Nat → Nat → Prop} : ∀ (P : List Nat) (i : Nat) (Q : List Nat), Chain φ (P ++ i :: Q) →
    (Chain φ (P ++ [i]) ∧ Chain φ (i :: Q)) ∨
    ∃ P' a k Q', P = P' ++ [a] ∧ Q = k :: Q' ∧ φ a i k ∧ Chain φ (P' ++ [a]) ∧ Chain φ (k :: Q')
  | [], i, Q, h => Or.inl ⟨trivial, h⟩
  | [a], i, [], h => absurd h (by simp [Chain])
  | [a], i, k :: Q', h => Or.inr ⟨[], a, k, Q', rfl, rfl, h.1, trivial, h.2⟩
  | [a, b], i, Q, h => Or.inl ⟨⟨h.1, trivial⟩, h.2⟩
  | a :: b :: k :: P, i, Q, h => by
    have h' : φ a b k ∧ Chain φ ((k :: P) ++ i :: Q) := h
    rcases Chain.split (k :: P) i Q h'.2 with ⟨h1, h2⟩ | ⟨P', a', k', Q', e1, e2, h1, h2, h3⟩
    · exact Or.inl ⟨⟨h'.1, h1⟩, h2⟩
    · refine Or.inr ⟨a :: b :: P', a', k', Q', by simp [e1], e2, h1, ?_, h3⟩
      cases P' with
      | nil =>
        simp only [List.nil_append, List.cons.injEq] at e1
        obtain ⟨rfl, rfl⟩ := e1
        exact ⟨h'.1, trivial⟩
      | cons z P' =>
        simp only [List.cons_append, List.cons.injEq] at e1
        obtain ⟨rfl, rfl⟩ := e1
        exact ⟨h'.1, h2⟩

theorem Chain.join {φ : Nat → Nat → Nat → Prop} : ∀ (P : List Nat) (i : Nat) (Q : List Nat), Chain φ (P ++ [i]) → Chain φ (i :: Q) → Chain φ (P ++ i :: Q)
  | [], _, _, _, h => h
  | [_], _, _, h, _ => absurd h (by simp [Chain])
  | [_, _], _, _, h, h' => ⟨h.1, h'⟩
  | a :: b :: k :: P, i, Q, h, h' => by
    have h1 : φ a b k ∧ Chain φ ((k :: P) ++ [i]) := h
    exact ⟨h1.1, Chain.join (k :: P) i Q h1.2 h'⟩

/-! ## The thread -/

theorem thr_pred_left {h h' : Nat → Node} (P : List Nat) : ∀ (p : Option Nat) (R R' : List Nat) (n n' : Option Nat), Thread h p (P ++ R) n →
    Thread h' p (P ++ R') n' → ∀ j ∈ P, (h' j).pred = (h j).pred := by
  induction P with
  | nil => intro _ _ _ _ _ _ _ j hj; simp at hj
  | cons x P ih =>
    intro p R R' n n' t1 t2 j hj
    obtain ⟨a1, _, a3⟩ := t1
    obtain ⟨b1, _, b3⟩ := t2
    rcases List.mem_cons.1 hj with rfl | hj
    · rw [a1, b1]
    · exact ih _ _ _ _ _ a3 b3 j hj

theorem thr_succ_left {h h' : Nat → Node} (P : List Nat) : ∀ (p : Option Nat) (m m' : Nat) (R R' : List Nat) (n n' : Option Nat),
    Thread h p (P ++ m :: R) n → Thread h' p (P ++ m' :: R') n' → ∀ j ∈ P, (h' j).succ = (h j).succ ∨ ((h j).succ = some m ∧ (h' j).succ = some m') := by
  induction P with
  | nil => intro _ _ _ _ _ _ _ _ _ j hj; simp at hj
  | cons x P ih =>
    intro p m m' R R' n n' t1 t2 j hj
    obtain ⟨_, a2, a3⟩ := t1
    obtain ⟨_, b2, b3⟩ := t2
    rcases List.mem_cons.1 hj with rfl | hj
    · cases P with
      | nil => right; constructor <;> [rw [a2]; rw [b2]] <;> simp
      | cons y P => left; rw [a2, b2]; simp
    · exact ih _ _ _ _ _ _ _ a3 b3 j hj

theorem thr_same {h h' : Nat → Node} (Q : List Nat) : ∀ (p n : Option Nat), Thread h p Q n → Thread h' p Q n →
    ∀ j ∈ Q, (h' j).pred = (h j).pred ∧ (h' j).succ = (h j).succ := by
  induction Q with
  | nil => intro _ _ _ _ j hj; simp at hj
  | cons x Q ih =>
    intro p n t1 t2 j hj
    obtain ⟨a1, a2, a3⟩ := t1
    obtain ⟨b1, b2, b3⟩ := t2
    rcases List.mem_cons.1 hj with rfl | hj
    · exact ⟨by rw [a1, b1], by rw [a2, b2]⟩
    · exact ih _ _ a3 b3 j hj

theorem thr_link {h : Nat → Node} {P Q : List Nat} {a b : Nat} {p n : Option Nat} (t : Thread h p (P ++ a :: b :: Q) n) :
    (h a).succ = some b ∧ (h b).pred = some a := by
  rw [thread_append] at t
  obtain ⟨_, _, h2, h3, _⟩ := t
  exact ⟨by simpa using h2, h3⟩

theorem thr_first {h : Nat → Node} {Q : List Nat} {a : Nat} {p n : Option Nat} (t : Thread h p (a :: Q) n) : (h a).pred = p := t.1

theorem thr_last {h : Nat → Node} {P : List Nat} {a : Nat} {p : Option Nat} (t : Thread h p (P ++ [a]) none) : (h a).succ = none := by
  rw [thread_append] at t
  simpa using t.2.2.1

theorem WF.frame {s s' : Beach} {t : T} (hw : WF s t) (hr : s'.root = s.root) (hn : s.next ≤ s'.next)
    (hf : ∀ j ∈ t.ids, tf (s'.heap j) = tf (s.heap j) ∧ (s'.heap j).pred = (s.heap j).pred ∧ (s'.heap j).succ = (s.heap j).succ) : WF s' t :=
  ⟨hw.rep.frame _ _ (fun j hj => (hf j hj).1), by rw [hr, hw.root], hw.thread.frame _ _ _ (fun j hj => (hf j hj).2), hw.nodup,
    fun i hi => Nat.lt_of_lt_of_le (hw.bound i hi) hn⟩

/-! ## The invariant -/

/-- the breakpoint `b` between the arcs `a` and `k` carries a half edge along the face of `a`, whose twin runs along the face of `k`;
this edge is still open at the breakpoint -/
def Brk (s : Sweep) (a b k : Nat) : Prop :=
  (s.beach.heap a).face ≠ none ∧ (s.beach.heap b).face = none ∧ (s.beach.heap k).face ≠ none ∧
  ∃ h g, (s.beach.heap b).half = some h ∧ h < s.nhe ∧ g < s.nhe ∧ (s.he h).twin = some g ∧ (s.he g).twin = some h ∧
    (s.he h).face = (s.beach.heap a).face ∧ (s.he g).face = (s.beach.heap k).face ∧ (s.he h).last = none ∧ (s.he g).next = none ∧ (s.he g).target = none

/-- the arc `i` has neighbours on both sides, which belong to different sites -/
def Nb (H : Nat → Node) (i : Nat) : Prop :=
  ∃ x a y k, (H i).pred = some x ∧ (H x).pred = some a ∧ (H i).succ = some y ∧ (H y).succ = some k ∧ (H a).event ≠ (H k).event

/-- the doubly connected edge list is consistent -/
structure Edges (s : Sweep) : Prop where
  twin : ∀ h < s.nhe, ∃ g < s.nhe, (s.he h).twin = some g ∧ (s.he g).twin = some h ∧ g ≠ h
  face : ∀ h < s.nhe, ∃ f < s.nf, (s.he h).face = some f
  next : ∀ h < s.nhe, ∀ g, (s.he h).next = some g → g < s.nhe ∧ (s.he g).last = some h ∧ (s.he g).face = (s.he h).face ∧
    ∃ v w, (s.he h).target = some v ∧ (s.he g).twin = some w ∧ (s.he w).target = some v
  last : ∀ h < s.nhe, ∀ g, (s.he h).last = some g → g < s.nhe ∧ (s.he g).next = some h
  target : ∀ h < s.nhe, ∀ v, (s.he h).target = some v → v < s.nv
  vtx : ∀ v < s.nv, ∃ h g, s.vtx v = some h ∧ h < s.nhe ∧ (s.he h).twin = some g ∧ (s.he g).target = some v
  faceHE : ∀ f < s.nf, ∀ h, s.faceHE f = some h → h < s.nhe ∧ (s.he h).face = some f
  faceSet : 2 ≤ s.nf → ∀ f < s.nf, s.faceHE f ≠ none

/-- circle events and arcs point at each other -/
structure Circles (o : Oracle) (s : Sweep) (t : T) : Prop where
  event : ∀ e ∈ s.queue, o.n ≤ e → s.beach.valid e = true → ∃ c i, s.node e = some c ∧ (s.beach.heap c).event = e ∧
    (s.beach.heap c).assoc = some i ∧ i ∈ t.leaves ∧ (s.beach.heap i).assoc = some c ∧ Nb s.beach.heap i
  arc : ∀ i ∈ t.leaves, ∀ c, (s.beach.heap i).assoc = some c → c ∉ t.ids ∧ c < s.beach.next ∧ (s.beach.heap c).assoc = some i ∧
    o.n ≤ (s.beach.heap c).event ∧ (s.beach.heap c).event < s.nev ∧ s.node (s.beach.heap c).event = some c ∧
    (s.beach.heap c).event ∈ s.queue ∧ s.beach.valid (s.beach.heap c).event = true

structure Inv (o : Oracle) (s : Sweep) (t : T) : Prop where
  wf : WF s.beach t
  arc : ∀ i ∈ t.ids, (i ∈ t.leaves ↔ (s.beach.heap i).face ≠ none)
  face : ∀ i ∈ t.ids, ∀ f, (s.beach.heap i).face = some f → f < s.nf ∧ s.faceEv f = (s.beach.heap i).event
  chain : Chain (Brk s) t.ids
  inj : ∀ b ∈ t.ids, ∀ b' ∈ t.ids, ∀ h, (s.beach.heap b).face = none → (s.beach.heap b').face = none →
    (s.beach.heap b).half = some h → (s.beach.heap b').half = some h → b = b'
  edges : Edges s
  openL : ∀ h < s.nhe, (s.he h).last = none → ∃ b ∈ t.ids, (s.beach.heap b).face = none ∧ (s.beach.heap b).half = some h
  openN : ∀ h < s.nhe, (s.he h).next = none → ∃ b ∈ t.ids, ∃ g, (s.beach.heap b).face = none ∧ (s.beach.heap b).half = some g ∧ (s.he h).twin = some g
  site : ∀ f < s.nf, s.faceEv f < o.n ∧ s.faceEv f ∉ s.queue
  siteInj : ∀ f < s.nf, ∀ g < s.nf, s.faceEv f = s.faceEv g → f = g
  qnodup : s.queue.Nodup
  qbound : ∀ e ∈ s.queue, e < s.nev
  nev : o.n ≤ s.nev
  circles : Circles o s t
  sites : s.queue.countP (fun e => decide (e < o.n)) + s.nf = o.n
  arcs : t.leaves.length + 1 + s.nv = 2 * s.nf
  edgeN : s.nhe + 2 = 2 * s.nf + 2 * s.nv
  mismatch : s.mismatch = 0

/-! ## New circle events -/

/-- the heap after `attach` -/
theorem attach_heap (s : Sweep) (mid : Nat) (h1 : mid < s.beach.next) (h2 : ∀ c, (s.beach.heap mid).assoc = some c → c < s.beach.next ∧ c ≠ mid) (j : Nat) :
    (s.attach mid).beach.heap j = if j = s.beach.next then { event := s.nev, assoc := some mid }
      else if j = mid then { s.beach.heap mid with assoc := some s.beach.next }
      else if (s.beach.heap mid).assoc = some j then { s.beach.heap j with assoc := none } else s.beach.heap j := by
  have hm : mid ≠ s.beach.next := by omega
  unfold Sweep.attach
  cases hc : (s.beach.heap mid).assoc with
  | none =>
    simp only [Beach.push, hm, if_false, hc, Beach.mod]
    by_cases e1 : j = s.beach.next
    · subst e1; simp [hm.symm]
    · by_cases e2 : j = mid
      · subst e2; simp [e1]
      · simp [e1, e2]
  | some c =>
    obtain ⟨q1, q2⟩ := h2 c hc
    have hc' : c ≠ s.beach.next := by omega
    simp only [Beach.push, hm, if_false, hc, Beach.mod, Beach.invalidate]
    by_cases e1 : j = s.beach.next
    · subst e1; simp [hm.symm, hc'.symm]
    · by_cases e2 : j = mid
      · subst e2; simp [e1, q2.symm]
      · by_cases e3 : j = c
        · subst e3; simp [e1, e2]
        · have : c ≠ j := Ne.symm e3
          simp [e1, e2, e3, this]

theorem attach_valid (s : Sweep) (mid : Nat) (h1 : mid < s.beach.next) (h2 : ∀ c, (s.beach.heap mid).assoc = some c → c < s.beach.next) (e : Nat) :
    (s.attach mid).beach.valid e = ((decide (e = s.nev) || s.beach.valid e) && !((s.beach.heap mid).assoc.any (fun c => (s.beach.heap c).event == e))) := by
  have hm : mid ≠ s.beach.next := by omega
  unfold Sweep.attach
  cases hc : (s.beach.heap mid).assoc with
  | none =>
    simp only [Beach.push, hm, if_false, hc, Beach.mod]
    by_cases e1 : e = s.nev <;> simp [e1]
  | some c =>
    have q1 := h2 c hc
    have hc' : c ≠ s.beach.next := by omega
    simp only [Beach.push, hm, if_false, hc, Beach.mod, Beach.invalidate, hc']
    by_cases e1 : e = (s.beach.heap c).event
    · simp [e1]
    · have : ((s.beach.heap c).event == e) = false := by simp; exact fun h => e1 h.symm
      by_cases e2 : e = s.nev <;> simp [e1, e2, this] <;> simp_all

theorem thr_mem {h : Nat → Node} (l : List Nat) : ∀ (p n : Option Nat), Thread h p l n → ∀ j ∈ l,
    (∀ x, (h j).pred = some x → x ∈ l ∨ p = some x) ∧ (∀ x, (h j).succ = some x → x ∈ l ∨ n = some x) := by
  induction l with
  | nil => intro _ _ _ j hj; simp at hj
  | cons y l ih =>
    intro p n t j hj
    obtain ⟨a1, a2, a3⟩ := t
    rcases List.mem_cons.1 hj with rfl | hj
    · refine ⟨fun x hx => Or.inr (by rw [← a1, hx]), fun x hx => ?_⟩
      rw [a2] at hx
      cases l with
      | nil => right; simpa using hx
      | cons z l => simp at hx; left; simp [hx]
    · obtain ⟨b1, b2⟩ := ih _ _ a3 j hj
      refine ⟨fun x hx => ?_, fun x hx => ?_⟩
      · rcases b1 x hx with h' | h'
        · left; simp [h']
        · left; simp at h'; simp [h']
      · rcases b2 x hx with h' | h'
        · left; simp [h']
        · right; exact h'

theorem wf_pred {s : Beach} {t : T} (hw : WF s t) {j x : Nat} (hj : j ∈ t.ids) (h : (s.heap j).pred = some x) : x ∈ t.ids := by
  have := (thr_mem _ _ _ hw.thread j hj).1 x h
  simpa using this
theorem wf_succ {s : Beach} {t : T} (hw : WF s t) {j x : Nat} (hj : j ∈ t.ids) (h : (s.heap j).succ = some x) : x ∈ t.ids := by
  have := (thr_mem _ _ _ hw.thread j hj).2 x h
  simpa using this

theorem Nb.congr {s : Beach} {t : T} (hw : WF s t) {H' : Nat → Node} {i : Nat} (hi : i ∈ t.ids) (h : Nb s.heap i) (hj : ∀ j ∈ t.ids,
    (H' j).pred = (s.heap j).pred ∧ (H' j).succ = (s.heap j).succ ∧ (H' j).event = (s.heap j).event) : Nb H' i := by
  obtain ⟨x, a, y, k, h1, h2, h3, h4, h5⟩ := h
  have mx := wf_pred hw hi h1
  have my := wf_succ hw hi h3
  have ma := wf_pred hw mx h2
  have mk := wf_succ hw my h4
  refine ⟨x, a, y, k, by rw [(hj i hi).1, h1], by rw [(hj x mx).1, h2], by rw [(hj i hi).2.1, h3], by rw [(hj y my).2.1, h4], ?_⟩
  rw [(hj a ma).2.2, (hj k mk).2.2]
  exact h5

/-- what `attach` leaves alone -/
theorem attach_other (s : Sweep) (mid : Nat) : (s.attach mid).he = s.he ∧ (s.attach mid).nhe = s.nhe ∧ (s.attach mid).faceHE = s.faceHE ∧
    (s.attach mid).faceEv = s.faceEv ∧ (s.attach mid).nf = s.nf ∧ (s.attach mid).vtx = s.vtx ∧ (s.attach mid).nv = s.nv ∧
    (s.attach mid).mismatch = s.mismatch ∧ (s.attach mid).queue = s.nev :: s.queue ∧ (s.attach mid).nev = s.nev + 1 ∧
    (s.attach mid).beach.next = s.beach.next + 1 ∧ (s.attach mid).beach.root = s.beach.root ∧
    (s.attach mid).node = (fun e => if e = s.nev then some s.beach.next else s.node e) := by
  unfold Sweep.attach
  dsimp only
  split <;> exact ⟨rfl, rfl, rfl, rfl, rfl, rfl, rfl, rfl, rfl, rfl, rfl, rfl, rfl⟩

theorem Edges.congr {s s' : Sweep} (h : Edges s) (h1 : s'.he = s.he) (h2 : s'.nhe = s.nhe) (h3 : s'.faceHE = s.faceHE) (h4 : s'.nf = s.nf)
    (h5 : s'.vtx = s.vtx) (h6 : s'.nv = s.nv) : Edges s' := by
  obtain ⟨a1, a2, a3, a4, a5, a6, a7, a8⟩ := h
  constructor <;> simp only [h1, h2, h3, h4, h5, h6] <;> assumption

theorem attach_inv {o : Oracle} {s : Sweep} {t : T} (hI : Inv o s t) (mid : Nat) (hm : mid ∈ t.leaves) (hnb : Nb s.beach.heap mid) :
    Inv o (s.attach mid) t := by
  have hmid := leaves_sub t mid hm
  have hlt := hI.wf.bound mid hmid
  have hold : ∀ c, (s.beach.heap mid).assoc = some c → c < s.beach.next ∧ c ≠ mid := fun c hc =>
    ⟨(hI.circles.arc mid hm c hc).2.1, fun e => (hI.circles.arc mid hm c hc).1 (e ▸ hmid)⟩
  have hheap := attach_heap s mid hlt hold
  have hval := attach_valid s mid hlt (fun c hc => (hold c hc).1)
  obtain ⟨e1, e2, e3, e4, e5, e6, e7, e8, e9, e10, e11, e12, e13⟩ := attach_other s mid
  -- nodes of the tree keep everything but the associated circle
  have hids : ∀ j ∈ t.ids, noAssoc ((s.attach mid).beach.heap j) = noAssoc (s.beach.heap j) := by
    intro j hj
    have hb := hI.wf.bound j hj
    rw [hheap, if_neg (by omega)]
    by_cases h1 : j = mid
    · subst h1; rw [if_pos rfl]; rfl
    · rw [if_neg h1]
      by_cases h2 : (s.beach.heap mid).assoc = some j
      · exact absurd hj (hI.circles.arc mid hm j h2).1
      · rw [if_neg h2]
  have hf : ∀ j ∈ t.ids, ((s.attach mid).beach.heap j).event = (s.beach.heap j).event ∧ tf ((s.attach mid).beach.heap j) = tf (s.beach.heap j) ∧
      ((s.attach mid).beach.heap j).pred = (s.beach.heap j).pred ∧ ((s.attach mid).beach.heap j).succ = (s.beach.heap j).succ ∧
      ((s.attach mid).beach.heap j).half = (s.beach.heap j).half ∧ ((s.attach mid).beach.heap j).face = (s.beach.heap j).face := by
    intro j hj
    have := hids j hj
    simpa only [noAssoc, Prod.mk.injEq] using this
  have hass : ∀ j ∈ t.ids, j ≠ mid → ((s.attach mid).beach.heap j).assoc = (s.beach.heap j).assoc := by
    intro j hj hjm
    have hb := hI.wf.bound j hj
    rw [hheap, if_neg (by omega), if_neg hjm, if_neg]
    exact fun h2 => (hI.circles.arc mid hm j h2).1 hj
  have hnew : ∀ e ∈ s.queue, e ≠ s.nev := fun e he h => by have := hI.qbound e he; omega
  have hnode : ∀ c, c < s.beach.next → c ≠ mid → (s.beach.heap mid).assoc ≠ some c → (s.attach mid).beach.heap c = s.beach.heap c := by
    intro c h1 h2 h3
    rw [hheap, if_neg (by omega), if_neg h2, if_neg h3]
  have hcnew : (s.attach mid).beach.heap s.beach.next = { event := s.nev, assoc := some mid } := by rw [hheap, if_pos rfl]
  have hmidA : ((s.attach mid).beach.heap mid).assoc = some s.beach.next := by rw [hheap, if_neg (by omega), if_pos rfl]
  have hnevV : (s.attach mid).beach.valid s.nev = true := by
    rw [hval]
    cases hc : (s.beach.heap mid).assoc with
    | none => simp
    | some c =>
      have := (hI.circles.arc mid hm c hc).2.2.2.2.1
      have : ((s.beach.heap c).event == s.nev) = false := by simp; omega
      simp [this]
  refine
    { wf := hI.wf.frame e12 (by omega) (fun j hj => ⟨(hf j hj).2.1, (hf j hj).2.2.1, (hf j hj).2.2.2.1⟩)
      arc := fun i hi => by rw [(hf i hi).2.2.2.2.2]; exact hI.arc i hi
      face := fun i hi f h => by rw [(hf i hi).2.2.2.2.2] at h; rw [e5, e4, (hf i hi).1]; exact hI.face i hi f h
      chain := hI.chain.mono (fun a ha b hb k hk h => by
        unfold Brk at h ⊢
        rw [(hf a ha).2.2.2.2.2, (hf b hb).2.2.2.2.2, (hf k hk).2.2.2.2.2, (hf b hb).2.2.2.2.1, e1, e2]
        exact h)
      inj := fun b hb b' hb' h => by
        rw [(hf b hb).2.2.2.2.2, (hf b' hb').2.2.2.2.2, (hf b hb).2.2.2.2.1, (hf b' hb').2.2.2.2.1]
        exact hI.inj b hb b' hb' h
      edges := hI.edges.congr e1 e2 e3 e5 e6 e7
      openL := fun h hh hl => by
        rw [e1] at hl; rw [e2] at hh
        obtain ⟨b, q1, q2, q3⟩ := hI.openL h hh hl
        exact ⟨b, q1, by rw [(hf b q1).2.2.2.2.2]; exact q2, by rw [(hf b q1).2.2.2.2.1]; exact q3⟩
      openN := fun h hh hl => by
        rw [e1] at hl ⊢; rw [e2] at hh
        obtain ⟨b, q1, g, q2, q3, q4⟩ := hI.openN h hh hl
        exact ⟨b, q1, g, by rw [(hf b q1).2.2.2.2.2]; exact q2, by rw [(hf b q1).2.2.2.2.1]; exact q3, q4⟩
      site := fun f hfn => by
        rw [e5] at hfn
        rw [e4, e9]
        obtain ⟨q1, q2⟩ := hI.site f hfn
        refine ⟨q1, ?_⟩
        simp only [List.mem_cons, not_or]
        exact ⟨by have := hI.nev; omega, q2⟩
      siteInj := fun f hfn g hg => by rw [e5] at hfn hg; rw [e4]; exact hI.siteInj f hfn g hg
      qnodup := by rw [e9]; exact List.nodup_cons.2 ⟨fun h => hnew _ h rfl, hI.qnodup⟩
      qbound := fun e he => by
        rw [e9] at he; rw [e10]
        rcases List.mem_cons.1 he with rfl | h
        · omega
        · have := hI.qbound e h; omega
      nev := by rw [e10]; have := hI.nev; omega
      circles := ⟨?_, ?_⟩
      sites := by
        rw [e9, e5, List.countP_cons_of_neg]
        · exact hI.sites
        · have := hI.nev; simp; omega
      arcs := by rw [e7, e5]; exact hI.arcs
      edgeN := by rw [e2, e5, e7]; exact hI.edgeN
      mismatch := by rw [e8]; exact hI.mismatch }
  · intro e he hen hv
    rw [e9] at he
    rw [e13]
    have hnbc : ∀ i ∈ t.ids, Nb s.beach.heap i → Nb (s.attach mid).beach.heap i := fun i hi hn =>
      hn.congr hI.wf hi (fun j hj => ⟨(hf j hj).2.2.1, (hf j hj).2.2.2.1, (hf j hj).1⟩)
    rcases List.mem_cons.1 he with rfl | he
    · exact ⟨s.beach.next, mid, by simp, by rw [hcnew], by rw [hcnew], hm, hmidA, hnbc mid hmid hnb⟩
    · rw [hval] at hv
      simp only [Bool.and_eq_true, Bool.or_eq_true, decide_eq_true_eq, Bool.not_eq_true'] at hv
      obtain ⟨hv1, hv2⟩ := hv
      obtain ⟨c, i, q1, q2, q3, q4, q5, q6⟩ := hI.circles.event e he hen (by rcases hv1 with h | h; exact absurd h (hnew e he); exact h)
      have hcm : (s.beach.heap mid).assoc ≠ some c := by
        intro h
        rw [h] at hv2
        simp [q2] at hv2
      have him : i ≠ mid := by rintro rfl; exact hcm q5
      have hci := hI.circles.arc i q4 c q5
      have hcn := hnode c hci.2.1 (fun h => hci.1 (h ▸ hmid)) hcm
      have hi := leaves_sub t i q4
      refine ⟨c, i, by simp [hnew e he, q1], by rw [hcn]; exact q2, by rw [hcn]; exact q3, q4, ?_, hnbc i hi q6⟩
      rw [hass i hi him]; exact q5
  · intro i hi c hc
    have hi' := leaves_sub t i hi
    by_cases him : i = mid
    · subst him
      rw [hmidA] at hc
      simp only [Option.some.injEq] at hc
      subst hc
      rw [hcnew, e9, e10, e11, e13]
      refine ⟨fun h => by have := hI.wf.bound _ h; omega, by omega, rfl, hI.nev, by simp, by simp, by simp, hnevV⟩
    · rw [hass i hi' him] at hc
      obtain ⟨q1, q2, q3, q4, q5, q6, q7, q8⟩ := hI.circles.arc i hi c hc
      have hcm : (s.beach.heap mid).assoc ≠ some c := by
        intro h
        have := (hI.circles.arc mid hm c h).2.2.1
        rw [q3] at this
        simp only [Option.some.injEq] at this
        exact him this
      rw [hnode c q2 (fun h => q1 (h ▸ hmid)) hcm, e9, e10, e11, e13]
      refine ⟨q1, by omega, q3, q4, by omega, ?_, by simp [q7], ?_⟩
      · have := hnew _ q7
        simp [this, q6]
      · rw [hval, q8]
        simp only [Bool.or_true, Bool.true_and, Bool.not_eq_true']
        cases h : (s.beach.heap mid).assoc with
        | none => rfl
        | some c' =>
          simp only [Option.any_some, beq_eq_false_iff_ne, ne_eq]
          intro h2
          have := (hI.circles.arc mid hm c' h).2.2.2.2.2.1
          rw [h2, q6] at this
          simp only [Option.some.injEq] at this
          exact hcm (this ▸ h)

end Verif.Voronoi

import Verif.Voronoi.SweepCircle

/-! `handleSiteEvents`. -/
namespace Verif.Voronoi

/-- the state after the new face and the new edges of a site -/
def siteState (s : Sweep) (b : Beach) (leaf e p q lf : Nat) : Sweep := (({ s with beach := b }).newFace leaf e).siteEdges s.nf p q lf

theorem siteState_heap (s : Sweep) (b : Beach) (leaf e p q lf : Nat) (h1 : p ≠ q) (h2 : p ≠ leaf) (h3 : q ≠ leaf) (j : Nat) :
    (siteState s b leaf e p q lf).beach.heap j = if j = p then { b.heap p with half := some s.nhe } else if j = q then { b.heap q with half := some (s.nhe + 1) }
      else if j = leaf then { b.heap leaf with face := some s.nf } else b.heap j := by
  have hb : (siteState s b leaf e p q lf).beach = ((b.mod leaf (fun n => { n with face := some s.nf })).mod p (fun n => { n with half := some s.nhe })).mod q
      (fun n => { n with half := some (s.nhe + 1) }) := by
    unfold siteState Sweep.siteEdges
    dsimp only
    split <;> rfl
  rw [hb]
  by_cases e1 : j = p
  · subst e1; simp [Beach.mod, h1, h2]
  · by_cases e2 : j = q
    · subst e2; simp [Beach.mod, h3, Ne.symm h1]
    · by_cases e3 : j = leaf
      · subst e3; simp [Beach.mod, e1, e2]
      · simp [Beach.mod, e1, e2, e3]

theorem siteState_he (s : Sweep) (b : Beach) (leaf e p q lf : Nat) (j : Nat) :
    (siteState s b leaf e p q lf).he j = if j = s.nhe then { twin := some (s.nhe + 1), face := some lf }
      else if j = s.nhe + 1 then { twin := some s.nhe, face := some s.nf } else s.he j := by
  unfold siteState Sweep.siteEdges
  dsimp only
  have : (s.nhe = s.nhe + 1) = False := by simp
  split <;> simp only [Sweep.modE, Sweep.newEdges, Sweep.modN, Sweep.setFaceHE, Sweep.newFace]
  all_goals
    by_cases e1 : j = s.nhe
    · subst e1; simp
    · by_cases e2 : j = s.nhe + 1
      · subst e2; simp
      · simp [e1, e2]

theorem siteState_faceHE (s : Sweep) (b : Beach) (leaf e p q lf : Nat) (hlf : lf ≠ s.nf) (f : Nat) :
    (siteState s b leaf e p q lf).faceHE f = if f = s.nf then some (s.nhe + 1) else if f = lf ∧ s.faceHE lf = none then some s.nhe else s.faceHE f := by
  unfold siteState Sweep.siteEdges
  dsimp only
  have h0 : ((((((({ s with beach := b } : Sweep).newFace leaf e).newEdges).modN p (fun n => { n with half := some s.nhe })).modN q
      (fun n => { n with half := some (s.nhe + 1) })).setFaceHE s.nf (s.nhe + 1)).modE (s.nhe + 1) (fun e => { e with face := some s.nf })).faceHE =
      fun j => if j = s.nf then some (s.nhe + 1) else s.faceHE j := by
    funext j
    simp only [Sweep.modE, Sweep.newEdges, Sweep.modN, Sweep.setFaceHE, Sweep.newFace]
    by_cases e1 : j = s.nf <;> simp [e1]
  by_cases hn : s.faceHE lf = none
  · rw [if_pos (by
      have := congrFun h0 lf
      simp only [hlf, if_false] at this
      exact this.trans hn)]
    have h1 : ∀ (S : Sweep) (x : Nat), (S.setFaceHE lf x).faceHE f = if f = lf then some x else S.faceHE f := fun _ _ => rfl
    show (Sweep.setFaceHE _ lf _).faceHE f = _
    rw [h1]
    by_cases e1 : f = lf
    · subst e1; rw [if_pos rfl, if_neg hlf, if_pos ⟨rfl, hn⟩]; rfl
    · rw [if_neg e1, show (if f = lf ∧ s.faceHE lf = none then some s.nhe else s.faceHE f) = s.faceHE f from if_neg (fun h => e1 h.1)]
      exact congrFun h0 f
  · rw [if_neg (by
      have := congrFun h0 lf
      simp only [hlf, if_false] at this
      exact fun h => hn (this.symm.trans h))]
    rw [show (if f = lf ∧ s.faceHE lf = none then some s.nhe else s.faceHE f) = s.faceHE f from if_neg (fun h => hn h.2)]
    exact congrFun h0 f

theorem siteState_other (s : Sweep) (b : Beach) (leaf e p q lf : Nat) :
    (siteState s b leaf e p q lf).nhe = s.nhe + 2 ∧ (siteState s b leaf e p q lf).nf = s.nf + 1 ∧
    (siteState s b leaf e p q lf).faceEv = (fun j => if j = s.nf then e else s.faceEv j) ∧ (siteState s b leaf e p q lf).vtx = s.vtx ∧
    (siteState s b leaf e p q lf).nv = s.nv ∧ (siteState s b leaf e p q lf).mismatch = s.mismatch ∧ (siteState s b leaf e p q lf).queue = s.queue ∧
    (siteState s b leaf e p q lf).nev = s.nev ∧ (siteState s b leaf e p q lf).node = s.node ∧ (siteState s b leaf e p q lf).beach.next = b.next ∧
    (siteState s b leaf e p q lf).beach.root = b.root ∧ (siteState s b leaf e p q lf).beach.valid = b.valid := by
  unfold siteState Sweep.siteEdges
  dsimp only
  split <;> exact ⟨rfl, rfl, rfl, rfl, rfl, rfl, rfl, rfl, rfl, rfl, rfl, rfl⟩

theorem ids_length' (t : T) : t.ids.length + 1 = 2 * t.leaves.length := by
  induction t with
  | leaf i => rfl
  | node i l r ihl ihr => simp only [T.ids, T.leaves, List.length_append, List.length_cons]; omega

/-- adding an unlinked edge pair and a face keeps the edge list consistent -/
theorem site_edges {s s1 : Sweep} (hE : Edges s) (lf : Nat) (hlf : lf < s.nf)
    (e1 : ∀ j, s1.he j = if j = s.nhe then { twin := some (s.nhe + 1), face := some lf }
      else if j = s.nhe + 1 then { twin := some s.nhe, face := some s.nf } else s.he j)
    (e2 : s1.nhe = s.nhe + 2) (e3 : s1.nf = s.nf + 1) (e4 : s1.vtx = s.vtx) (e5 : s1.nv = s.nv)
    (e6 : ∀ f, s1.faceHE f = if f = s.nf then some (s.nhe + 1) else if f = lf ∧ s.faceHE lf = none then some s.nhe else s.faceHE f) : Edges s1 := by
  have old : ∀ h, h < s.nhe → s1.he h = s.he h := fun h hh => by rw [e1, if_neg (by omega), if_neg (by omega)]
  have n1 : s1.he s.nhe = { twin := some (s.nhe + 1), face := some lf } := by rw [e1, if_pos rfl]
  have n2 : s1.he (s.nhe + 1) = { twin := some s.nhe, face := some s.nf } := by rw [e1, if_neg (by omega), if_pos rfl]
  have cases3 : ∀ h, h < s1.nhe → h < s.nhe ∨ h = s.nhe ∨ h = s.nhe + 1 := fun h hh => by omega
  constructor
  · intro h hh
    rcases cases3 h hh with h' | rfl | rfl
    · obtain ⟨g, g1, g2, g3, g4⟩ := hE.twin h h'
      exact ⟨g, by omega, by rw [old h h', g2], by rw [old g g1, g3], g4⟩
    · exact ⟨s.nhe + 1, by omega, by rw [n1], by rw [n2], by omega⟩
    · exact ⟨s.nhe, by omega, by rw [n2], by rw [n1], by omega⟩
  · intro h hh
    rcases cases3 h hh with h' | rfl | rfl
    · obtain ⟨f, f1, f2⟩ := hE.face h h'
      exact ⟨f, by omega, by rw [old h h', f2]⟩
    · exact ⟨lf, by omega, by rw [n1]⟩
    · exact ⟨s.nf, by omega, by rw [n2]⟩
  · intro h hh g hg
    rcases cases3 h hh with h' | rfl | rfl
    · rw [old h h'] at hg ⊢
      obtain ⟨g1, g2, g3, v, w, g4, g5, g6⟩ := hE.next h h' g hg
      rw [old g g1]
      obtain ⟨w', w1, w2, _⟩ := hE.twin g g1
      rw [g5] at w2
      simp only [Option.some.injEq] at w2
      subst w2
      exact ⟨by omega, g2, g3, v, w, g4, g5, by rw [old w w1]; exact g6⟩
    · rw [n1] at hg; simp at hg
    · rw [n2] at hg; simp at hg
  · intro h hh g hg
    rcases cases3 h hh with h' | rfl | rfl
    · rw [old h h'] at hg
      obtain ⟨g1, g2⟩ := hE.last h h' g hg
      exact ⟨by omega, by rw [old g g1]; exact g2⟩
    · rw [n1] at hg; simp at hg
    · rw [n2] at hg; simp at hg
  · intro h hh v hv
    rcases cases3 h hh with h' | rfl | rfl
    · rw [old h h'] at hv; rw [e5]; exact hE.target h h' v hv
    · rw [n1] at hv; simp at hv
    · rw [n2] at hv; simp at hv
  · intro v hv
    rw [e5] at hv
    obtain ⟨h, g, h1, h2, h3, h4⟩ := hE.vtx v hv
    obtain ⟨w', w1, w2, _⟩ := hE.twin h h2
    rw [h3] at w2
    simp only [Option.some.injEq] at w2
    subst w2
    exact ⟨h, g, by rw [e4]; exact h1, by omega, by rw [old h h2]; exact h3, by rw [old g w1]; exact h4⟩
  · intro f hf h hh
    rw [e6] at hh
    by_cases q1 : f = s.nf
    · rw [if_pos q1] at hh
      simp only [Option.some.injEq] at hh
      subst hh
      exact ⟨by omega, by rw [n2, q1]⟩
    · rw [if_neg q1] at hh
      by_cases q2 : f = lf ∧ s.faceHE lf = none
      · rw [if_pos q2] at hh
        simp only [Option.some.injEq] at hh
        subst hh
        exact ⟨by omega, by rw [n1, q2.1]⟩
      · rw [if_neg q2] at hh
        obtain ⟨h1, h2⟩ := hE.faceHE f (by omega) h hh
        exact ⟨by omega, by rw [old h h1]; exact h2⟩
  · intro h2 f hf
    rw [e6]
    by_cases q1 : f = s.nf
    · rw [if_pos q1]; simp
    · rw [if_neg q1]
      by_cases q2 : f = lf ∧ s.faceHE lf = none
      · rw [if_pos q2]; simp
      · rw [if_neg q2]
        by_cases q3 : f = lf
        · intro h; exact q2 ⟨q3, q3 ▸ h⟩
        · exact hE.faceSet (by omega) f (by omega)

set_option maxHeartbeats 1600000 in
theorem site_inv {o : Oracle} {s : Sweep} {t t' : T} (hI : Inv o s t) (e : Nat) (he : e ∈ s.queue) (hen : e < o.n) (b : Beach) (i lf : Nat)
    (hins : Inserted s.beach b t t' e i) (hi : i ∈ t.leaves) (hlf : (s.beach.heap i).face = some lf) :
    Inv o (siteState { s with queue := s.queue.erase e } b s.beach.next e (s.beach.next + 2) (s.beach.next + 3) lf) t' := by
  have hheap := siteState_heap { s with queue := s.queue.erase e } b s.beach.next e (s.beach.next + 2) (s.beach.next + 3) lf (by omega) (by omega) (by omega)
  have hhe := siteState_he { s with queue := s.queue.erase e } b s.beach.next e (s.beach.next + 2) (s.beach.next + 3) lf
  have hi' := leaves_sub t i hi
  obtain ⟨lf1, lf2⟩ := hI.face i hi' lf hlf
  have hfhe := siteState_faceHE { s with queue := s.queue.erase e } b s.beach.next e (s.beach.next + 2) (s.beach.next + 3) lf (by simp; omega)
  obtain ⟨e1, e2, e3, e4, e5, e6, e7, e8, e9, e10, e11, e12⟩ := siteState_other { s with queue := s.queue.erase e } b s.beach.next e (s.beach.next + 2) (s.beach.next + 3) lf
  generalize hs1 : siteState { s with queue := s.queue.erase e } b s.beach.next e (s.beach.next + 2) (s.beach.next + 3) lf = s1 at *
  dsimp only at hheap hhe hfhe e1 e2 e3 e4 e5 e6 e7 e8 e9
  obtain ⟨hwf', ⟨P, Q, hids, hids'⟩, ⟨A, B, hlv, hlv'⟩, hnextI, hvalidI, holdI, hnewI, hcopyI⟩ := hins
  generalize hN : s.beach.next = N at *
  have hbd : ∀ j ∈ t.ids, j < N := fun j hj => hN ▸ hI.wf.bound j hj
  have hP : ∀ j ∈ P, j < N := fun j hj => hbd j (by rw [hids]; simp [hj])
  have hQ : ∀ j ∈ Q, j < N := fun j hj => hbd j (by rw [hids]; simp [hj])
  have hiN : i < N := hbd i hi'
  -- old nodes
  have hold : ∀ j, j < N → s1.beach.heap j = b.heap j := fun j hj => by rw [hheap, if_neg (by omega), if_neg (by omega), if_neg (by omega)]
  have hpl : ∀ j, j < N → (s1.beach.heap j).event = (s.beach.heap j).event ∧ (s1.beach.heap j).half = (s.beach.heap j).half ∧
      (s1.beach.heap j).face = (s.beach.heap j).face := by
    intro j hj
    rw [hold j hj]
    have := (holdI j hj).1
    simpa only [pl, Prod.mk.injEq] using this
  have hcopy : (s1.beach.heap (N + 1)).event = (s.beach.heap i).event ∧ (s1.beach.heap (N + 1)).half = (s.beach.heap i).half ∧
      (s1.beach.heap (N + 1)).face = (s.beach.heap i).face := by
    rw [hheap, if_neg (by omega), if_neg (by omega), if_neg (by omega)]
    have := hcopyI.1
    simpa only [pl, Prod.mk.injEq] using this
  have hnew : (s1.beach.heap N).event = e ∧ (s1.beach.heap N).half = none ∧ (s1.beach.heap N).face = some s.nf := by
    rw [hheap, if_neg (by omega), if_neg (by omega), if_pos rfl]
    have := (hnewI N (Or.inl rfl)).1
    simp only [pl, Prod.mk.injEq] at this
    exact ⟨this.1, this.2.1, rfl⟩
  have hbrk : (s1.beach.heap (N + 2)).half = some s.nhe ∧ (s1.beach.heap (N + 2)).face = none := by
    rw [hheap, if_pos rfl]
    have := (hnewI (N + 2) (Or.inr (Or.inl rfl))).1
    simp only [pl, Prod.mk.injEq] at this
    exact ⟨rfl, this.2.2⟩
  have htop : (s1.beach.heap (N + 3)).half = some (s.nhe + 1) ∧ (s1.beach.heap (N + 3)).face = none := by
    rw [hheap, if_neg (by omega), if_pos rfl]
    have := (hnewI (N + 3) (Or.inr (Or.inr rfl))).1
    simp only [pl, Prod.mk.injEq] at this
    exact ⟨rfl, this.2.2⟩
  have hEold : ∀ h, h < s.nhe → s1.he h = s.he h := fun h hh => by rw [hhe, if_neg (by omega), if_neg (by omega)]
  have hE1 : s1.he s.nhe = { twin := some (s.nhe + 1), face := some lf } := by rw [hhe, if_pos rfl]
  have hE2 : s1.he (s.nhe + 1) = { twin := some s.nhe, face := some s.nf } := by rw [hhe, if_neg (by omega), if_pos rfl]
  have hmem : ∀ j, j ∈ t'.ids ↔ j ∈ t.ids ∨ j = N + 1 ∨ j = N + 2 ∨ j = N ∨ j = N + 3 := by
    intro j
    rw [hids', hids]
    simp only [List.mem_append, List.mem_cons]
    tauto
  have hmemL : ∀ j, j ∈ t'.leaves ↔ j ∈ t.leaves ∨ j = N + 1 ∨ j = N := by
    intro j
    rw [hlv', hlv]
    simp only [List.mem_append, List.mem_cons]
    tauto
  have hnotL : ∀ j, N ≤ j → j ∉ t.leaves := fun j hj h => by have := hbd j (leaves_sub t j h); omega
  have hass : ∀ j, j < N → (s1.beach.heap j).assoc = ((s.beach.dropCircle i).heap j).assoc := fun j hj => by rw [hold j hj]; exact (holdI j hj).2
  obtain ⟨d1, d2, d3, d4, d5, d6, d7⟩ := dropCircle_spec s.beach i
  have hval : ∀ x, s1.beach.valid x = (s.beach.valid x && !((s.beach.heap i).assoc.any (fun c => (s.beach.heap c).event == x))) := by
    intro x; rw [e12, hvalidI, d7]
  -- the pointers of the chain
  have hps : ∀ j, (s1.beach.heap j).pred = (b.heap j).pred ∧ (s1.beach.heap j).succ = (b.heap j).succ ∧ tf (s1.beach.heap j) = tf (b.heap j) := by
    intro j
    rw [hheap]
    by_cases q1 : j = N + 2
    · subst q1; rw [if_pos rfl]; exact ⟨rfl, rfl, rfl⟩
    · rw [if_neg q1]
      by_cases q2 : j = N + 3
      · subst q2; rw [if_pos rfl]; exact ⟨rfl, rfl, rfl⟩
      · rw [if_neg q2]
        by_cases q3 : j = N
        · subst q3; rw [if_pos rfl]; exact ⟨rfl, rfl, rfl⟩
        · rw [if_neg q3]; exact ⟨rfl, rfl, rfl⟩
  have hT := hI.wf.thread
  have hT' := hwf'.thread
  rw [hids] at hT
  rw [hids'] at hT'
  have hpredO : ∀ j ∈ t.ids, j ≠ i → (s1.beach.heap j).pred = (s.beach.heap j).pred := by
    intro j hj hji
    rw [(hps j).1]
    rw [hids] at hj
    simp only [List.mem_append, List.mem_cons] at hj
    rcases hj with h | h | h
    · exact thr_pred_left P none _ _ _ _ hT hT' j h
    · exact absurd h hji
    · rw [thread_append] at hT hT'
      exact (thr_same Q (some i) none hT.2.2.2 hT'.2.2.2.2.2.2.2.2.2.2.2 j h).1
  have hsuccO : ∀ j ∈ t.ids, (s1.beach.heap j).succ = (s.beach.heap j).succ ∨ ((s.beach.heap j).succ = some i ∧ (s1.beach.heap j).succ = some (N + 1)) := by
    intro j hj
    rw [(hps j).2.1]
    rw [hids] at hj
    simp only [List.mem_append, List.mem_cons] at hj
    rcases hj with h | h | h
    · exact thr_succ_left P none _ _ _ _ _ _ hT hT' j h
    · left
      subst h
      rw [thread_append] at hT hT'
      rw [hT.2.2.1, hT'.2.2.2.2.2.2.2.2.2.2.1]
    · rw [thread_append] at hT hT'
      exact Or.inl (thr_same Q (some i) none hT.2.2.2 hT'.2.2.2.2.2.2.2.2.2.2.2 j h).2
  have hPi := (hI.around hi hids).1
  have hiQ := (hI.around hi hids).2
  -- breakpoints that were there before
  have hkeep : ∀ (f : Nat → Nat), (∀ j ∈ t.ids, (s1.beach.heap (f j)).face = (s.beach.heap j).face ∧ (s1.beach.heap (f j)).half = (s.beach.heap j).half) →
      ∀ x ∈ t.ids, ∀ y ∈ t.ids, ∀ z ∈ t.ids, Brk s x y z → Brk s1 (f x) (f y) (f z) := by
    intro f hf x hx y hy z hz hB
    obtain ⟨q1, q2, q3, h, g, q4, q5, q6, q7, q8, q9, q10, q11, q12, q13⟩ := hB
    refine ⟨by rw [(hf x hx).1]; exact q1, by rw [(hf y hy).1]; exact q2, by rw [(hf z hz).1]; exact q3, h, g, by rw [(hf y hy).2]; exact q4,
      by omega, by omega, ?_⟩
    rw [hEold h q5, hEold g q6, (hf x hx).1, (hf z hz).1]
    exact ⟨q7, q8, q9, q10, q11, q12, q13⟩
  have hnodup := hI.wf.nodup
  rw [hids] at hnodup
  have hiP : i ∉ P := fun h => (List.nodup_append.1 hnodup).2.2 i h i (by simp) rfl
  refine
    { wf := hwf'.frame e11 (by omega) (fun j _ => ⟨(hps j).2.2, (hps j).1, (hps j).2.1⟩)
      arc := ?_, face := ?_, chain := ?_, inj := ?_, edges := ?_, openL := ?_, openN := ?_
      site := ?_, siteInj := ?_, qnodup := ?_, qbound := ?_, nev := ?_, circles := ⟨?_, ?_⟩, sites := ?_, arcs := ?_, edgeN := ?_, mismatch := ?_ }
  · -- arc
    intro j hj
    rw [hmemL]
    rcases (hmem j).1 hj with h | rfl | rfl | rfl | rfl
    · have := hbd j h
      rw [(hpl j this).2.2, ← hI.arc j h]
      constructor
      · rintro (h1 | h1 | h1)
        · exact h1
        · omega
        · omega
      · exact Or.inl
    · rw [hcopy.2.2, hlf]; simp
    · rw [hbrk.2]; simp; exact hnotL _ (by omega)
    · rw [hnew.2.2]; simp
    · rw [htop.2]; simp; exact hnotL _ (by omega)
  · -- face
    intro j hj f hf
    rw [e2, e3]
    rcases (hmem j).1 hj with h | rfl | rfl | rfl | rfl
    · have := hbd j h
      rw [(hpl j this).2.2] at hf
      obtain ⟨q1, q2⟩ := hI.face j h f hf
      rw [(hpl j this).1]
      have hne : f ≠ s.nf := by omega
      exact ⟨by omega, by simp [hne, q2]⟩
    · rw [hcopy.2.2, hlf] at hf
      simp only [Option.some.injEq] at hf
      subst hf
      rw [hcopy.1]
      have hne : lf ≠ s.nf := by omega
      exact ⟨by omega, by simp [hne, lf2]⟩
    · rw [hbrk.2] at hf; simp at hf
    · rw [hnew.2.2] at hf
      simp only [Option.some.injEq] at hf
      subst hf
      exact ⟨by omega, by simp [hnew.1]⟩
    · rw [htop.2] at hf; simp at hf
  · -- chain
    rw [hids']
    have c1 : Chain (Brk s1) (P ++ [N + 1]) := by
      have := Chain.map (φ := Brk s) (ψ := Brk s1) (fun j => if j = i then N + 1 else j) (P ++ [i]) (fun x hx y hy z hz hB => by
        refine hkeep (fun j => if j = i then N + 1 else j) ?_ x ?_ y ?_ z ?_ hB
        · intro j hj
          by_cases q : j = i
          · subst q; simp [hcopy]
          · simp [q, hpl j (hbd j hj)]
        all_goals (rw [hids]; simp at *; tauto)) hPi
      rw [List.map_append] at this
      have e0 : P.map (fun j => if j = i then N + 1 else j) = P := by
        conv_rhs => rw [← List.map_id P]
        refine List.map_congr_left (fun j hj => ?_)
        have : j ≠ i := fun h => hiP (h ▸ hj)
        simp [this]
      rw [e0] at this
      simpa using this
    have c2 : Chain (Brk s1) (i :: Q) := by
      refine hiQ.mono (fun x hx y hy z hz hB => ?_)
      refine hkeep id ?_ x ?_ y ?_ z ?_ hB
      · intro j hj; exact ⟨(hpl j (hbd j hj)).2.2, (hpl j (hbd j hj)).2.1⟩
      all_goals (rw [hids]; simp at *; tauto)
    refine Chain.join P (N + 1) _ c1 ⟨?_, ?_, c2⟩
    · refine ⟨by rw [hcopy.2.2, hlf]; simp, hbrk.2, by rw [hnew.2.2]; simp, s.nhe, s.nhe + 1, hbrk.1, by omega, by omega, ?_⟩
      rw [hE1, hE2, hcopy.2.2, hlf, hnew.2.2]
      simp
    · refine ⟨by rw [hnew.2.2]; simp, htop.2, by rw [(hpl i hiN).2.2, hlf]; simp, s.nhe + 1, s.nhe, htop.1, by omega, by omega, ?_⟩
      rw [hE1, hE2, (hpl i hiN).2.2, hlf, hnew.2.2]
      simp
  · -- inj
    have hlt : ∀ j ∈ t.ids, (s.beach.heap j).face = none → ∀ h, (s.beach.heap j).half = some h → h < s.nhe := by
      intro j hj hjf h hh
      -- `j` is a breakpoint of the chain
      obtain ⟨P1, Q1, hx⟩ := List.append_of_mem hj
      have hc := hI.chain
      rw [hx] at hc
      rcases Chain.split P1 j Q1 hc with ⟨c1, c2⟩ | ⟨_, _, _, _, _, _, c3, _, _⟩
      · exfalso
        rcases c2.uncons with h1 | ⟨y, k, Q', _, h1, _⟩
        · rcases c1.unsnoc with h2 | ⟨P', a, x, _, h2, _⟩
          · -- a single arc
            subst h1; subst h2
            have : t.leaves = [j] := by
              have hm : i ∈ t.ids := hi'
              rw [hx] at hm
              simp at hm
              have h3 := ids_head t
              rw [hx] at h3
              have h4 := ids_getLast t
              rw [hx] at h4
              have h5 := ids_length' t
              rw [hx] at h5
              have h6 : t.leaves.length = 1 := by simp at h5; omega
              obtain ⟨z, hz⟩ := List.length_eq_one_iff.1 h6
              rw [hz] at h3 ⊢
              simpa using h3.symm
            exact (hI.arc j hj).1 (by rw [this]; simp) hjf
          · exact h2.2.2.1 hjf
        · exact h1.1 hjf
      · obtain ⟨_, _, _, h', g, q4, q5, _⟩ := c3
        rw [q4] at hh
        simp only [Option.some.injEq] at hh
        omega
    intro x hx y hy h fx fy hhx hhy
    have key : ∀ z ∈ t'.ids, (s1.beach.heap z).face = none → (s1.beach.heap z).half = some h →
        (z ∈ t.ids ∧ h < s.nhe ∧ (s.beach.heap z).face = none ∧ (s.beach.heap z).half = some h) ∨ (z = N + 2 ∧ h = s.nhe) ∨ (z = N + 3 ∧ h = s.nhe + 1) := by
      intro z hz fz hz2
      rcases (hmem z).1 hz with h' | rfl | rfl | rfl | rfl
      · have := hpl z (hbd z h')
        rw [this.2.2] at fz
        rw [this.2.1] at hz2
        exact Or.inl ⟨h', hlt z h' fz h hz2, fz, hz2⟩
      · rw [hcopy.2.2, hlf] at fz; simp at fz
      · rw [hbrk.1] at hz2; simp at hz2; exact Or.inr (Or.inl ⟨rfl, hz2.symm⟩)
      · rw [hnew.2.2] at fz; simp at fz
      · rw [htop.1] at hz2; simp at hz2; exact Or.inr (Or.inr ⟨rfl, hz2.symm⟩)
    rcases key x hx fx hhx with ⟨a1, a2, a3, a4⟩ | ⟨a1, a2⟩ | ⟨a1, a2⟩ <;> rcases key y hy fy hhy with ⟨b1, b2, b3, b4⟩ | ⟨b1, b2⟩ | ⟨b1, b2⟩ <;>
      first | omega | exact hI.inj x a1 y b1 h a3 b3 a4 b4
  · -- edges
    exact site_edges hI.edges lf lf1 hhe e1 e2 e4 e5 hfhe
  · -- openL
    intro h hh hl
    have : h < s.nhe ∨ h = s.nhe ∨ h = s.nhe + 1 := by omega
    rcases this with h' | rfl | rfl
    · rw [hEold h h'] at hl
      obtain ⟨b', q1, q2, q3⟩ := hI.openL h h' hl
      have := hpl b' (hbd b' q1)
      exact ⟨b', (hmem b').2 (Or.inl q1), by rw [this.2.2]; exact q2, by rw [this.2.1]; exact q3⟩
    · exact ⟨N + 2, (hmem _).2 (by tauto), hbrk.2, hbrk.1⟩
    · exact ⟨N + 3, (hmem _).2 (by tauto), htop.2, htop.1⟩
  · -- openN
    intro h hh hl
    have : h < s.nhe ∨ h = s.nhe ∨ h = s.nhe + 1 := by omega
    rcases this with h' | rfl | rfl
    · rw [hEold h h'] at hl ⊢
      obtain ⟨b', q1, g, q2, q3, q4⟩ := hI.openN h h' hl
      have := hpl b' (hbd b' q1)
      exact ⟨b', (hmem b').2 (Or.inl q1), g, by rw [this.2.2]; exact q2, by rw [this.2.1]; exact q3, q4⟩
    · exact ⟨N + 3, (hmem _).2 (by tauto), s.nhe + 1, htop.2, htop.1, by rw [hE1]⟩
    · exact ⟨N + 2, (hmem _).2 (by tauto), s.nhe, hbrk.2, hbrk.1, by rw [hE2]⟩
  · -- site
    intro f hf
    rw [e3, e7]
    by_cases q : f = s.nf
    · simp only [q, if_true]
      exact ⟨hen, hI.qnodup.not_mem_erase⟩
    · simp only [q, if_false]
      obtain ⟨q1, q2⟩ := hI.site f (by omega)
      exact ⟨q1, fun h => q2 (List.mem_of_mem_erase h)⟩
  · -- siteInj
    intro f hf g hg
    rw [e3]
    dsimp only
    have hx : ∀ f, f < s.nf → s.faceEv f ≠ e := fun f hf h => (hI.site f hf).2 (h ▸ he)
    by_cases q : f = s.nf
    · by_cases q' : g = s.nf
      · intro _; omega
      · rw [if_pos q, if_neg q']; intro h; exact absurd h.symm (hx g (by omega))
    · by_cases q' : g = s.nf
      · rw [if_neg q, if_pos q']; intro h; exact absurd h (hx f (by omega))
      · rw [if_neg q, if_neg q']; exact hI.siteInj f (by omega) g (by omega)
  · rw [e7]; exact hI.qnodup.erase e
  · intro x hx; rw [e7] at hx; rw [e8]; exact hI.qbound x (List.mem_of_mem_erase hx)
  · rw [e8]; exact hI.nev
  · -- circle events
    intro x hx hxn hv
    rw [e7] at hx
    rw [e9]
    rw [hval] at hv
    simp only [Bool.and_eq_true, Bool.not_eq_true'] at hv
    obtain ⟨c, j, q1, q2, q3, q4, q5, q6⟩ := hI.circles.event x (List.mem_of_mem_erase hx) hxn hv.1
    have hci : (s.beach.heap i).assoc ≠ some c := by
      intro h
      have := hv.2
      rw [h] at this
      simp [q2] at this
    have hji : j ≠ i := by rintro rfl; exact hci q5
    have hj := leaves_sub t j q4
    have hjN := hbd j hj
    obtain ⟨p1, p2, p3, _⟩ := hI.circles.arc j q4 c q5
    have hcN : c < N := hN ▸ p2
    refine ⟨c, j, q1, by rw [(hpl c hcN).1]; exact q2, ?_, (hmemL j).2 (Or.inl q4), ?_, ?_⟩
    · rw [hass c hcN, d5 c hci (fun h => p1 (h ▸ hi'))]; exact q3
    · rw [hass j hjN, d5 j ?_ hji]
      · exact q5
      · intro h
        exact (hI.circles.arc i hi j h).1 hj
    · obtain ⟨x', a, y, k, r1, r2, r3, r4, r5⟩ := q6
      have mx := wf_pred hI.wf hj r1
      have my := wf_succ hI.wf hj r3
      have ma := wf_pred hI.wf mx r2
      have mk := wf_succ hI.wf my r4
      have hfx : (s.beach.heap x').face = none := by
        rcases hI.leftOf q4 with h | ⟨z, _, z1, _, _, _, _, z2⟩
        · rw [h] at r1; simp at r1
        · rw [r1] at z1; simp at z1; rw [z1]; exact z2.2.1
      have hxi : x' ≠ i := by rintro rfl; rw [hlf] at hfx; simp at hfx
      have hfy : (s.beach.heap y).face = none := by
        rcases hI.rightOf q4 with h | ⟨z, _, z1, _, _, _, _, z2⟩
        · rw [h] at r3; simp at r3
        · rw [r3] at z1; simp at z1; rw [z1]; exact z2.2.1
      have hs1 : (s1.beach.heap j).succ = some y := by
        rcases hsuccO j hj with h | ⟨h, _⟩
        · rw [h, r3]
        · rw [r3] at h; simp at h; rw [h, hlf] at hfy; simp at hfy
      rcases hsuccO y my with h | ⟨h, h'⟩
      · refine ⟨x', a, y, k, by rw [hpredO j hj hji, r1], by rw [hpredO x' mx hxi, r2], hs1, by rw [h, r4], ?_⟩
        rw [(hpl a (hbd a ma)).1, (hpl k (hbd k mk)).1]; exact r5
      · rw [r4] at h
        simp only [Option.some.injEq] at h
        subst h
        refine ⟨x', a, y, N + 1, by rw [hpredO j hj hji, r1], by rw [hpredO x' mx hxi, r2], hs1, h', ?_⟩
        rw [(hpl a (hbd a ma)).1, hcopy.1]; exact r5
  · -- arcs with circle events
    intro j hj c hc
    rw [e7, e8, e9, e10]
    rcases (hmemL j).1 hj with h | rfl | rfl
    · have hjN := hbd j (leaves_sub t j h)
      rw [hass j hjN] at hc
      have hji : j ≠ i := by rintro rfl; rw [d4] at hc; simp at hc
      have hc0 : (s.beach.heap j).assoc = some c := by
        rcases d6 j with h' | h'
        · rw [← h', hc]
        · rw [h'] at hc; simp at hc
      obtain ⟨q1, q2, q3, q4, q5, q6, q7, q8⟩ := hI.circles.arc j h c hc0
      have hcN : c < N := hN ▸ q2
      have hci : (s.beach.heap i).assoc ≠ some c := by
        intro h'
        have := (hI.circles.arc i hi c h').2.2.1
        rw [q3] at this
        simp at this
        exact hji this
      rw [(hpl c hcN).1]
      refine ⟨?_, ?_, ?_, q4, q5, q6, ?_, ?_⟩
      · rw [hmem]
        rintro (h' | h')
        · exact q1 h'
        · omega
      · rw [hnextI]; omega
      · rw [hass c hcN, d5 c hci (fun h => q1 (h ▸ hi'))]; exact q3
      · refine (List.mem_erase_of_ne ?_).2 q7
        omega
      · rw [hval, q8]
        simp only [Bool.true_and, Bool.not_eq_true']
        cases h2 : (s.beach.heap i).assoc with
        | none => rfl
        | some c' =>
          simp only [Option.any_some, beq_eq_false_iff_ne, ne_eq]
          intro h3
          have := (hI.circles.arc i hi c' h2).2.2.2.2.2.1
          rw [h3, q6] at this
          simp at this
          exact hci (this ▸ h2)
    · rw [hheap, if_neg (by omega), if_neg (by omega), if_neg (by omega), hcopyI.2] at hc
      simp at hc
    · rw [hheap, if_neg (by omega), if_neg (by omega), if_pos rfl] at hc
      have := (hnewI j (Or.inl rfl)).2
      dsimp only at hc
      rw [this] at hc
      simp at hc
  · -- sites
    rw [e7, e2]
    have h1 := hI.sites
    have h2 : (s.queue.erase e).countP (fun e => decide (e < o.n)) + 1 = s.queue.countP (fun e => decide (e < o.n)) := by
      have hp := (List.perm_cons_erase he).countP_eq (fun e => decide (e < o.n))
      rw [List.countP_cons_of_pos (by simpa using hen)] at hp
      omega
    omega
  · rw [e5, e2, hlv']
    have := hI.arcs
    rw [hlv] at this
    simp only [List.length_append, List.length_cons] at this ⊢
    omega
  · rw [e1, e2, e5]; have := hI.edgeN; omega
  · rw [e6]; exact hI.mismatch

/-- a site event in a non-empty beach line -/
theorem handleSite_inv {o : Oracle} (ho : ∀ x, o.same x x = true) {s : Sweep} {t : T} (hI : Inv o s t) (e : Nat) (he : e ∈ s.queue) (hen : e < o.n) :
    ∃ s' t', Sweep.handleSite o { s with queue := s.queue.erase e } e = some s' ∧ Inv o s' t' ∧ s'.nf = s.nf + 1 ∧ s'.nv = s.nv ∧
      s'.queue.length ≤ s.queue.length + 1 ∧
      ∃ A B i, arcSites s t = A ++ i :: B ∧ arcSites s' t' = A ++ i :: e :: i :: B := by
  obtain ⟨i, b, t', hi, hb, hins⟩ := insert_wf (o.toLeft e) s.beach t hI.wf e
  have hi' := leaves_sub t i hi
  obtain ⟨lf, hlf⟩ := Option.ne_none_iff_exists'.1 ((hI.arc i hi').1 hi)
  have hS := site_inv hI e he hen b i lf hins hi hlf
  obtain ⟨P, Q, _, hids'⟩ := hins.ids
  obtain ⟨A, B, _, hlv'⟩ := hins.leaves
  have hT := hins.wf.thread
  rw [hids'] at hT
  have p1 : (b.heap s.beach.next).pred = some (s.beach.next + 2) := (thr_link (P := P ++ [s.beach.next + 1]) (by simpa using hT)).2
  have p2 : (b.heap s.beach.next).succ = some (s.beach.next + 3) := (thr_link (P := P ++ [s.beach.next + 1, s.beach.next + 2]) (by simpa using hT)).1
  have p3 : (b.heap (s.beach.next + 2)).pred = some (s.beach.next + 1) := (thr_link (P := P) (by simpa using hT)).2
  have p4 : (b.heap (s.beach.next + 1)).face = some lf := by
    have := hins.copy.1
    simp only [pl, Prod.mk.injEq] at this
    rw [this.2.2, hlf]
  have hmem : s.beach.next ∈ t'.leaves := by rw [hlv']; simp
  obtain ⟨s2, q1, q2, q3, q4, q5⟩ := makeLeft_inv ho hS s.beach.next e hmem
  obtain ⟨s3, r1, r2, r3, r4, r5⟩ := makeRight_inv ho q2 s.beach.next e hmem
  obtain ⟨_, e2, _, _, e5, _, e7, _⟩ := siteState_other { s with queue := s.queue.erase e } b s.beach.next e (s.beach.next + 2) (s.beach.next + 3) lf
  refine ⟨s3, t', ?_, r2, by rw [r3, q3, e2], by rw [r4, q4, e5], ?_, ?_⟩
  · have hn : ∀ j f, ((({ s with queue := s.queue.erase e, beach := b } : Sweep).newFace s.beach.next e).beach.heap j).pred = f ↔ (b.heap j).pred = f := by
      intro j f
      simp only [Sweep.newFace, Beach.mod]
      by_cases h : j = s.beach.next <;> simp [h]
    have hn2 : ∀ j f, ((({ s with queue := s.queue.erase e, beach := b } : Sweep).newFace s.beach.next e).beach.heap j).succ = f ↔ (b.heap j).succ = f := by
      intro j f
      simp only [Sweep.newFace, Beach.mod]
      by_cases h : j = s.beach.next <;> simp [h]
    have hn3 : ((({ s with queue := s.queue.erase e, beach := b } : Sweep).newFace s.beach.next e).beach.heap (s.beach.next + 1)).face = some lf := by
      simp only [Sweep.newFace, Beach.mod]
      simp [p4]
    unfold Sweep.handleSite
    simp only [hb]
    rw [(hn _ _).2 p1, (hn2 _ _).2 p2]
    dsimp only
    rw [(hn _ _).2 p3]
    dsimp only
    rw [hn3]
    dsimp only
    have q1' : Sweep.makeLeft o (((({ s with queue := s.queue.erase e, beach := b } : Sweep).newFace s.beach.next e).siteEdges s.nf (s.beach.next + 2)
      (s.beach.next + 3) lf)) s.beach.next e = some s2 := q1
    rw [q1']
    exact r1
  · rw [e7] at q5
    have := List.length_erase_of_mem he
    have : 0 < s.queue.length := List.length_pos_of_mem he
    dsimp only at q5
    omega
  · obtain ⟨A, B, hA, hA'⟩ := hins.leaves
    have hev : ∀ j ∈ t'.leaves, (s3.beach.heap j).event = (b.heap j).event := by
      intro j hj
      have hj' := leaves_sub t' j hj
      rw [makeRight_event r1 j (q2.wf.bound j hj'), makeLeft_event q1 j (hS.wf.bound j hj')]
      rw [siteState_heap _ _ _ _ _ _ _ (by omega) (by omega) (by omega)]
      split
      · next h => rw [h]
      · split
        · next h => rw [h]
        · split
          · next h => rw [h]
          · rfl
    have hold : ∀ j ∈ t.leaves, (b.heap j).event = (s.beach.heap j).event := by
      intro j hj
      have := (hins.old j (hI.wf.bound j (leaves_sub t j hj))).1
      simp only [pl, Prod.mk.injEq] at this
      exact this.1
    have e4 : (b.heap s.beach.next).event = e := by have := (hins.new s.beach.next (Or.inl rfl)).1; simp only [pl, Prod.mk.injEq] at this; exact this.1
    have e5 : (b.heap (s.beach.next + 1)).event = (s.beach.heap i).event := by have := hins.copy.1; simp only [pl, Prod.mk.injEq] at this; exact this.1
    refine ⟨A.map (fun i => (s.beach.heap i).event), B.map (fun i => (s.beach.heap i).event), (s.beach.heap i).event, by simp [arcSites, hA], ?_⟩
    have h0 : arcSites s3 t' = t'.leaves.map (fun i => (b.heap i).event) := List.map_congr_left hev
    rw [h0, hA']
    rw [hA] at hold
    have m1 : A.map (fun i => (b.heap i).event) = A.map (fun i => (s.beach.heap i).event) := List.map_congr_left (fun j hj => hold j (by simp [hj]))
    have m2 : B.map (fun i => (b.heap i).event) = B.map (fun i => (s.beach.heap i).event) := List.map_congr_left (fun j hj => hold j (by simp [hj]))
    simp only [List.map_append, List.map_cons, m1, m2, e4, e5, hold i (by simp)]

/-- the first site event -/
theorem handleSite_first {o : Oracle} (e : Nat) (hen : e < o.n) :
    ∃ s' t', (Sweep.start o.n).step o e = some s' ∧ Inv o s' t' ∧ s'.nf = 1 ∧ s'.nv = 0 ∧ s'.queue.length + 1 = o.n ∧
      arcSites s' t' = [e] := by
  obtain ⟨b, h1, h2, h3, h4, h5, h6⟩ := insert_empty (o.toLeft e) Beach.empty rfl e
  have hb0 : Beach.empty.next = 0 := rfl
  rw [hb0] at h1 h2 h5 h6 h3
  refine ⟨({ Sweep.start o.n with queue := (List.range o.n).erase e, beach := b } : Sweep).newFace 0 e, .leaf 0, ?_, ?_, rfl, rfl, ?_, ?_⟩
  · unfold Sweep.step Sweep.handleSite
    have h1' : Beach.insert (o.toLeft e) (Sweep.start o.n).beach e = some (0, b) := h1
    rw [if_pos hen]
    dsimp only
    rw [h1']
    dsimp only
    have hp : ((({ Sweep.start o.n with queue := (Sweep.start o.n).queue.erase e, beach := b } : Sweep).newFace 0 e).beach.heap 0).pred = none := by
      simp [Sweep.newFace, Beach.mod, h5]
    have hs : ((({ Sweep.start o.n with queue := (Sweep.start o.n).queue.erase e, beach := b } : Sweep).newFace 0 e).beach.heap 0).succ = none := by
      simp [Sweep.newFace, Beach.mod, h5]
    rw [hp, hs]
    rfl
  · have hh : ∀ j, (({ Sweep.start o.n with queue := (List.range o.n).erase e, beach := b } : Sweep).newFace 0 e).beach.heap j =
        if j = 0 then { event := e, face := some 0 } else b.heap j := by
      intro j
      simp only [Sweep.newFace, Beach.mod, Sweep.start]
      by_cases hj : j = 0 <;> simp [hj, h5]
    have hq : e ∈ List.range o.n := List.mem_range.2 hen
    have hnd : (List.range o.n).Nodup := List.nodup_range
    refine
      { wf := ?_, arc := ?_, face := ?_, chain := trivial, inj := ?_, edges := ?_, openL := ?_, openN := ?_
        site := ?_, siteInj := ?_, qnodup := hnd.erase e, qbound := ?_, nev := Nat.le_refl _, circles := ⟨?_, ?_⟩, sites := ?_, arcs := rfl, edgeN := rfl, mismatch := rfl }
    · refine h2.frame rfl (Nat.le_refl _) (fun j hj => ?_)
      simp only [T.ids, List.mem_singleton] at hj
      subst hj
      rw [hh, if_pos rfl, h5]
      exact ⟨rfl, rfl, rfl⟩
    · intro i hi
      simp only [T.ids, List.mem_singleton] at hi
      subst hi
      rw [hh]
      simp [T.leaves]
    · intro i hi f hf
      simp only [T.ids, List.mem_singleton] at hi
      subst hi
      rw [hh] at hf ⊢
      simp only [if_true, Option.some.injEq] at hf
      subst hf
      exact ⟨Nat.one_pos, rfl⟩
    · intro x hx y hy
      simp only [T.ids, List.mem_singleton] at hx hy
      intros; omega
    · constructor
      · intro h hh; exact absurd hh (Nat.not_lt_zero _)
      · intro h hh; exact absurd hh (Nat.not_lt_zero _)
      · intro h hh; exact absurd hh (Nat.not_lt_zero _)
      · intro h hh; exact absurd hh (Nat.not_lt_zero _)
      · intro h hh; exact absurd hh (Nat.not_lt_zero _)
      · intro h hh; exact absurd hh (Nat.not_lt_zero _)
      · intro f hf h hfh
        simp only [Sweep.newFace, Sweep.start] at hfh
        by_cases h0 : f = 0 <;> simp [h0] at hfh
      · intro h; exact absurd h (by simp [Sweep.newFace, Sweep.start])
    · intro h hh; exact absurd hh (Nat.not_lt_zero _)
    · intro h hh; exact absurd hh (Nat.not_lt_zero _)
    · intro f hf
      have : f = 0 := by simp [Sweep.newFace, Sweep.start] at hf; exact hf
      subst this
      exact ⟨hen, hnd.not_mem_erase⟩
    · intro f hf g hg _
      simp [Sweep.newFace, Sweep.start] at hf hg
      omega
    · intro x hx
      exact List.mem_range.1 (List.mem_of_mem_erase hx)
    · intro x hx hxn
      have := List.mem_range.1 (List.mem_of_mem_erase hx)
      omega
    · intro i hi c hc
      simp only [T.leaves, List.mem_singleton] at hi
      subst hi
      rw [hh] at hc
      simp at hc
    · have hp := (List.perm_cons_erase hq).countP_eq (fun e => decide (e < o.n))
      rw [List.countP_cons_of_pos (by simpa using hen)] at hp
      have hall : (List.range o.n).countP (fun e => decide (e < o.n)) = o.n := by
        rw [List.countP_eq_length.2 (fun a ha => by simpa using ha), List.length_range]
      show ((List.range o.n).erase e).countP _ + (0 + 1) = o.n
      omega
  · show ((List.range o.n).erase e).length + 1 = o.n
    have := List.length_erase_of_mem (List.mem_range.2 hen)
    rw [List.length_range] at this
    omega
  · simp [arcSites, T.leaves, Sweep.newFace, Beach.mod, h5]

end Verif.Voronoi

import Verif.Voronoi.SweepLoop

/-! One round of the sweep keeps the invariant; the whole loop. -/
namespace Verif.Voronoi

/-- a circle event that is still valid -/
theorem handleCircle_inv {o : Oracle} (ho : ∀ x, o.same x x = true) {s : Sweep} {t : T} (hI : Inv o s t) (e : Nat) (he : e ∈ s.queue) (hen : o.n ≤ e)
    (hv : s.beach.valid e = true) :
    ∃ s' t', Sweep.handleCircle o { s with queue := s.queue.erase e } e = some s' ∧ Inv o s' t' ∧ s'.nf = s.nf ∧ s'.nv = s.nv + 1 ∧
      s'.queue.length ≤ s.queue.length + 1 ∧
      ∃ A B a i k, a ≠ k ∧ arcSites s t = A ++ a :: i :: k :: B ∧ arcSites s' t' = A ++ a :: k :: B := by
  obtain ⟨c, i, hne, hce, hci, hi, hic, hnb⟩ := hI.circles.event e he hen hv
  obtain ⟨x0, a0, y0, k0, n1, n2, n3, n4, n5⟩ := hnb
  obtain ⟨a, k, x, y, bp, b, t', hb, hrem⟩ := remove_wf s.beach t hI.wf i hi (by rw [n1]; simp) (by rw [n3]; simp) (by rw [hic]; simp)
    (fun j hj n hn => (hI.circles.arc j hj n hn).1)
  obtain ⟨P, Q, hids, hids'⟩ := hrem.ids
  obtain ⟨A, B, hlv, hlv'⟩ := hrem.leaves
  have hT := hI.wf.thread
  have hT' := hrem.wf.thread
  rw [hids] at hT
  rw [hids'] at hT'
  have u1 : (s.beach.heap i).pred = some x := (thr_link (P := P ++ [a]) (by simpa using hT)).2
  have u2 : (s.beach.heap x).pred = some a := (thr_link (P := P) (by simpa using hT)).2
  have u3 : (s.beach.heap i).succ = some y := (thr_link (P := P ++ [a, x]) (by simpa using hT)).1
  have u4 : (s.beach.heap y).succ = some k := (thr_link (P := P ++ [a, x, i]) (by simpa using hT)).1
  rw [u1] at n1; simp only [Option.some.injEq] at n1; subst n1
  rw [u3] at n3; simp only [Option.some.injEq] at n3; subst n3
  rw [u2] at n2; simp only [Option.some.injEq] at n2; subst n2
  rw [u4] at n4; simp only [Option.some.injEq] at n4; subst n4
  obtain ⟨l, lt, hxl, hlt⟩ : ∃ l lt, (s.beach.heap x).half = some l ∧ (s.he l).twin = some lt := by
    rcases hI.leftOf hi with h | ⟨x', a', h1, _, _, _, _, _, _, _, h, g, q1, _, _, q2, _⟩
    · rw [u1] at h; simp at h
    · rw [u1] at h1; simp only [Option.some.injEq] at h1; subst h1
      exact ⟨h, g, q1, q2⟩
  obtain ⟨r, rt, hyr, hrt⟩ : ∃ r rt, (s.beach.heap y).half = some r ∧ (s.he r).twin = some rt := by
    rcases hI.rightOf hi with h | ⟨x', a', h1, _, _, _, _, _, _, _, h, g, q1, _, _, q2, _⟩
    · rw [u3] at h; simp at h
    · rw [u3] at h1; simp only [Option.some.injEq] at h1; subst h1
      exact ⟨h, g, q1, q2⟩
  have hS := circle_inv hI e he hen c i a k x y bp b hne hce hci hi hic n5 hrem l lt r rt hxl hyr hlt hrt
  obtain ⟨_, e2, _, _, e5, _, e7, _, _, e10, _⟩ := circle_other { s with queue := s.queue.erase e, mismatch := s.mismatch + (if (s.he lt).face = (s.he r).face then 0 else 1), beach := b } l lt r rt bp
  have w1 : (b.heap bp).pred = some a := (thr_link (P := P) (by simpa using hT')).2
  have w2 : (b.heap bp).succ = some k := (thr_link (P := P ++ [a]) (by simpa using hT')).1
  obtain ⟨s2, q1, q2, q3, q4, q5⟩ := makeRight_inv ho hS a e (by rw [hlv']; simp)
  obtain ⟨s3, r1, r2, r3, r4, r5⟩ := makeLeft_inv ho q2 k e (by rw [hlv']; simp)
  refine ⟨s3, t', ?_, r2, by rw [r3, q3, e2], by rw [r4, q4, e5], ?_, ?_⟩
  · unfold Sweep.handleCircle
    simp only [hne, hci, u1, u3, hxl, hyr, hlt, hrt]
    unfold Sweep.closeArc
    simp only [hb]
    have z1 : ((Sweep.circleEdges { s with queue := s.queue.erase e, mismatch := s.mismatch + (if (s.he lt).face = (s.he r).face then 0 else 1), beach := b } l lt r rt bp).beach.heap bp).pred = some a := by
      rw [e10]; simp [Beach.mod, w1]
    have z2 : ((Sweep.circleEdges { s with queue := s.queue.erase e, mismatch := s.mismatch + (if (s.he lt).face = (s.he r).face then 0 else 1), beach := b } l lt r rt bp).beach.heap bp).succ = some k := by
      rw [e10]; simp [Beach.mod, w2]
    rw [z1, z2]
    dsimp only
    rw [q1]
    exact r1
  · rw [e7] at q5
    have := List.length_erase_of_mem he
    have : 0 < s.queue.length := List.length_pos_of_mem he
    dsimp only at q5
    omega
  · have hev : ∀ j ∈ t'.leaves, (s3.beach.heap j).event = (s.beach.heap j).event := by
      intro j hj
      have hj' := leaves_sub t' j hj
      rw [makeLeft_event r1 j (q2.wf.bound j hj'), makeRight_event q1 j (hS.wf.bound j hj'), e10]
      have : ((b.mod bp (fun n => { n with half := some (s.nhe + 1) })).heap j).event = (b.heap j).event := by
        simp only [Beach.mod]
        by_cases h : j = bp <;> simp [h]
      exact this.trans (hrem.event j)
    have h0 : arcSites s3 t' = t'.leaves.map (fun i => (s.beach.heap i).event) := List.map_congr_left hev
    refine ⟨A.map (fun i => (s.beach.heap i).event), B.map (fun i => (s.beach.heap i).event), _, _, _, n5, by simp [arcSites, hlv]; rfl, ?_⟩
    rw [h0, hlv']
    simp

/-- a circle event that is no longer valid is dropped -/
theorem drop_inv {o : Oracle} {s : Sweep} {t : T} (hI : Inv o s t) (e : Nat) (he : e ∈ s.queue) (hen : o.n ≤ e) (hv : s.beach.valid e ≠ true) :
    Inv o { s with queue := s.queue.erase e } t := by
  refine
    { wf := hI.wf, arc := hI.arc, face := hI.face, chain := hI.chain, inj := hI.inj, edges := hI.edges.congr rfl rfl rfl rfl rfl rfl, openL := hI.openL, openN := hI.openN
      site := fun f hf => ⟨(hI.site f hf).1, fun h => (hI.site f hf).2 (List.mem_of_mem_erase h)⟩, siteInj := hI.siteInj
      qnodup := hI.qnodup.erase e, qbound := fun z hz => hI.qbound z (List.mem_of_mem_erase hz), nev := hI.nev
      circles := ⟨fun z hz => hI.circles.event z (List.mem_of_mem_erase hz), ?_⟩, sites := ?_, arcs := hI.arcs, edgeN := hI.edgeN, mismatch := hI.mismatch }
  · intro i hi c hc
    obtain ⟨q1, q2, q3, q4, q5, q6, q7, q8⟩ := hI.circles.arc i hi c hc
    exact ⟨q1, q2, q3, q4, q5, q6, (List.mem_erase_of_ne (fun h => hv (by rw [← h]; exact q8))).2 q7, q8⟩
  · have hp := (List.perm_cons_erase he).countP_eq (fun e => decide (e < o.n))
    rw [List.countP_cons_of_neg (by simp; exact hen)] at hp
    have := hI.sites
    dsimp only
    omega

/-- one round -/
theorem step_inv {o : Oracle} (ho : ∀ x, o.same x x = true) {s : Sweep} {t : T} (hI : Inv o s t) (e : Nat) (he : e ∈ s.queue) :
    ∃ s' t', s.step o e = some s' ∧ Inv o s' t' ∧ s.nf + s.nv ≤ s'.nf + s'.nv ∧
      s'.queue.length + 1 + 2 * (s.nf + s.nv) ≤ s.queue.length + 2 * (s'.nf + s'.nv) ∧ ends s' t' = ends s t := by
  unfold Sweep.step
  by_cases hen : e < o.n
  · obtain ⟨s', t', h1, h2, h3, h4, h5, A, B, i, h6, h7⟩ := handleSite_inv ho hI e he hen
    refine ⟨s', t', by rw [if_pos hen]; exact h1, h2, by omega, by omega, ?_⟩
    unfold ends
    rw [h6, h7]
    refine Prod.ext ?_ ?_
    · cases A <;> simp
    · simp [List.getLast?_append, List.getLast?_cons]
  · rw [if_neg hen]
    dsimp only
    by_cases hv : s.beach.valid e = true
    · obtain ⟨s', t', h1, h2, h3, h4, h5, A, B, a, i, k, _, h6, h7⟩ := handleCircle_inv ho hI e he (by omega) hv
      refine ⟨s', t', by rw [if_pos hv]; exact h1, h2, by omega, by omega, ?_⟩
      unfold ends
      rw [h6, h7]
      refine Prod.ext ?_ ?_
      · cases A <;> simp
      · simp [List.getLast?_append, List.getLast?_cons]
    · refine ⟨_, t, by rw [if_neg hv], drop_inv hI e he (by omega) hv, Nat.le_refl _, ?_, rfl⟩
      have := List.length_erase_of_mem he
      have : 0 < s.queue.length := List.length_pos_of_mem he
      dsimp only
      omega

/-- every state of the loop after the first round satisfies the invariant, and the number of rounds is bounded -/
theorem reach_inv {o : Oracle} (ho : ∀ x, o.same x x = true) {k : Nat} {s : Sweep} (hr : Reach o k s) :
    (k = 0 ∧ s = Sweep.start o.n) ∨ ∃ t, Inv o s t ∧ k + s.queue.length ≤ o.n + 2 * (s.nf + s.nv) ∧ ∃ e, e < o.n ∧ ends s t = (some e, some e) := by
  induction hr with
  | start => exact Or.inl ⟨rfl, rfl⟩
  | step e hr he hs ih =>
    right
    rcases ih with ⟨rfl, rfl⟩ | ⟨t, hI, hk, x, hx, hends⟩
    · have hen : e < o.n := by simpa [Sweep.start] using he
      obtain ⟨s', t', h1, h2, h3, h4, h5, h6⟩ := handleSite_first e hen
      rw [h1] at hs; simp only [Option.some.injEq] at hs; subst hs
      exact ⟨t', h2, by omega, e, hen, by simp [ends, h6]⟩
    · obtain ⟨s', t', h1, h2, h3, h4, h5⟩ := step_inv ho hI e he
      rw [h1] at hs; simp only [Option.some.injEq] at hs; subst hs
      exact ⟨t', h2, by omega, x, hx, by rw [h5, hends]⟩

end Verif.Voronoi

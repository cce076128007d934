import Verif.Voronoi.SweepClose

/-! One round of the sweep, and all of it. -/
namespace Verif.Voronoi

theorem Inv.brk {o : Oracle} {s : Sweep} {t : T} (hI : Inv o s t) {j : Nat} (hj : j ∈ t.ids) (hf : (s.beach.heap j).face = none) :
    ∃ a k, Brk s a j k ∧ a ∈ t.leaves ∧ k ∈ t.leaves ∧ (s.beach.heap j).pred = some a ∧ (s.beach.heap j).succ = some k := by
  obtain ⟨P, Q, hx⟩ := List.append_of_mem hj
  have hc := hI.chain
  rw [hx] at hc
  rcases Chain.split P j Q hc with ⟨c1, c2⟩ | ⟨P', a, k, Q', h1, h2, h3, _, _⟩
  · exfalso
    rcases c2.uncons with h1 | ⟨y, k, Q', _, h1, _⟩
    · rcases c1.unsnoc with h2 | ⟨P', a, x, _, h2, _⟩
      · subst h1; subst h2
        have h5 := ids_length' t
        rw [hx] at h5
        have h6 : t.leaves.length = 1 := by simp at h5; omega
        obtain ⟨z, hz⟩ := List.length_eq_one_iff.1 h6
        have h3 := ids_head t
        rw [hx, hz] at h3
        simp at h3
        exact (hI.arc j hj).1 (by rw [hz, h3]; simp) hf
      · exact h2.2.2.1 hf
    · exact h1.1 hf
  · subst h1; subst h2
    have hT := hI.wf.thread
    rw [hx] at hT
    refine ⟨a, k, h3, (hI.arc a (by rw [hx]; simp)).2 h3.1, (hI.arc k (by rw [hx]; simp)).2 h3.2.2.1, ?_, ?_⟩
    · exact (thr_link (P := P') (by simpa using hT)).2
    · exact (thr_link hT).1

set_option maxHeartbeats 1600000 in
theorem circle_inv {o : Oracle} {s : Sweep} {t t' : T} (hI : Inv o s t) (e : Nat) (he : e ∈ s.queue) (hen : o.n ≤ e) (c i a k x y bp : Nat) (b : Beach)
    (hne : s.node e = some c) (hce : (s.beach.heap c).event = e) (hci : (s.beach.heap c).assoc = some i) (hi : i ∈ t.leaves)
    (hic : (s.beach.heap i).assoc = some c) (hev : (s.beach.heap a).event ≠ (s.beach.heap k).event)
    (hrem : Removed s.beach b t t' i a k x y bp) (l lt r rt : Nat) (hxl : (s.beach.heap x).half = some l) (hyr : (s.beach.heap y).half = some r)
    (hlt : (s.he l).twin = some lt) (hrt : (s.he r).twin = some rt) :
    Inv o (Sweep.circleEdges { s with queue := s.queue.erase e, mismatch := s.mismatch + (if (s.he lt).face = (s.he r).face then 0 else 1), beach := b } l lt r rt bp) t' := by
  obtain ⟨hwf', ⟨P, Q, hids, hids'⟩, ⟨A, B, hlv, hlv'⟩, hbp, hnextR, hplR, heventR, hclearR, hkeptR, hassocR, hvalidR⟩ := hrem
  have hi' := leaves_sub t i hi
  have hnd := hI.wf.nodup
  have hT := hI.wf.thread
  have hT' := hwf'.thread
  rw [hids] at hnd hT
  rw [hids'] at hT'
  -- membership
  have ma : a ∈ t.ids := by rw [hids]; simp
  have mx : x ∈ t.ids := by rw [hids]; simp
  have my : y ∈ t.ids := by rw [hids]; simp
  have mk : k ∈ t.ids := by rw [hids]; simp
  have la : a ∈ t.leaves := by rw [hlv]; simp
  have lk : k ∈ t.leaves := by rw [hlv]; simp
  have u1 : (s.beach.heap i).pred = some x := (thr_link (P := P ++ [a]) (by simpa using hT)).2
  have u2 : (s.beach.heap x).pred = some a := (thr_link (P := P) (by simpa using hT)).2
  have u3 : (s.beach.heap i).succ = some y := (thr_link (P := P ++ [a, x]) (by simpa using hT)).1
  have u4 : (s.beach.heap y).succ = some k := (thr_link (P := P ++ [a, x, i]) (by simpa using hT)).1
  have u5 : (s.beach.heap x).succ = some i := (thr_link (P := P ++ [a]) (by simpa using hT)).1
  have u6 : (s.beach.heap y).pred = some i := (thr_link (P := P ++ [a, x, i]) (by simpa using hT) |>.2 |> fun _ => (thr_link (P := P ++ [a, x]) (by simpa using hT)).2)
  have hBx : Brk s a x i := by
    rcases hI.leftOf hi with h | ⟨x', a', h1, h2, _, _, _, h3⟩
    · rw [u1] at h; simp at h
    · rw [u1] at h1; simp only [Option.some.injEq] at h1; subst h1
      rw [u2] at h2; simp only [Option.some.injEq] at h2; subst h2
      exact h3
  have hBy : Brk s i y k := by
    rcases hI.rightOf hi with h | ⟨y', k', h1, h2, _, _, _, h3⟩
    · rw [u3] at h; simp at h
    · rw [u3] at h1; simp only [Option.some.injEq] at h1; subst h1
      rw [u4] at h2; simp only [Option.some.injEq] at h2; subst h2
      exact h3
  have fx : (s.beach.heap x).face = none := hBx.2.1
  have fy : (s.beach.heap y).face = none := hBy.2.1
  have fa : (s.beach.heap a).face ≠ none := hBx.1
  have fk : (s.beach.heap k).face ≠ none := hBy.2.2.1
  have fi : (s.beach.heap i).face ≠ none := hBx.2.2.1
  obtain ⟨_, _, _, h0, g0, x1, x2, x3, x4, x5, x6, x7, x8, x9, x10⟩ := hBx
  rw [hxl] at x1; simp only [Option.some.injEq] at x1; subst x1
  rw [hlt] at x4; simp only [Option.some.injEq] at x4; subst x4
  obtain ⟨_, _, _, h0, g0, y1, y2, y3, y4, y5, y6, y7, y8, y9, y10⟩ := hBy
  rw [hyr] at y1; simp only [Option.some.injEq] at y1; subst y1
  rw [hrt] at y4; simp only [Option.some.injEq] at y4; subst y4
  have hxy : x ≠ y := by
    rintro rfl
    have := hnd
    simp [List.nodup_append] at this
  -- the four half edges are different
  have d1 : l ≠ lt := by
    rintro rfl
    obtain ⟨g, _, g2, _, g4⟩ := hI.edges.twin l x2
    rw [hlt] at g2; simp only [Option.some.injEq] at g2; exact g4 g2.symm
  have d6 : r ≠ rt := by
    rintro rfl
    obtain ⟨g, _, g2, _, g4⟩ := hI.edges.twin r y2
    rw [hrt] at g2; simp only [Option.some.injEq] at g2; exact g4 g2.symm
  have d2 : l ≠ r := by rintro rfl; exact hxy (hI.inj x mx y my l fx fy hxl hyr)
  have d5 : lt ≠ rt := by
    rintro rfl
    rw [x5] at y5; simp only [Option.some.injEq] at y5; exact d2 y5
  have hfae : ∀ p q f, p ∈ t.ids → q ∈ t.ids → (s.beach.heap p).face = some f → (s.beach.heap q).face = some f → (s.beach.heap p).event = (s.beach.heap q).event := by
    intro p q f hp hq h1 h2
    rw [← (hI.face p hp f h1).2, ← (hI.face q hq f h2).2]
  have d3 : l ≠ rt := by
    rintro rfl
    rw [x6] at y7
    obtain ⟨f, hf⟩ := Option.ne_none_iff_exists'.1 fa
    exact hev (hfae a k f ma mk hf (by rw [← y7, hf]))
  have d4 : lt ≠ r := by
    rintro rfl
    rw [hrt] at x5; simp only [Option.some.injEq] at x5; exact d3 x5.symm
  have hff : (s.he lt).face = (s.he r).face := by rw [x7, y6]
  rw [if_pos hff]
  -- the new state
  have hhe := circle_he { s with queue := s.queue.erase e, mismatch := s.mismatch + 0, beach := b } l lt r rt bp x2 x3 y2 y3 d1 d2 d3 d4 d5 d6
  obtain ⟨e1, e2, e3, e4, e5, e6, e7, e8, e9, e10, e11⟩ := circle_other { s with queue := s.queue.erase e, mismatch := s.mismatch + 0, beach := b } l lt r rt bp
  generalize Sweep.circleEdges { s with queue := s.queue.erase e, mismatch := s.mismatch + 0, beach := b } l lt r rt bp = s1 at *
  dsimp only at hhe e1 e2 e3 e4 e5 e6 e7 e8 e9 e10 e11
  have hone : s1.he s.nhe = { twin := some (s.nhe + 1), last := some rt, face := (s.he rt).face } := by rw [hhe, if_pos rfl]
  have htwo : s1.he (s.nhe + 1) = { twin := some s.nhe, target := some s.nv, next := some l, face := (s.he l).face } := by rw [hhe, if_neg (by omega), if_pos rfl]
  have hHE : ∀ j, j < s.nhe → (s1.he j).twin = (s.he j).twin ∧ (s1.he j).face = (s.he j).face ∧
      (j ≠ l → j ≠ r → (s1.he j).last = (s.he j).last) ∧ (j ≠ lt → j ≠ rt → (s1.he j).next = (s.he j).next ∧ (s1.he j).target = (s.he j).target) := by
    intro j hj
    rw [hhe, if_neg (by omega), if_neg (by omega)]
    by_cases h1 : j = l
    · subst h1; rw [if_pos rfl]; exact ⟨rfl, rfl, fun h => absurd rfl h, fun _ _ => ⟨rfl, rfl⟩⟩
    · rw [if_neg h1]
      by_cases h2 : j = lt
      · subst h2; rw [if_pos rfl]; exact ⟨rfl, rfl, fun _ _ => rfl, fun h => absurd rfl h⟩
      · rw [if_neg h2]
        by_cases h3 : j = r
        · subst h3; rw [if_pos rfl]; exact ⟨rfl, rfl, fun _ h => absurd rfl h, fun _ _ => ⟨rfl, rfl⟩⟩
        · rw [if_neg h3]
          by_cases h4 : j = rt
          · subst h4; rw [if_pos rfl]; exact ⟨rfl, rfl, fun _ _ => rfl, fun _ h => absurd rfl h⟩
          · rw [if_neg h4]; exact ⟨rfl, rfl, fun _ _ => rfl, fun _ _ => ⟨rfl, rfl⟩⟩
  have hlastL : (s1.he l).last = some (s.nhe + 1) := by rw [hhe, if_neg (by omega), if_neg (by omega), if_pos rfl]
  have hlastR : (s1.he r).last = some lt := by
    rw [hhe, if_neg (by omega), if_neg (by omega), if_neg (Ne.symm d2), if_neg (Ne.symm d4), if_pos rfl]
  have hnextLT : (s1.he lt).next = some r := by rw [hhe, if_neg (by omega), if_neg (by omega), if_neg (Ne.symm d1), if_pos rfl]
  have hnextRT : (s1.he rt).next = some s.nhe := by
    rw [hhe, if_neg (by omega), if_neg (by omega), if_neg (Ne.symm d3), if_neg (Ne.symm d5), if_neg (Ne.symm d6), if_pos rfl]
  -- nodes
  have hnode : ∀ j, s1.beach.heap j = if j = bp then { b.heap bp with half := some (s.nhe + 1) } else b.heap j := fun j => by rw [e10]; rfl
  have hkeepN : ∀ j, (s1.beach.heap j).event = (b.heap j).event ∧ tf (s1.beach.heap j) = tf (b.heap j) ∧ (s1.beach.heap j).pred = (b.heap j).pred ∧
      (s1.beach.heap j).succ = (b.heap j).succ ∧ (s1.beach.heap j).assoc = (b.heap j).assoc ∧ (s1.beach.heap j).face = (b.heap j).face := by
    intro j
    rw [hnode]
    by_cases h : j = bp
    · subst h; rw [if_pos rfl]; exact ⟨rfl, rfl, rfl, rfl, rfl, rfl⟩
    · rw [if_neg h]; exact ⟨rfl, rfl, rfl, rfl, rfl, rfl⟩
  have hevt : ∀ j, (s1.beach.heap j).event = (s.beach.heap j).event := fun j => by rw [(hkeepN j).1, heventR]
  have hface : ∀ j ∈ t'.ids, (s1.beach.heap j).face = (s.beach.heap j).face := by
    intro j hj
    rw [(hkeepN j).2.2.2.2.2]
    have := hplR j hj
    simp only [pl, Prod.mk.injEq] at this
    exact this.2.2
  have hhalf : ∀ j ∈ t'.ids, j ≠ bp → (s1.beach.heap j).half = (s.beach.heap j).half := by
    intro j hj hjb
    rw [hnode, if_neg hjb]
    have := hplR j hj
    simp only [pl, Prod.mk.injEq] at this
    exact this.2.1
  have hhalfB : (s1.beach.heap bp).half = some (s.nhe + 1) := by rw [hnode, if_pos rfl]
  have hsub : ∀ j ∈ t'.ids, j ∈ t.ids := by
    intro j hj
    rw [hids'] at hj
    rw [hids]
    simp only [List.mem_append, List.mem_cons] at hj ⊢
    rcases hbp with rfl | rfl <;> tauto
  have hsup : ∀ j ∈ t.ids, j ≠ x → j ≠ y → j ≠ i → j ∈ t'.ids := by
    intro j hj h1 h2 h3
    rw [hids] at hj
    rw [hids']
    simp only [List.mem_append, List.mem_cons] at hj ⊢
    tauto
  have hnd' := hwf'.nodup
  have hnoti : i ∉ t'.ids := by
    intro h
    rw [hids'] at h
    have hne' : i ≠ bp := by
      rintro rfl
      rcases hbp with rfl | rfl
      · exact fi fx
      · exact fi fy
    have hnd2 := hnd
    simp only [List.mem_append, List.mem_cons] at h
    simp only [List.nodup_append, List.nodup_cons, List.mem_cons, not_or] at hnd2
    obtain ⟨_, ⟨⟨_, q1, _⟩, ⟨_, _⟩, ⟨_, q2, q3⟩, _⟩, q4⟩ := hnd2
    rcases h with h | h | h | h | h
    · exact q4 i h i (by simp) rfl
    · exact q1 h.symm
    · exact hne' h
    · exact q2 h
    · exact q3 h
  have hbpm : bp ∈ t'.ids := by rw [hids']; simp
  have fb : (s.beach.heap bp).face = none := by rcases hbp with rfl | rfl <;> assumption
  have hleaf : ∀ j ∈ t'.ids, (j ∈ t'.leaves ↔ j ∈ t.leaves) := by
    intro j hj
    rw [hlv, hlv']
    simp only [List.mem_append, List.mem_cons]
    have : j ≠ i := fun h => hnoti (h ▸ hj)
    tauto
  have hleaf' : ∀ j ∈ t'.leaves, j ∈ t.leaves := fun j hj => (hleaf j (leaves_sub t' j hj)).1 hj
  have hbd : ∀ j ∈ t.ids, j < s.beach.next := hI.wf.bound
  -- other breakpoints keep their edges
  have hother : ∀ j ∈ t'.ids, j ≠ bp → (s.beach.heap j).face = none → j ≠ x ∧ j ≠ y := by
    intro j hj hjb hf
    have hn2 := hnd'
    rw [hids'] at hj hn2
    have hnd2 := hnd
    have key : j ∈ P ∨ j ∈ Q := by
      simp only [List.mem_append, List.mem_cons] at hj
      rcases hj with h | h | h | h | h
      · exact Or.inl h
      · exact absurd (h ▸ hf) fa
      · exact absurd h hjb
      · exact absurd (h ▸ hf) fk
      · exact Or.inr h
    simp only [List.nodup_append, List.nodup_cons, List.mem_cons, not_or] at hnd2
    obtain ⟨_, ⟨⟨_, _, _⟩, ⟨_, _, _, q5⟩, ⟨_, _, _⟩, ⟨_, q6⟩, _⟩, q4⟩ := hnd2
    rcases key with h | h
    · exact ⟨q4 j h x (by simp), q4 j h y (by simp)⟩
    · exact ⟨fun h' => q5 (h' ▸ h), fun h' => q6 (h' ▸ h)⟩
  have hkeep : ∀ p ∈ t'.ids, ∀ q ∈ t'.ids, ∀ z ∈ t'.ids, q ≠ bp → Brk s p q z → Brk s1 p q z := by
    intro p hp q hq z hz hqb hB
    obtain ⟨q1, q2, q3, h, g, q4, q5, q6, q7, q8, q9, q10, q11, q12, q13⟩ := hB
    obtain ⟨nx, ny⟩ := hother q hq hqb q2
    have hl' : h ≠ l := by rintro rfl; exact nx (hI.inj q (hsub q hq) x mx h q2 fx q4 hxl)
    have hr' : h ≠ r := by rintro rfl; exact ny (hI.inj q (hsub q hq) y my h q2 fy q4 hyr)
    have hlt' : g ≠ lt := by rintro rfl; rw [x5] at q8; simp only [Option.some.injEq] at q8; exact hl' q8.symm
    have hrt' : g ≠ rt := by rintro rfl; rw [y5] at q8; simp only [Option.some.injEq] at q8; exact hr' q8.symm
    obtain ⟨w1, w2, w3, _⟩ := hHE h q5
    obtain ⟨v1, v2, _, v4⟩ := hHE g q6
    refine ⟨by rw [hface p hp]; exact q1, by rw [hface q hq]; exact q2, by rw [hface z hz]; exact q3, h, g, by rw [hhalf q hq hqb]; exact q4, by omega, by omega, ?_⟩
    rw [w1, v1, w2, v2, w3 hl' hr', (v4 hlt' hrt').1, (v4 hlt' hrt').2, hface p hp, hface z hz]
    exact ⟨q7, q8, q9, q10, q11, q12, q13⟩
  have hhalf_lt : ∀ j ∈ t.ids, (s.beach.heap j).face = none → ∀ h, (s.beach.heap j).half = some h → h < s.nhe := by
    intro j hj hf h hh
    obtain ⟨_, _, ⟨_, _, _, h', g, q4, q5, _⟩, _⟩ := hI.brk hj hf
    rw [q4] at hh
    simp only [Option.some.injEq] at hh
    omega
  -- pointers
  have hpredO : ∀ j ∈ t'.ids, j ≠ bp → j ≠ k → (s1.beach.heap j).pred = (s.beach.heap j).pred := by
    intro j hj h1 h2
    rw [(hkeepN j).2.2.1]
    rw [hids'] at hj
    simp only [List.mem_append, List.mem_cons] at hj
    rcases hj with h | h | h | h | h
    · exact thr_pred_left P none _ _ _ _ hT hT' j h
    · subst h
      rw [thread_append] at hT hT'
      rw [hT.2.1, hT'.2.1]
    · exact absurd h h1
    · exact absurd h h2
    · have t1 := (thread_append _ (P ++ [a, x, i, y]) (k :: Q) none none).1 (by simpa using hT)
      have t2 := (thread_append _ (P ++ [a, bp]) (k :: Q) none none).1 (by simpa using hT')
      exact (thr_same Q (some k) none t1.2.2.2 t2.2.2.2 j h).1
  have hsuccO : ∀ j ∈ t'.ids, j ≠ bp → j ≠ a → (s1.beach.heap j).succ = (s.beach.heap j).succ := by
    intro j hj h1 h2
    rw [(hkeepN j).2.2.2.1]
    rw [hids'] at hj
    simp only [List.mem_append, List.mem_cons] at hj
    rcases hj with h | h | h | h | h
    · rcases thr_succ_left P none _ _ _ _ _ _ hT hT' j h with h' | ⟨h', h''⟩
      · exact h'
      · rw [h', h'']
    · exact absurd h h2
    · exact absurd h h1
    · subst h
      have t1 := (thread_append _ (P ++ [a, x, i, y]) (j :: Q) none none).1 (by simpa using hT)
      have t2 := (thread_append _ (P ++ [a, bp]) (j :: Q) none none).1 (by simpa using hT')
      rw [t1.2.2.1, t2.2.2.1]
    · have t1 := (thread_append _ (P ++ [a, x, i, y]) (k :: Q) none none).1 (by simpa using hT)
      have t2 := (thread_append _ (P ++ [a, bp]) (k :: Q) none none).1 (by simpa using hT')
      exact (thr_same Q (some k) none t1.2.2.2 t2.2.2.2 j h).2
  refine
    { wf := hwf'.frame (by rw [e10]; rfl) (by rw [e10]; exact Nat.le_refl _) (fun j _ => ⟨(hkeepN j).2.1, (hkeepN j).2.2.1, (hkeepN j).2.2.2.1⟩)
      arc := ?_, face := ?_, chain := ?_, inj := ?_, edges := ?_, openL := ?_, openN := ?_
      site := ?_, siteInj := ?_, qnodup := ?_, qbound := ?_, nev := ?_, circles := ⟨?_, ?_⟩, sites := ?_, arcs := ?_, edgeN := ?_, mismatch := ?_ }
  · intro j hj
    rw [hleaf j hj, hface j hj]
    exact hI.arc j (hsub j hj)
  · intro j hj f hf
    rw [hface j hj] at hf
    rw [e2, e3, hevt]
    exact hI.face j (hsub j hj) f hf
  · -- chain
    have c1 := (hI.around la (P := P) (Q := x :: i :: y :: k :: Q) hids).1
    have c2 := (hI.around lk (P := P ++ [a, x, i, y]) (Q := Q) (by rw [hids]; simp)).2
    have bP : bp ∉ P ++ [a] := by
      intro h
      have hn2 := hnd'
      rw [hids', show P ++ a :: bp :: k :: Q = (P ++ [a]) ++ bp :: k :: Q by simp] at hn2
      exact (List.nodup_append.1 hn2).2.2 bp h bp (by simp) rfl
    have bQ : bp ∉ k :: Q := by
      have hn2 := hnd'
      rw [hids', show P ++ a :: bp :: k :: Q = (P ++ [a]) ++ bp :: k :: Q by simp] at hn2
      exact (List.nodup_cons.1 (List.nodup_append.1 hn2).2.1).1
    have c1' : Chain (Brk s1) (P ++ [a]) := c1.mono (fun p hp q hq z hz hB => by
      have m : ∀ w, w ∈ P ++ [a] → w ∈ t'.ids := fun w hw => by rw [hids']; simp only [List.mem_append, List.mem_cons, List.not_mem_nil, or_false] at hw ⊢; tauto
      exact hkeep p (m p hp) q (m q hq) z (m z hz) (fun h => bP (h ▸ hq)) hB)
    have c2' : Chain (Brk s1) (k :: Q) := c2.mono (fun p hp q hq z hz hB => by
      have m : ∀ w, w ∈ k :: Q → w ∈ t'.ids := fun w hw => by rw [hids']; simp only [List.mem_append, List.mem_cons] at hw ⊢; tauto
      exact hkeep p (m p hp) q (m q hq) z (m z hz) (fun h => bQ (h ▸ hq)) hB)
    rw [hids']
    refine Chain.join P a _ c1' ⟨?_, c2'⟩
    have ma' : a ∈ t'.ids := by rw [hids']; simp
    have mk' : k ∈ t'.ids := by rw [hids']; simp
    refine ⟨by rw [hface a ma']; exact fa, by rw [hface bp hbpm]; exact fb, by rw [hface k mk']; exact fk, s.nhe + 1, s.nhe, hhalfB, by omega, by omega, ?_⟩
    rw [hone, htwo, hface a ma', hface k mk']
    exact ⟨rfl, rfl, x6, y7, rfl, rfl, rfl⟩
  · -- inj
    intro p hp q hq h fp fq hhp hhq
    rw [hface p hp] at fp
    rw [hface q hq] at fq
    by_cases p1 : p = bp
    · by_cases q1 : q = bp
      · rw [p1, q1]
      · rw [p1, hhalfB] at hhp
        rw [hhalf q hq q1] at hhq
        have := hhalf_lt q (hsub q hq) fq h hhq
        simp only [Option.some.injEq] at hhp
        omega
    · by_cases q1 : q = bp
      · rw [q1, hhalfB] at hhq
        rw [hhalf p hp p1] at hhp
        have := hhalf_lt p (hsub p hp) fp h hhp
        simp only [Option.some.injEq] at hhq
        omega
      · rw [hhalf p hp p1] at hhp
        rw [hhalf q hq q1] at hhq
        exact hI.inj p (hsub p hp) q (hsub q hq) h fp fq hhp hhq
  · exact circle_edges hI.edges l lt r rt x2 x3 y2 y3 d1 d2 d3 d4 d5 d6 hlt x5 hrt y5 x8 x9 y8 y9 x10 y10 hff hhe e1 e2 e11 e5 e4
  · -- openL
    intro h hh hl
    have : h < s.nhe ∨ h = s.nhe ∨ h = s.nhe + 1 := by omega
    rcases this with h' | rfl | rfl
    · have hl' : h ≠ l := by rintro rfl; rw [hlastL] at hl; simp at hl
      have hr' : h ≠ r := by rintro rfl; rw [hlastR] at hl; simp at hl
      rw [(hHE h h').2.2.1 hl' hr'] at hl
      obtain ⟨b', q1, q2, q3⟩ := hI.openL h h' hl
      have nx : b' ≠ x := by rintro rfl; rw [hxl] at q3; simp only [Option.some.injEq] at q3; exact hl' q3.symm
      have ny : b' ≠ y := by rintro rfl; rw [hyr] at q3; simp only [Option.some.injEq] at q3; exact hr' q3.symm
      have m := hsup b' q1 nx ny (fun h => fi (h ▸ q2))
      have nb : b' ≠ bp := by rcases hbp with rfl | rfl <;> assumption
      exact ⟨b', m, by rw [hface b' m]; exact q2, by rw [hhalf b' m nb]; exact q3⟩
    · rw [hone] at hl; simp at hl
    · exact ⟨bp, hbpm, by rw [hface bp hbpm]; exact fb, hhalfB⟩
  · -- openN
    intro h hh hl
    have : h < s.nhe ∨ h = s.nhe ∨ h = s.nhe + 1 := by omega
    rcases this with h' | rfl | rfl
    · have hl' : h ≠ lt := by rintro rfl; rw [hnextLT] at hl; simp at hl
      have hr' : h ≠ rt := by rintro rfl; rw [hnextRT] at hl; simp at hl
      rw [((hHE h h').2.2.2 hl' hr').1] at hl
      rw [(hHE h h').1]
      obtain ⟨b', q1, g, q2, q3, q4⟩ := hI.openN h h' hl
      obtain ⟨g', g1, g2, g3, _⟩ := hI.edges.twin h h'
      rw [q4] at g2; simp only [Option.some.injEq] at g2; subst g2
      have nx : b' ≠ x := by
        rintro rfl; rw [hxl] at q3; simp only [Option.some.injEq] at q3; subst q3
        rw [hlt] at g3; simp only [Option.some.injEq] at g3; exact hl' g3.symm
      have ny : b' ≠ y := by
        rintro rfl; rw [hyr] at q3; simp only [Option.some.injEq] at q3; subst q3
        rw [hrt] at g3; simp only [Option.some.injEq] at g3; exact hr' g3.symm
      have m := hsup b' q1 nx ny (fun h => fi (h ▸ q2))
      have nb : b' ≠ bp := by rcases hbp with rfl | rfl <;> assumption
      exact ⟨b', m, g, by rw [hface b' m]; exact q2, by rw [hhalf b' m nb]; exact q3, q4⟩
    · exact ⟨bp, hbpm, s.nhe + 1, by rw [hface bp hbpm]; exact fb, hhalfB, by rw [hone]⟩
    · rw [htwo] at hl; simp at hl
  · intro f hf
    rw [e2] at hf
    rw [e3, e7]
    exact ⟨(hI.site f hf).1, fun h => (hI.site f hf).2 (List.mem_of_mem_erase h)⟩
  · intro f hf g hg
    rw [e2] at hf hg
    rw [e3]
    exact hI.siteInj f hf g hg
  · rw [e7]; exact hI.qnodup.erase e
  · intro z hz; rw [e7] at hz; rw [e8]; exact hI.qbound z (List.mem_of_mem_erase hz)
  · rw [e8]; exact hI.nev
  · -- circle events
    intro z hz hzn hv
    rw [e7] at hz
    rw [e9]
    have hze : z ≠ e := fun h => hI.qnodup.not_mem_erase (h ▸ hz)
    rw [show s1.beach.valid = b.valid by rw [e10]; rfl, hvalidR] at hv
    simp only [Bool.and_eq_true, Bool.not_eq_true'] at hv
    obtain ⟨⟨v1, v2⟩, v3⟩ := hv
    obtain ⟨c', j, q1, q2, q3, q4, q5, q6⟩ := hI.circles.event z (List.mem_of_mem_erase hz) hzn v1
    have hac : (s.beach.heap a).assoc ≠ some c' := by intro h; rw [h] at v2; simp [q2] at v2
    have hkc : (s.beach.heap k).assoc ≠ some c' := by intro h; rw [h] at v3; simp [q2] at v3
    have hja : j ≠ a := by rintro rfl; exact hac q5
    have hjk : j ≠ k := by rintro rfl; exact hkc q5
    have hji : j ≠ i := by
      rintro rfl
      rw [hic] at q5; simp only [Option.some.injEq] at q5; subst q5
      exact hze (q2.symm.trans hce)
    have hj := leaves_sub t j q4
    have hjf : (s.beach.heap j).face ≠ none := (hI.arc j hj).1 q4
    have m := hsup j hj (fun h => hjf (h ▸ fx)) (fun h => hjf (h ▸ fy)) hji
    have hjb : j ≠ bp := fun h => hjf (h ▸ fb)
    obtain ⟨p1, _⟩ := hI.circles.arc j q4 c' q5
    refine ⟨c', j, q1, by rw [hevt]; exact q2, ?_, (hleaf j m).2 q4, ?_, ?_⟩
    · rw [(hkeepN c').2.2.2.2.1, hkeptR c' hac hkc (fun h => p1 (h ▸ ma)) (fun h => p1 (h ▸ mk))]; exact q3
    · rw [(hkeepN j).2.2.2.2.1, hkeptR j (fun h => (hI.circles.arc a la j h).1 hj) (fun h => (hI.circles.arc k lk j h).1 hj) hja hjk]; exact q5
    · obtain ⟨x', a', y', k', r1, r2, r3, r4, r5⟩ := q6
      obtain ⟨w1, w2⟩ : (s.beach.heap x').face = none ∧ (s.beach.heap x').succ = some j := by
        rcases hI.leftOf q4 with h | ⟨z, _, z1, _, _, z3, _, z2⟩
        · rw [h] at r1; simp at r1
        · rw [r1] at z1; simp only [Option.some.injEq] at z1; subst z1; exact ⟨z2.2.1, z3⟩
      obtain ⟨w3, w4⟩ : (s.beach.heap y').face = none ∧ (s.beach.heap y').pred = some j := by
        rcases hI.rightOf q4 with h | ⟨z, _, z1, _, _, z3, _, z2⟩
        · rw [h] at r3; simp at r3
        · rw [r3] at z1; simp only [Option.some.injEq] at z1; subst z1; exact ⟨z2.2.1, z3⟩
      have mx' := wf_pred hI.wf hj r1
      have my' := wf_succ hI.wf hj r3
      have nx1 : x' ≠ x := by rintro rfl; rw [u5] at w2; simp only [Option.some.injEq] at w2; exact hji w2.symm
      have nx2 : x' ≠ y := by rintro rfl; rw [u4] at w2; simp only [Option.some.injEq] at w2; exact hjk w2.symm
      have ny1 : y' ≠ x := by rintro rfl; rw [u2] at w4; simp only [Option.some.injEq] at w4; exact hja w4.symm
      have ny2 : y' ≠ y := by rintro rfl; rw [u6] at w4; simp only [Option.some.injEq] at w4; exact hji w4.symm
      have m1 := hsup x' mx' nx1 nx2 (fun h => fi (h ▸ w1))
      have m2 := hsup y' my' ny1 ny2 (fun h => fi (h ▸ w3))
      have nb1 : x' ≠ bp := by rcases hbp with rfl | rfl <;> assumption
      have nb2 : y' ≠ bp := by rcases hbp with rfl | rfl <;> assumption
      refine ⟨x', a', y', k', by rw [hpredO j m hjb hjk, r1], by rw [hpredO x' m1 nb1 (fun h => fk (h ▸ w1)), r2],
        by rw [hsuccO j m hjb hja, r3], by rw [hsuccO y' m2 nb2 (fun h => fa (h ▸ w3)), r4], by rw [hevt, hevt]; exact r5⟩
  · -- arcs with circle events
    intro j hj c' hc
    have hj0 := hleaf' j hj
    have hjm := leaves_sub t' j hj
    rw [(hkeepN j).2.2.2.2.1] at hc
    have hja : j ≠ a := by rintro rfl; rw [hclearR.1] at hc; simp at hc
    have hjk : j ≠ k := by rintro rfl; rw [hclearR.2] at hc; simp at hc
    have hc0 : (s.beach.heap j).assoc = some c' := by
      rcases hassocR j with h | h
      · rw [← h, hc]
      · rw [h] at hc; simp at hc
    obtain ⟨q1, q2, q3, q4, q5, q6, q7, q8⟩ := hI.circles.arc j hj0 c' hc0
    have hac : (s.beach.heap a).assoc ≠ some c' := by
      intro h
      have := (hI.circles.arc a la c' h).2.2.1
      rw [q3] at this; simp only [Option.some.injEq] at this; exact hja this
    have hkc : (s.beach.heap k).assoc ≠ some c' := by
      intro h
      have := (hI.circles.arc k lk c' h).2.2.1
      rw [q3] at this; simp only [Option.some.injEq] at this; exact hjk this
    have hee : (s.beach.heap c').event ≠ e := by
      intro h
      rw [h, hne] at q6
      simp only [Option.some.injEq] at q6
      subst q6
      rw [hci] at q3
      simp only [Option.some.injEq] at q3
      exact hnoti (q3 ▸ hjm)
    rw [e7, e8, e9, hevt]
    refine ⟨fun h => q1 (hsub c' h), ?_, ?_, q4, q5, q6, (List.mem_erase_of_ne hee).2 q7, ?_⟩
    · rw [e10]; show c' < b.next; rw [hnextR]; exact q2
    · rw [(hkeepN c').2.2.2.2.1, hkeptR c' hac hkc (fun h => q1 (h ▸ ma)) (fun h => q1 (h ▸ mk))]; exact q3
    · rw [show s1.beach.valid = b.valid by rw [e10]; rfl, hvalidR, q8]
      have hany : ∀ w ∈ t.leaves, (s.beach.heap w).assoc ≠ some c' → (s.beach.heap w).assoc.any (fun c => (s.beach.heap c).event == (s.beach.heap c').event) = false := by
        intro w hw hwc
        cases h2 : (s.beach.heap w).assoc with
        | none => rfl
        | some c2 =>
          simp only [Option.any_some, beq_eq_false_iff_ne, ne_eq]
          intro h3
          have := (hI.circles.arc w hw c2 h2).2.2.2.2.2.1
          rw [h3, q6] at this
          simp only [Option.some.injEq] at this
          exact hwc (this ▸ h2)
      rw [hany a la hac, hany k lk hkc]
      rfl
  · rw [e7, e2]
    have hp := (List.perm_cons_erase he).countP_eq (fun e => decide (e < o.n))
    rw [List.countP_cons_of_neg (by simp; exact hen)] at hp
    have := hI.sites
    omega
  · rw [e5, e2, hlv']
    have := hI.arcs
    rw [hlv] at this
    simp only [List.length_append, List.length_cons] at this ⊢
    omega
  · rw [e1, e2, e5]; have := hI.edgeN; omega
  · rw [e6]; exact hI.mismatch

end Verif.Voronoi

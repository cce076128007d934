import Verif.Voronoi.SweepSite

/-! `handleCircleEvents`. -/
namespace Verif.Voronoi

theorem circle_he (s : Sweep) (l lt r rt bp : Nat) (hl : l < s.nhe) (hlt : lt < s.nhe) (hr : r < s.nhe) (hrt : rt < s.nhe)
    (d1 : l ≠ lt) (d2 : l ≠ r) (d3 : l ≠ rt) (d4 : lt ≠ r) (d5 : lt ≠ rt) (d6 : r ≠ rt) (j : Nat) :
    (s.circleEdges l lt r rt bp).he j =
      if j = s.nhe then { twin := some (s.nhe + 1), last := some rt, face := (s.he rt).face }
      else if j = s.nhe + 1 then { twin := some s.nhe, target := some s.nv, next := some l, face := (s.he l).face }
      else if j = l then { s.he l with last := some (s.nhe + 1) }
      else if j = lt then { s.he lt with target := some s.nv, next := some r }
      else if j = r then { s.he r with last := some lt }
      else if j = rt then { s.he rt with target := some s.nv, next := some s.nhe } else s.he j := by
  have n1 : l ≠ s.nhe := by omega
  have n2 : lt ≠ s.nhe := by omega
  have n3 : r ≠ s.nhe := by omega
  have n4 : rt ≠ s.nhe := by omega
  have m1 : l ≠ s.nhe + 1 := by omega
  have m2 : lt ≠ s.nhe + 1 := by omega
  have m3 : r ≠ s.nhe + 1 := by omega
  have m4 : rt ≠ s.nhe + 1 := by omega
  unfold Sweep.circleEdges
  simp only [Sweep.modE, Sweep.modN, Sweep.newEdges]
  by_cases e1 : j = s.nhe
  · subst e1; simp [n1, n2, n3, n4, m1, m2, m3, m4, Ne.symm n1, Ne.symm n2, Ne.symm n3, Ne.symm n4, d1, d2, d3, d4, d5, d6, Ne.symm d1, Ne.symm d2, Ne.symm d3, Ne.symm d4, Ne.symm d5, Ne.symm d6]
  · by_cases e2 : j = s.nhe + 1
    · subst e2; simp [n1, n2, n3, n4, m1, m2, m3, m4, Ne.symm m1, Ne.symm m2, Ne.symm m3, Ne.symm m4, d1, d2, d3, d4, d5, d6]
    · by_cases e3 : j = l
      · subst e3; simp [n1, m1, d1, d2, d3, d4, d5, d6]
      · by_cases e4 : j = lt
        · subst e4; simp [n2, m2, d1, d2, d3, d4, d5, d6, Ne.symm d1]
        · by_cases e5 : j = r
          · subst e5; simp [n3, m3, d1, d2, d3, d4, d5, d6, Ne.symm d1, Ne.symm d2, Ne.symm d4]
          · by_cases e6 : j = rt
            · subst e6; simp [n4, m4, d1, d2, d3, d4, d5, d6, Ne.symm d3, Ne.symm d5, Ne.symm d6]
            · simp [e1, e2, e3, e4, e5, e6]

theorem circle_other (s : Sweep) (l lt r rt bp : Nat) :
    (s.circleEdges l lt r rt bp).nhe = s.nhe + 2 ∧ (s.circleEdges l lt r rt bp).nf = s.nf ∧ (s.circleEdges l lt r rt bp).faceEv = s.faceEv ∧
    (s.circleEdges l lt r rt bp).faceHE = s.faceHE ∧ (s.circleEdges l lt r rt bp).nv = s.nv + 1 ∧ (s.circleEdges l lt r rt bp).mismatch = s.mismatch ∧
    (s.circleEdges l lt r rt bp).queue = s.queue ∧ (s.circleEdges l lt r rt bp).nev = s.nev ∧ (s.circleEdges l lt r rt bp).node = s.node ∧
    (s.circleEdges l lt r rt bp).beach = s.beach.mod bp (fun n => { n with half := some (s.nhe + 1) }) ∧
    (s.circleEdges l lt r rt bp).vtx = (fun j => if j = s.nv then some s.nhe else s.vtx j) := by
  refine ⟨rfl, rfl, rfl, rfl, rfl, rfl, rfl, rfl, rfl, rfl, ?_⟩
  funext j
  simp only [Sweep.circleEdges, Sweep.modE, Sweep.modN, Sweep.newEdges]
  by_cases h : j = s.nv <;> simp [h]

/-- closing two open edges in a vertex and opening a third one keeps the edge list consistent -/
theorem circle_edges {s s1 : Sweep} (hE : Edges s) (l lt r rt : Nat) (hl : l < s.nhe) (hlt : lt < s.nhe) (hr : r < s.nhe) (hrt : rt < s.nhe)
    (d1 : l ≠ lt) (d2 : l ≠ r) (d3 : l ≠ rt) (d4 : lt ≠ r) (d5 : lt ≠ rt) (d6 : r ≠ rt)
    (t1 : (s.he l).twin = some lt) (t2 : (s.he lt).twin = some l) (t3 : (s.he r).twin = some rt) (t4 : (s.he rt).twin = some r)
    (o1 : (s.he l).last = none) (o2 : (s.he lt).next = none) (o3 : (s.he r).last = none) (o4 : (s.he rt).next = none)
    (o5 : (s.he lt).target = none) (o6 : (s.he rt).target = none) (hf : (s.he lt).face = (s.he r).face)
    (hhe : ∀ j, s1.he j = if j = s.nhe then { twin := some (s.nhe + 1), last := some rt, face := (s.he rt).face }
      else if j = s.nhe + 1 then { twin := some s.nhe, target := some s.nv, next := some l, face := (s.he l).face }
      else if j = l then { s.he l with last := some (s.nhe + 1) }
      else if j = lt then { s.he lt with target := some s.nv, next := some r }
      else if j = r then { s.he r with last := some lt }
      else if j = rt then { s.he rt with target := some s.nv, next := some s.nhe } else s.he j)
    (e1 : s1.nhe = s.nhe + 2) (e2 : s1.nf = s.nf) (e3 : s1.vtx = fun j => if j = s.nv then some s.nhe else s.vtx j) (e4 : s1.nv = s.nv + 1) (e5 : s1.faceHE = s.faceHE) :
    Edges s1 := by
  have hone : s1.he s.nhe = { twin := some (s.nhe + 1), last := some rt, face := (s.he rt).face } := by rw [hhe, if_pos rfl]
  have htwo : s1.he (s.nhe + 1) = { twin := some s.nhe, target := some s.nv, next := some l, face := (s.he l).face } := by rw [hhe, if_neg (by omega), if_pos rfl]
  have hL : s1.he l = { s.he l with last := some (s.nhe + 1) } := by rw [hhe, if_neg (by omega), if_neg (by omega), if_pos rfl]
  have hLT : s1.he lt = { s.he lt with target := some s.nv, next := some r } := by
    rw [hhe, if_neg (by omega), if_neg (by omega), if_neg (Ne.symm d1), if_pos rfl]
  have hR : s1.he r = { s.he r with last := some lt } := by
    rw [hhe, if_neg (by omega), if_neg (by omega), if_neg (Ne.symm d2), if_neg (Ne.symm d4), if_pos rfl]
  have hRT : s1.he rt = { s.he rt with target := some s.nv, next := some s.nhe } := by
    rw [hhe, if_neg (by omega), if_neg (by omega), if_neg (Ne.symm d3), if_neg (Ne.symm d5), if_neg (Ne.symm d6), if_pos rfl]
  have hO : ∀ j, j < s.nhe → j ≠ l → j ≠ lt → j ≠ r → j ≠ rt → s1.he j = s.he j := fun j hj h1 h2 h3 h4 => by
    rw [hhe, if_neg (by omega), if_neg (by omega), if_neg h1, if_neg h2, if_neg h3, if_neg h4]
  have htw : ∀ j, j < s.nhe → (s1.he j).twin = (s.he j).twin := by
    intro j hj
    by_cases h1 : j = l
    · subst h1; rw [hL]
    · by_cases h2 : j = lt
      · subst h2; rw [hLT]
      · by_cases h3 : j = r
        · subst h3; rw [hR]
        · by_cases h4 : j = rt
          · subst h4; rw [hRT]
          · rw [hO j hj h1 h2 h3 h4]
  have hfc : ∀ j, j < s.nhe → (s1.he j).face = (s.he j).face := by
    intro j hj
    by_cases h1 : j = l
    · subst h1; rw [hL]
    · by_cases h2 : j = lt
      · subst h2; rw [hLT]
      · by_cases h3 : j = r
        · subst h3; rw [hR]
        · by_cases h4 : j = rt
          · subst h4; rw [hRT]
          · rw [hO j hj h1 h2 h3 h4]
  have htg : ∀ j, j < s.nhe → j ≠ lt → j ≠ rt → (s1.he j).target = (s.he j).target ∧ (s1.he j).next = (s.he j).next := by
    intro j hj h2 h4
    by_cases h1 : j = l
    · subst h1; rw [hL]; exact ⟨rfl, rfl⟩
    · by_cases h3 : j = r
      · subst h3; rw [hR]; exact ⟨rfl, rfl⟩
      · rw [hO j hj h1 h2 h3 h4]; exact ⟨rfl, rfl⟩
  have hla : ∀ j, j < s.nhe → j ≠ l → j ≠ r → (s1.he j).last = (s.he j).last := by
    intro j hj h1 h3
    by_cases h2 : j = lt
    · subst h2; rw [hLT]
    · by_cases h4 : j = rt
      · subst h4; rw [hRT]
      · rw [hO j hj h1 h2 h3 h4]
  have cases3 : ∀ h, h < s1.nhe → h < s.nhe ∨ h = s.nhe ∨ h = s.nhe + 1 := fun h hh => by omega
  constructor
  · intro h hh
    rcases cases3 h hh with h' | rfl | rfl
    · obtain ⟨g, g1, g2, g3, g4⟩ := hE.twin h h'
      exact ⟨g, by omega, by rw [htw h h', g2], by rw [htw g g1, g3], g4⟩
    · exact ⟨s.nhe + 1, by omega, by rw [hone], by rw [htwo], by omega⟩
    · exact ⟨s.nhe, by omega, by rw [htwo], by rw [hone], by omega⟩
  · intro h hh
    rw [e2]
    rcases cases3 h hh with h' | rfl | rfl
    · rw [hfc h h']; exact hE.face h h'
    · rw [hone]; exact hE.face rt hrt
    · rw [htwo]; exact hE.face l hl
  · intro h hh g hg
    rcases cases3 h hh with h' | rfl | rfl
    · by_cases h2 : h = lt
      · subst h2
        rw [hLT] at hg ⊢
        simp only [Option.some.injEq] at hg
        subst hg
        rw [hR]
        exact ⟨by omega, rfl, hf.symm, s.nv, rt, rfl, t3, by rw [hRT]⟩
      · by_cases h4 : h = rt
        · subst h4
          rw [hRT] at hg ⊢
          simp only [Option.some.injEq] at hg
          subst hg
          rw [hone]
          exact ⟨by omega, rfl, rfl, s.nv, s.nhe + 1, rfl, rfl, by rw [htwo]⟩
        · rw [(htg h h' h2 h4).2] at hg
          obtain ⟨g1, g2, g3, v, w, g4, g5, g6⟩ := hE.next h h' g hg
          have gl : g ≠ l := by rintro rfl; rw [o1] at g2; simp at g2
          have gr : g ≠ r := by rintro rfl; rw [o3] at g2; simp at g2
          obtain ⟨w', w1, w2, w3, _⟩ := hE.twin g g1
          rw [g5] at w2
          simp only [Option.some.injEq] at w2
          subst w2
          have wlt : w ≠ lt := by rintro rfl; rw [t2] at w3; simp at w3; exact gl w3.symm
          have wrt : w ≠ rt := by rintro rfl; rw [t4] at w3; simp at w3; exact gr w3.symm
          refine ⟨by omega, by rw [hla g g1 gl gr]; exact g2, by rw [hfc g g1, hfc h h']; exact g3, v, w, by rw [(htg h h' h2 h4).1]; exact g4,
            by rw [htw g g1]; exact g5, by rw [(htg w w1 wlt wrt).1]; exact g6⟩
    · rw [hone] at hg; simp at hg
    · rw [htwo] at hg ⊢
      simp only [Option.some.injEq] at hg
      subst hg
      rw [hL]
      exact ⟨by omega, rfl, rfl, s.nv, lt, rfl, t1, by rw [hLT]⟩
  · intro h hh g hg
    rcases cases3 h hh with h' | rfl | rfl
    · by_cases h1 : h = l
      · subst h1
        rw [hL] at hg
        simp only [Option.some.injEq] at hg
        subst hg
        exact ⟨by omega, by rw [htwo]⟩
      · by_cases h3 : h = r
        · subst h3
          rw [hR] at hg
          simp only [Option.some.injEq] at hg
          subst hg
          exact ⟨by omega, by rw [hLT]⟩
        · rw [hla h h' h1 h3] at hg
          obtain ⟨g1, g2⟩ := hE.last h h' g hg
          have glt : g ≠ lt := by rintro rfl; rw [o2] at g2; simp at g2
          have grt : g ≠ rt := by rintro rfl; rw [o4] at g2; simp at g2
          exact ⟨by omega, by rw [(htg g g1 glt grt).2]; exact g2⟩
    · rw [hone] at hg
      simp only [Option.some.injEq] at hg
      subst hg
      exact ⟨by omega, by rw [hRT]⟩
    · rw [htwo] at hg; simp at hg
  · intro h hh v hv
    rw [e4]
    rcases cases3 h hh with h' | rfl | rfl
    · by_cases h2 : h = lt
      · subst h2; rw [hLT] at hv; simp at hv; omega
      · by_cases h4 : h = rt
        · subst h4; rw [hRT] at hv; simp at hv; omega
        · rw [(htg h h' h2 h4).1] at hv
          have := hE.target h h' v hv
          omega
    · rw [hone] at hv; simp at hv
    · rw [htwo] at hv; simp at hv; omega
  · intro v hv
    rw [e3]
    by_cases q : v = s.nv
    · subst q
      exact ⟨s.nhe, s.nhe + 1, by simp, by omega, by rw [hone], by rw [htwo]⟩
    · obtain ⟨h, g, h1, h2, h3, h4⟩ := hE.vtx v (by omega)
      obtain ⟨w', w1, w2, _⟩ := hE.twin h h2
      rw [h3] at w2
      simp only [Option.some.injEq] at w2
      subst w2
      have glt : g ≠ lt := by rintro rfl; rw [o5] at h4; simp at h4
      have grt : g ≠ rt := by rintro rfl; rw [o6] at h4; simp at h4
      exact ⟨h, g, by simp [q, h1], by omega, by rw [htw h h2]; exact h3, by rw [(htg g w1 glt grt).1]; exact h4⟩
  · intro f hf' h hh
    rw [e5] at hh
    rw [e2] at hf'
    obtain ⟨h1, h2⟩ := hE.faceHE f hf' h hh
    exact ⟨by omega, by rw [hfc h h1]; exact h2⟩
  · intro h2 f hf'
    rw [e2] at h2 hf'
    rw [e5]
    exact hE.faceSet h2 f hf'

end Verif.Voronoi

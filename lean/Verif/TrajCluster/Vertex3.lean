import Verif.TrajCluster.Vertex
/-!
# 3D vertices, storing vertices, the check of the tables
-/
namespace Verif.TC

theorem killPlanes_spec (cut : Rat) (score : Slice → Vtx3 → Rat) (k : Nat) : ∀ (m pl : Nat) (s : Slice) (w : Vtx3),
    VtxOK s → s.vtx3s[k]? = some w → w.id ≠ 0 → w.vx2.length = pl + m →
    (∀ (p x : Nat), p < pl → w.vx2[p]? = some x → x = 0) →
    ∃ s', killPlanes cut score k m pl s = .ok s' ∧ VtxOK s' ∧ s'.n = s.n ∧ s'.own = s.own ∧ s'.pfps = s.pfps ∧
      s'.uid = s.uid ∧
      (∃ w', s'.vtx3s[k]? = some w' ∧ w'.id = w.id ∧ ∀ (p x : Nat), w'.vx2[p]? = some x → x = 0) ∧
      s'.vtxs.length = s.vtxs.length ∧
      (∀ (i : Nat) (v : Vtx), s.vtxs[i]? = some v →
        s'.vtxs[i]? = some v ∨ (s'.vtxs[i]? = some { v with id := 0 } ∧ v.vx3 = w.id)) ∧
      (∀ j, j ≠ k → s'.vtx3s[j]? = s.vtx3s[j]?) ∧
      s'.tjs.length = s.tjs.length ∧
      (Owned s → Owned s') := by
  intro m
  induction m with
  | zero =>
    intro pl s w hs hw hid hl h0
    refine ⟨s, rfl, hs, rfl, rfl, rfl, rfl, ⟨w, hw, rfl, ?_⟩, rfl, fun i v h => Or.inl h, fun _ _ => rfl, rfl, id⟩
    intro p x hx
    exact h0 p x (by have := (List.getElem?_eq_some_iff.1 hx).1; omega) hx
  | succ m ih =>
    intro pl s w hs hw hid hl h0
    rw [killPlanes, hw]
    simp only
    have hpl : pl < w.vx2.length := by omega
    have hx : w.vx2[pl]? = some w.vx2[pl] := List.getElem?_eq_getElem hpl
    generalize w.vx2[pl] = vid at hx
    rw [hx]
    simp only
    by_cases hv0 : vid = 0
    · rw [if_pos (Or.inl hv0)]
      refine ih (pl + 1) s w hs hw hid (by omega) ?_
      intro p x hp hpx
      by_cases e : p = pl
      · subst e
        rw [hx] at hpx
        cases hpx
        exact hv0
      · exact h0 p x (by omega) hpx
    · obtain ⟨v, hv, hvid, hv3, hvp⟩ := hs.down k w hw hid pl vid hx hv0
      have hvl := (List.getElem?_eq_some_iff.1 hv).1
      rw [if_neg (by omega)]
      obtain ⟨r, s1, e1, e2, e3, e4⟩ := C122_kill_vertex cut score hs hv (by omega) true
      have hr : r = true := by
        cases r with
        | true => rfl
        | false => have := (e2.1 rfl).2.1; cases this
      subst hr
      obtain ⟨a1, a2, a3, a4, a5, a6, a7, a8⟩ := e4 rfl
      have hok := C122_kill_keeps cut score hs hv (by omega) true e1
      have hwk : k + 1 = v.vx3 := by
        rw [hv3]
        rcases hs.ids3 k w hw with h | h <;> omega
      have hw1 := a8 k w hw
      rw [if_pos hwk] at hw1
      obtain ⟨s2, b1, b2, b3, b4, b5, b6, ⟨w', b7, b8, b9⟩, b10, b11, b12, b13, b14⟩ := ih (pl + 1) s1 _ hok hw1 hid
        (by simp; omega) (by
          intro p x hp hpx
          simp only [List.getElem?_map, Option.map_eq_some_iff] at hpx
          obtain ⟨y, hy, hyx⟩ := hpx
          by_cases e : p = pl
          · subst e
            rw [hx] at hy
            cases hy
            rw [hvid, if_pos rfl] at hyx
            omega
          · have := h0 p y (by omega) hy
            subst this
            split at hyx <;> omega)
      refine ⟨s2, by rw [e1]; exact b1, b2, by rw [b3, a1], by rw [b4, a2], by rw [b5, a4], by rw [b6, a3],
        ⟨w', b7, b8, b9⟩, by rw [b10, a5]; simp, ?_, ?_, by rw [b13, a6.length_eq],
        fun h => b14 (h.killVx2 cut score hs hv (by omega) true e1)⟩
      · intro i u hu
        by_cases hi : i = vid - 1
        · subst hi
          rw [hv] at hu
          cases hu
          have : s1.vtxs[vid - 1]? = some { v with id := 0 } := by
            rw [a5, List.getElem?_set_self hvl]
          rcases b11 _ _ this with h | ⟨h, _⟩
          · exact Or.inr ⟨h, hv3⟩
          · exact Or.inr ⟨h, hv3⟩
        · have : s1.vtxs[i]? = some u := by
            rw [a5, List.getElem?_set, if_neg (fun h => hi h.symm)]
            exact hu
          exact b11 i u this
      · intro j hj
        rw [b12 j hj]
        cases hsj : s.vtx3s[j]? with
        | none =>
          rw [List.getElem?_eq_none_iff] at hsj ⊢
          omega
        | some u =>
          rw [a8 j u hsj, if_neg]
          omega

/-- **C123.** Killing a 3D vertex kills exactly the 2D vertices matched to it, leaves all other vertices, all hits and
the number of trajectories, and the tables of the vertices and of the hits agree afterwards: in particular no trajectory
is left attached to a killed vertex. -/
theorem C123_kill_3d (cut : Rat) (score : Slice → Vtx3 → Rat) {s : Slice} (hs : VtxOK s) (ho : Owned s) {k : Nat}
    {w : Vtx3} (hw : s.vtx3s[k]? = some w) (hid : w.id ≠ 0) :
    ∃ s', killVx3 cut score s k = .ok (true, s') ∧ VtxOK s' ∧ Owned s' ∧ s'.n = s.n ∧ s'.own = s.own ∧
      s'.tjs.length = s.tjs.length ∧
      (∃ w', s'.vtx3s[k]? = some w' ∧ w'.id = 0) ∧
      (∀ j, j ≠ k → s'.vtx3s[j]? = s.vtx3s[j]?) ∧
      s'.vtxs.length = s.vtxs.length ∧
      ∀ (i : Nat) (v : Vtx), s.vtxs[i]? = some v →
        s'.vtxs[i]? = some (if v.vx3 = w.id then { v with id := 0 } else v) := by
  have hwid : w.id = k + 1 := by rcases hs.ids3 k w hw with h | h <;> omega
  have hkl := (List.getElem?_eq_some_iff.1 hw).1
  obtain ⟨s1, b1, b2, b3, b4, b5, b6, ⟨w', b7, b8, b9⟩, b10, b11, b12, b13, b14⟩ :=
    killPlanes_spec cut score k w.vx2.length 0 s w hs hw hid (by omega) (by intro p x hp; omega)
  have hkl1 := (List.getElem?_eq_some_iff.1 b7).1
  have hmod : ∀ j, (s1.vtx3s.modify k fun u => { u with id := 0 })[j]? =
      if j = k then some { w' with id := 0 } else s1.vtx3s[j]? := by
    intro j
    rw [List.getElem?_modify]
    by_cases hj : j = k
    · subst hj
      simp [b7]
    · have hkj : k ≠ j := fun h => hj h.symm
      simp [hj, hkj]
  have hvx : ∀ (i : Nat) (v : Vtx), s.vtxs[i]? = some v →
      s1.vtxs[i]? = some (if v.vx3 = w.id then { v with id := 0 } else v) := by
    intro i v hv
    rcases b11 i v hv with h | ⟨h, h2⟩
    · split
      · rename_i h3
        by_cases hv0 : v.id = 0
        · rw [h]
          congr 1
          cases v
          simp only at hv0
          rw [hv0]
        · exfalso
          obtain ⟨u, c1, c2, c3⟩ := b2.up i v h hv0 (by omega)
          rw [h3, hwid, Nat.add_sub_cancel, b7] at c1
          cases c1
          exact hv0 (b9 _ _ c3)
      · exact h
    · rw [if_pos h2]
      exact h
  have hdead : ∀ (i : Nat) (v : Vtx), s1.vtxs[i]? = some v → v.vx3 = w.id → v.id = 0 := by
    intro i v hv h3
    by_contra hv0
    obtain ⟨u, c1, c2, c3⟩ := b2.up i v hv hv0 (by omega)
    rw [h3, hwid, Nat.add_sub_cancel, b7] at c1
    cases c1
    exact hv0 (b9 _ _ c3)
  refine ⟨{ s1 with vtx3s := s1.vtx3s.modify k fun u => { u with id := 0 } }, ?_, ?_, ?_, b3, b4, b13,
    ⟨_, by simp only; rw [hmod, if_pos rfl], rfl⟩, ?_, b10, hvx⟩
  · unfold killVx3
    rw [hw]
    simp only
    rw [if_neg hid, if_neg (by omega), b1]
    rfl
  · refine ⟨b2.ids, ?_, b2.ends, ?_, ?_⟩
    · intro j u hj
      simp only at hj
      rw [hmod] at hj
      split at hj
      · simp only [Option.some.injEq] at hj
        subst hj
        exact Or.inl rfl
      · exact b2.ids3 j u hj
    · intro i v hv hv0 hv3
      obtain ⟨u, c1, c2, c3⟩ := b2.up i v hv hv0 hv3
      refine ⟨u, ?_, c2, c3⟩
      simp only
      rw [hmod, if_neg]
      · exact c1
      · intro e
        exact hv0 (hdead i v hv (by omega))
    · intro j u hj hu0
      simp only at hj
      rw [hmod] at hj
      split at hj
      · simp only [Option.some.injEq] at hj
        subst hj
        exact absurd rfl hu0
      · exact b2.down j u hj hu0
  · exact (b14 ho).congr rfl rfl rfl fun _ _ _ => rfl
  · intro j hj
    simp only
    rw [hmod, if_neg hj]
    exact b12 j hj

/-! ### a concrete slice and refutations -/

/-- two trajectories in each of two planes that meet at a vertex of the plane; the vertices are matched in 3D -/
def exV : Slice :=
  { n := 8, own := fun h => (h / 2 : Nat) + 1
    tjs := [{ pts := [pt 0, pt 1], endPt := (0, 1), vtx := (1, 0), id := 1, uid := 1 },
      { pts := [pt 2, pt 3], endPt := (0, 1), vtx := (1, 0), id := 2, uid := 2 },
      { pts := [pt 4, pt 5], endPt := (0, 1), vtx := (2, 0), id := 3, uid := 3, ctp := 1 },
      { pts := [pt 6, pt 7], endPt := (0, 1), vtx := (2, 0), id := 4, uid := 4, ctp := 1, photon := true }]
    vtxs := [⟨1, 1, 0, 0, (0, 0), 2, false⟩, ⟨2, 1, 1, 1, (0, 0), 2, false⟩]
    vtx3s := [⟨1, [1, 2, 0], 3, -1⟩]
    pfps := [⟨[1, 3], (1, 0)⟩]
    uid := 4 }

/-- what is seen of the vertices: their numbers and 3D vertices, the 3D vertices, the ends of trajectories and of
particles -/
structure VView where
  vx : List (Nat × Nat)
  vx3 : List (Nat × List Nat)
  ends : List (Nat × Nat)
  pfps : List (Nat × Nat)
deriving DecidableEq

/-- what is seen of the vertices -/
def vtxView (s : Slice) : VView :=
  ⟨s.vtxs.map fun v => (v.id, v.vx3), s.vtx3s.map fun w => (w.id, w.vx2), s.tjs.map Traj.vtx, s.pfps.map Pfp.vx3⟩

theorem forall_getElem? {α : Type} {l : List α} {P : Nat → α → Prop} :
    (∀ (i : Nat) (a : α), l[i]? = some a → P i a) ↔ ∀ i, ∀ h : i < l.length, P i l[i] := by
  constructor
  · intro h i hi
    exact h i _ (List.getElem?_eq_getElem hi)
  · intro h i a ha
    obtain ⟨hi, rfl⟩ := List.getElem?_eq_some_iff.1 ha
    exact h i hi

theorem exV_ok : VtxOK exV := by
  refine ⟨?_, ?_, ?_, ?_, ?_⟩
  · rw [forall_getElem?]; decide
  · rw [forall_getElem?]; decide
  · have : ∀ t ∈ exV.tjs, ∀ e, t.vtxAt e = 0 ∨ ∃ v ∈ exV.vtxs, exV.vtxs[t.vtxAt e - 1]? = some v ∧ v.id = t.vtxAt e ∧ v.ctp = t.ctp := by
      decide
    intro t ht _ _ e
    rcases this t ht e with h | ⟨v, _, h⟩
    · exact Or.inl h
    · exact Or.inr (Or.inr ⟨v, h⟩)
  · rw [forall_getElem?]
    have : ∀ i, ∀ h : i < exV.vtxs.length, ∃ w ∈ exV.vtx3s, exV.vtx3s[exV.vtxs[i].vx3 - 1]? = some w ∧
      w.id = exV.vtxs[i].vx3 ∧ w.vx2[exV.vtxs[i].plane]? = some exV.vtxs[i].id := by decide
    intro i h _ _
    obtain ⟨w, _, h⟩ := this i h
    exact ⟨w, h⟩
  · rw [forall_getElem?]
    have : ∀ i, ∀ h : i < exV.vtx3s.length, ∀ p, ∀ hp : p < exV.vtx3s[i].vx2.length, exV.vtx3s[i].vx2[p] ≠ 0 →
      ∃ v ∈ exV.vtxs, exV.vtxs[exV.vtx3s[i].vx2[p] - 1]? = some v ∧ v.id = exV.vtx3s[i].vx2[p] ∧
      v.vx3 = exV.vtx3s[i].id ∧ v.plane = p := by decide
    intro i h _ p y hy hy0
    obtain ⟨hp, rfl⟩ := List.getElem?_eq_some_iff.1 hy
    obtain ⟨v, _, h⟩ := this i h p hp hy0
    exact ⟨v, h⟩

/-- the answer of a function and what is seen after it -/
def ansView (r : Res (Bool × Slice)) : Option (Bool × VView) :=
  match r with
  | .ok (b, s) => some (b, vtxView s)
  | _ => none

example : VtxOK exV ∧ exV.vtxs[0]? = some ⟨1, 1, 0, 0, (0, 0), 2, false⟩ ∧
    ansView (killVx2 3 (fun _ _ => 0) exV 0 false) = some (false, vtxView exV) ∧
    ansView (killVx2 4 (fun _ _ => 0) exV 0 false) =
      some (true, ⟨[(0, 1), (2, 1)], [(1, [0, 2, 0])], [(0, 0), (0, 0), (2, 0), (2, 0)], [(1, 0)]⟩) :=
  ⟨exV_ok, rfl, by decide +kernel, by decide +kernel⟩

example : ansView (killVx3 3 (fun _ _ => 0) exV 0) =
    some (true, ⟨[(0, 1), (0, 1)], [(0, [0, 0, 0])], [(0, 0), (0, 0), (0, 0), (0, 0)], [(1, 0)]⟩) := by decide +kernel

/-- the step "Ensure that there are at least two 2D vertices left" never runs: whatever 2D vertex is killed, every 3D
vertex stays -/
theorem C122_3d_stays_refuted (cut : Rat) (score : Slice → Vtx3 → Rat) {s : Slice} (hs : VtxOK s) {iv : Nat} {v : Vtx}
    (hv : s.vtxs[iv]? = some v) (hid : v.id ≠ 0) (force : Bool) {r : Bool} {s' : Slice}
    (h : killVx2 cut score s iv force = .ok (r, s')) : s'.vtx3s.map (·.id) = s.vtx3s.map (·.id) := by
  obtain ⟨r1, s1, e, _, h0, h1⟩ := C122_kill_vertex cut score hs hv hid force
  rw [h] at e
  cases e
  cases r with
  | false => rw [h0 rfl]
  | true =>
    obtain ⟨_, _, _, _, _, _, h7, h8⟩ := h1 rfl
    apply List.ext_getElem?
    intro k
    simp only [List.getElem?_map]
    cases hk : s.vtx3s[k]? with
    | none =>
      rw [List.getElem?_eq_none_iff] at hk
      rw [List.getElem?_eq_none_iff.2 (by omega)]
    | some w =>
      rw [h8 k w hk]
      split <;> rfl

/-- so a 3D vertex can be left with one 2D vertex, or with none, and a particle stays attached to it; and killing the
killed vertex again, which is not meant to do anything, makes the 3D vertex obsolete and takes the photon mark from a
trajectory that was attached to another vertex -/
theorem C122_incomplete_refuted :
    VtxOK exV ∧
    (match killVx2 0 (fun _ _ => 0) exV 0 true with
      | .ok (_, s) =>
        decide (vtxView s = ⟨[(0, 1), (2, 1)], [(1, [0, 2, 0])], [(0, 0), (0, 0), (2, 0), (2, 0)], [(1, 0)]⟩) &&
        (match killVx2 0 (fun _ _ => 0) s 0 true with
          | .ok (_, s2) =>
            decide (vtxView s2 = ⟨[(0, 1), (2, 0)], [(0, [0, 2, 0])], [(0, 0), (0, 0), (2, 0), (2, 0)], [(0, 0)]⟩) &&
            decide (s.tjs.map Traj.photon = [false, false, false, true]) &&
            decide (s2.tjs.map Traj.photon = [false, false, false, false])
          | _ => false)
      | _ => false) = true :=
  ⟨exV_ok, by decide +kernel⟩

/-- killing a 3D vertex leaves particles attached to it -/
theorem C123_pfp_refuted :
    VtxOK exV ∧ ansView (killVx3 3 (fun _ _ => 0) exV 0) =
    some (true, ⟨[(0, 1), (0, 1)], [(0, [0, 0, 0])], [(0, 0), (0, 0), (0, 0), (0, 0)], [(1, 0)]⟩) :=
  ⟨exV_ok, by decide +kernel⟩

end Verif.TC

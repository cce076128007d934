import Verif.TrajCluster.Merge
import Verif.TrajCluster.Vertex3
/-!
# Merging two trajectories: the theorem
-/
namespace Verif.TC

/-- only marks of vertices have changed -/
def Marks (t t' : Traj) : Prop := t' = { t with vtx := t'.vtx, photon := t'.photon, hiVx3 := t'.hiVx3 }

theorem Marks.fields {t t' : Traj} (h : Marks t t') : t'.pts = t.pts ∧ t'.killed = t.killed ∧ t'.shower = t.shower := by
  unfold Marks at h
  generalize t'.vtx = a at h
  generalize t'.photon = b at h
  generalize t'.hiVx3 = c at h
  subst h
  exact ⟨rfl, rfl, rfl⟩

/-- the outcome of merging the trajectories at `i` and `j` of the slice `s`: either refused, and only marks of vertices
have changed; or there is one more trajectory that has all hits of one of the two and a part of the hits of the other,
the two are killed, other trajectories keep everything but marks of vertices and the number of a parent, and the hits of
the two that are not in the new one are free -/
structure MergeOutcome (s : Slice) (i j : Nat) (a b : Traj) (r : Bool) (s' : Slice) : Prop where
  tables : Owned s'
  n : s'.n = s.n
  refused : r = false → s'.own = s.own ∧ List.Forall₂ Marks s.tjs s'.tjs
  merged : r = true → ∃ m, s'.tjs.length = s.tjs.length + 1 ∧ s'.tjs[s.tjs.length]? = some m ∧ m.killed = false ∧
    (Joined a b m ∨ Joined b a m) ∧
    (∀ (k : Nat) (t : Traj), s.tjs[k]? = some t → ∃ t', s'.tjs[k]? = some t' ∧
      t' = { t with killed := t'.killed, parentID := t'.parentID, vtx := t'.vtx, photon := t'.photon,
                    hiVx3 := t'.hiVx3 } ∧
      (t'.killed = true ↔ t.killed = true ∨ k = i ∨ k = j)) ∧
    ∀ x < s.n, s'.own x = if x ∈ used m then (s.tjs.length : Int) + 1
      else if x ∈ used a ∨ x ∈ used b then 0 else s.own x

theorem forall₂_get {α β : Type} {R : α → β → Prop} {l : List α} {m : List β} (h : List.Forall₂ R l m) {k : Nat} {a : α}
    (hk : l[k]? = some a) : ∃ b, m[k]? = some b ∧ R a b := by
  obtain ⟨hl, h2⟩ := List.forall₂_iff_get.1 h
  obtain ⟨hkl, rfl⟩ := List.getElem?_eq_some_iff.1 hk
  exact ⟨_, List.getElem?_eq_getElem (by omega), h2 k hkl (by omega)⟩

theorem forall₂_marks (l : List Traj) : List.Forall₂ Marks l l := by
  induction l with
  | nil => exact .nil
  | cons t l ih => exact .cons rfl ih

/-- the copy `x` of a stored trajectory, perhaps reversed -/
structure CopyOf (t x : Traj) : Prop where
  used : ∀ h, h ∈ used x ↔ h ∈ used t
  pts : ∀ q ∈ x.pts, ∃ p ∈ t.pts, q.hits = p.hits ∧ q.chg = p.chg
  vtx : ∀ e, ∃ e', x.vtxAt e = t.vtxAt e'

theorem CopyOf.refl (t : Traj) : CopyOf t t := ⟨fun _ => Iff.rfl, fun q hq => ⟨q, hq, rfl, rfl⟩, fun e => ⟨e, rfl⟩⟩

theorem CopyOf.reverse (pi : Rat) {t : Traj} (hne : t.pts ≠ []) : CopyOf t (reverseTraj pi t) := by
  obtain ⟨_, r2, _⟩ := reverse_spec pi t hne
  refine ⟨mem_used_reverse pi t, r2, ?_⟩
  intro e
  refine ⟨!e, ?_⟩
  unfold reverseTraj
  rw [if_neg hne]
  have : ∀ u : Traj, (setEndPoints u).vtxAt e = u.vtxAt e := by
    intro u
    unfold Traj.vtxAt
    rw [(setEndPoints_fields u).2.2.2.2.1]
  rw [this]
  cases e <;> rfl

theorem Joined.copy {a b x y m : Traj} (hx : CopyOf a x) (hy : CopyOf b y) (h : Joined x y m) : Joined a b m := by
  obtain ⟨h1, ⟨p, hp, hc, h2⟩, h3⟩ := h
  refine ⟨fun z hz => h1 z ((hx.used z).2 hz), ?_, ?_⟩
  · obtain ⟨q, hq, e1, e2⟩ := hy.pts p hp
    refine ⟨q, hq, by rw [← e2]; exact hc, ?_⟩
    intro z hz
    apply h2
    rw [mem_tpHits_used] at hz ⊢
    rw [e1]
    exact hz
  · intro z hz
    rcases h3 z hz with h | h
    · exact Or.inl ((hx.used z).1 h)
    · exact Or.inr ((hy.used z).1 h)

/-- the tail of the merge in a slice where a vertex may have been removed -/
theorem tail_outcome (code : Traj → Nat) {s s1 : Slice} (ho : Owned s1) (hn : s1.n = s.n) (how : s1.own = s.own)
    (hmk : List.Forall₂ Marks s.tjs s1.tjs) {i j : Nat} {a b : Traj} (ha : s.tjs[i]? = some a) (hb : s.tjs[j]? = some b)
    (hak : a.killed = false) (hbk : b.killed = false) {x y : Traj} (mx : Mergeable s x) (my : Mergeable s y)
    (hlen : s.tjs.length < 65535) (hc : (CopyOf a x ∧ CopyOf b y) ∨ (CopyOf b x ∧ CopyOf a y)) (e1 : TP) :
    ∃ r s', mergeTail code s1 i j x y e1 = .ok (r, s') ∧ MergeOutcome s i j a b r s' := by
  obtain ⟨a1, ha1, hma⟩ := forall₂_get hmk ha
  obtain ⟨b1, hb1, hmb⟩ := forall₂_get hmk hb
  have hl := hmk.length_eq
  have hua : used a1 = used a := used_congr hma.fields.1 hma.fields.2.2 .used
  have hub : used b1 = used b := used_congr hmb.fields.1 hmb.fields.2.2 .used
  have hmx : Mergeable s1 x := ⟨mx.alive, mx.ends, mx.two, mx.nonempty, by rw [hn]; exact mx.range, mx.few, mx.charge,
    by rw [hn, how]; exact mx.work⟩
  have hmy : Mergeable s1 y := ⟨my.alive, my.ends, my.two, my.nonempty, by rw [hn]; exact my.range, my.few, my.charge,
    by rw [hn, how]; exact my.work⟩
  have hm : ∀ h, (h ∈ used x ∨ h ∈ used y) ↔ (h ∈ used a1 ∨ h ∈ used b1) := by
    intro h
    rw [hua, hub]
    rcases hc with ⟨h1, h2⟩ | ⟨h1, h2⟩
    · rw [h1.used, h2.used]
    · rw [h1.used, h2.used, or_comm]
  obtain ⟨r, s', f1, f2, f3, f4, f5⟩ := mergeTail_spec code ho ha1 hb1 (by rw [hma.fields.2.1]; exact hak)
    (by rw [hmb.fields.2.1]; exact hbk) hmx hmy hm (by omega) e1
  refine ⟨r, s', f1, f2, by omega, ?_, ?_⟩
  · intro h
    rw [f4 h]
    exact ⟨how, hmk⟩
  · intro h
    obtain ⟨m, g1, g2, g3, g4, _, g5, g6⟩ := f5 h
    refine ⟨m, by omega, by rw [hl]; exact g2, g3, ?_, ?_, ?_⟩
    · rcases hc with ⟨h1, h2⟩ | ⟨h1, h2⟩
      · exact Or.inl (g4.copy h1 h2)
      · exact Or.inr (g4.copy h1 h2)
    · intro k t hk
      obtain ⟨t1, ht1, hmt⟩ := forall₂_get hmk hk
      obtain ⟨t', x1, x2, x3⟩ := g5 k t1 ht1
      refine ⟨t', x1, ?_, by rw [x3, hmt.fields.2.1]⟩
      unfold Marks at hmt
      generalize t1.vtx = u1 at hmt
      generalize t1.photon = u2 at hmt
      generalize t1.hiVx3 = u3 at hmt
      subst hmt
      rw [x2]
    · intro z hz
      rw [g6 z (by omega), hua, hub, hl, how]

theorem mergeBody_outcome (pi cut : Rat) (score : Slice → Vtx3 → Rat) (code : Traj → Nat) {s : Slice} (ho : Owned s)
    (hv : VtxOK s) {i j : Nat} {a b : Traj} (ha : s.tjs[i]? = some a) (hb : s.tjs[j]? = some b) (ma : Mergeable s a)
    (mb : Mergeable s b) (hlen : s.tjs.length < 65535) :
    ∃ r s', mergeBody pi cut score code s i j a b = .ok (r, s') ∧ MergeOutcome s i j a b r s' := by
  have hnb : b.pts ≠ [] := by
    intro e
    obtain ⟨i, j, p, q, _, h2, _⟩ := mb.two
    rw [e] at h2
    cases h2
  have hsame : MergeOutcome s i j a b false s := ⟨ho, rfl, fun _ => ⟨rfl, forall₂_marks _⟩, by simp⟩
  unfold mergeBody
  simp only
  have hcopy : ∃ b', (if b.stepDir ≠ a.stepDir then reverseTraj pi b else b) = b' ∧ CopyOf b b' ∧ Mergeable s b' := by
    refine ⟨_, rfl, ?_⟩
    split
    · exact ⟨CopyOf.reverse pi hnb, mb.reverse pi⟩
    · exact ⟨CopyOf.refl b, mb⟩
  obtain ⟨b', e, cb, mb'⟩ := hcopy
  rw [e]
  obtain ⟨⟨p1, hp1, _⟩, ⟨p0, hp0, _⟩, _, _⟩ := ma.last
  obtain ⟨⟨q1, hq1, _⟩, ⟨q0, hq0, _⟩, _, _⟩ := mb'.last
  rw [hp0, hp1, hq0, hq1]
  simp only
  generalize hX : (if posSep2 q1.pos p0.pos < posSep2 p1.pos q0.pos then b' else a) = x
  generalize hY : (if posSep2 q1.pos p0.pos < posSep2 p1.pos q0.pos then a else b') = y
  have hxy : Mergeable s x ∧ Mergeable s y ∧ ((CopyOf a x ∧ CopyOf b y) ∨ (CopyOf b x ∧ CopyOf a y)) := by
    rw [← hX, ← hY]
    split
    · exact ⟨mb', ma, Or.inr ⟨cb, CopyOf.refl a⟩⟩
    · exact ⟨ma, mb', Or.inl ⟨CopyOf.refl a, cb⟩⟩
  obtain ⟨mx, my, hc⟩ := hxy
  generalize (if posSep2 q1.pos p0.pos < posSep2 p1.pos q0.pos then q1 else p1) = x1
  generalize (if posSep2 q1.pos p0.pos < posSep2 p1.pos q0.pos then q0 else p0) = x0
  generalize (if posSep2 q1.pos p0.pos < posSep2 p1.pos q0.pos then p0 else q0) = y0
  generalize (if posSep2 q1.pos p0.pos < posSep2 p1.pos q0.pos then p1 else q1) = y1
  split
  · exact ⟨false, s, rfl, hsame⟩
  · split
    · rename_i hvx
      have hx2 : ∃ v, s.vtxs[x.vtx.2 - 1]? = some v ∧ v.id ≠ 0 := by
        have hxe : x.vtxAt true = x.vtx.2 := rfl
        have key : ∀ (t : Traj) (k : Nat), s.tjs[k]? = some t → t.killed = false → t.halo = false → CopyOf t x →
            ∃ v, s.vtxs[x.vtx.2 - 1]? = some v ∧ v.id ≠ 0 := by
          intro t k hk h1 h2 h3
          obtain ⟨e', he'⟩ := h3.vtx true
          rcases hv.ends t (List.mem_of_getElem? hk) h1 h2 e' with h | h | ⟨v, h4, h5, _⟩
          · omega
          · omega
          · exact ⟨v, by rw [← hxe, he']; exact h4, by omega⟩
        rcases hc with ⟨h1, _⟩ | ⟨h1, _⟩
        · exact key a i ha ma.alive.1 ma.alive.2.2 h1
        · exact key b j hb mb.alive.1 mb.alive.2.2 h1
      obtain ⟨v, hv1, hv2⟩ := hx2
      obtain ⟨r1, s1, k1, _, k3, k4⟩ := C122_kill_vertex cut score hv hv1 hv2 false
      have hos1 := ho.killVx2 cut score hv hv1 hv2 false k1
      rw [k1]
      simp only [Res.bind]
      cases r1 with
      | false =>
        rw [k3 rfl]
        exact ⟨false, s, by simp, hsame⟩
      | true =>
        obtain ⟨h1, h2, _, _, _, h6, _, _⟩ := k4 rfl
        have hmk : List.Forall₂ Marks s.tjs s1.tjs := h6.imp fun _ _ h => h.same
        simp only [if_true]
        split
        · exact ⟨false, s1, rfl, hos1, h1, fun _ => ⟨h2, hmk⟩, by simp⟩
        · exact tail_outcome code hos1 h1 h2 hmk ha hb ma.alive.1 mb.alive.1 mx my hlen hc x1
    · split
      · exact ⟨false, s, rfl, hsame⟩
      · exact tail_outcome code ho rfl rfl (forall₂_marks _) ha hb ma.alive.1 mb.alive.1 mx my hlen hc x1

theorem MergeOutcome.symm {s s' : Slice} {i j : Nat} {a b : Traj} {r : Bool} (h : MergeOutcome s i j a b r s') :
    MergeOutcome s j i b a r s' := by
  refine ⟨h.tables, h.n, h.refused, ?_⟩
  intro hr
  obtain ⟨m, h1, h2, h3, h4, h5, h6⟩ := h.merged hr
  refine ⟨m, h1, h2, h3, h4.symm, ?_, ?_⟩
  · intro k t hk
    obtain ⟨t', a1, a2, a3⟩ := h5 k t hk
    exact ⟨t', a1, a2, by rw [a3, or_comm (a := k = i)]⟩
  · intro x hx
    rw [h6 x hx]
    simp only [or_comm]

/-- **C121.** Merging two stored trajectories never breaks the agreement of the tables of hits. It either refuses, and
then no trajectory and no hit has changed (but a vertex may have been removed), or it succeeds: a new trajectory at the
end of the list has all hits of one of the two and part of the other's, each hit once; the two originals are killed; hits
of the originals left out are free; other trajectories and other hits stay. -/
theorem C121_merge (pi cut : Rat) (score : Slice → Vtx3 → Rat) (code : Traj → Nat)
    (showers : Slice → Nat → Nat → Res (Bool × Slice)) {s : Slice} (ho : Owned s) (hv : VtxOK s) {i j : Nat} {a b : Traj}
    (ha : s.tjs[i]? = some a) (hb : s.tjs[j]? = some b) (ma : Mergeable s a) (mb : Mergeable s b)
    (hlen : s.tjs.length < 65535) :
    ∃ r s', mergeAndStore pi cut score code showers s i j = .ok (r, s') ∧ MergeOutcome s i j a b r s' := by
  have hne : s.tjs ≠ [] := by
    intro h
    rw [h] at ha
    cases ha
  unfold mergeAndStore
  rw [if_neg hne, ha, hb]
  simp only
  obtain ⟨a1, a2, a3⟩ := ma.alive
  obtain ⟨b1, b2, b3⟩ := mb.alive
  rw [if_neg (by simp [a1, b1]), if_neg (by simp [a3, b3]), if_neg (by simp [a2, b2])]
  cases pfpIndex s a.id with
  | none =>
    cases pfpIndex s b.id with
    | none => exact mergeBody_outcome pi cut score code ho hv ha hb ma mb hlen
    | some q =>
      obtain ⟨r, s', h1, h2⟩ := mergeBody_outcome pi cut score code ho hv hb ha mb ma hlen
      exact ⟨r, s', h1, h2.symm⟩
  | some p =>
    cases pfpIndex s b.id with
    | none => exact mergeBody_outcome pi cut score code ho hv ha hb ma mb hlen
    | some q => exact ⟨false, s, rfl, ho, rfl, fun _ => ⟨rfl, forall₂_marks _⟩, by simp⟩

/-! ### a concrete case and refutations -/

/-- two trajectories that meet at a vertex -/
def exM : Slice :=
  { n := 8, own := fun h => if h < 4 then 1 else 2
    tjs := [{ pts := [pt 0, pt 1, pt 2, pt 3], endPt := (0, 3), vtx := (0, 1), id := 1, uid := 1, workID := -1 },
      { pts := [pt 4, pt 5, pt 6, pt 7], endPt := (0, 3), vtx := (1, 0), id := 2, uid := 2, workID := -2 }]
    vtxs := [⟨1, 0, 0, 0, (7 / 2, 0), 2, false⟩]
    uid := 2 }

theorem forall_getElem?' {α : Type} {l : List α} {P : Nat → α → Prop} (h : ∀ i, ∀ h : i < l.length, P i l[i]) :
    ∀ (i : Nat) (a : α), l[i]? = some a → P i a := forall_getElem?.2 h

theorem exM_owned : Owned exM := by
  refine ⟨forall_getElem?' (by decide), ?_, ?_, ?_, ?_, by decide⟩
  · intro h hh _
    have : ∀ h < 8, ∃ i, ∃ hi : i < exM.tjs.length, exM.own h = (i : Int) + 1 ∧ exM.tjs[i].killed = false ∧
        h ∈ used exM.tjs[i] := by
      intro h hh
      by_cases h4 : h < 4
      · exact ⟨0, by decide, by simp [exM, h4], rfl, (by decide : ∀ h < 4, h ∈ used exM.tjs[0]) h h4⟩
      · exact ⟨1, by decide, by simp [exM, h4], rfl, (by decide : ∀ h < 8, ¬ h < 4 → h ∈ used exM.tjs[1]) h hh h4⟩
    obtain ⟨i, hi, h1, h2, h3⟩ := this h hh
    exact ⟨i, _, List.getElem?_eq_getElem hi, h1, h2, h3⟩
  · exact forall_getElem?' (by decide)
  · exact forall_getElem?' (by decide)
  · exact forall_getElem?' (by decide)

theorem exM_vtx : VtxOK exM := by
  refine ⟨forall_getElem?' (by decide), forall_getElem?' (by decide), ?_, ?_, ?_⟩
  · have : ∀ t ∈ exM.tjs, ∀ e, t.vtxAt e = 0 ∨ ∃ v ∈ exM.vtxs, exM.vtxs[t.vtxAt e - 1]? = some v ∧ v.id = t.vtxAt e ∧
        v.ctp = t.ctp := by decide +kernel
    intro t ht _ _ e
    rcases this t ht e with h | ⟨v, _, h⟩
    · exact Or.inl h
    · exact Or.inr (Or.inr ⟨v, h⟩)
  · have : ∀ (i : Nat) (v : Vtx), exM.vtxs[i]? = some v → v.vx3 = 0 := forall_getElem?' (by decide)
    intro i v h _ h3
    exact absurd (this i v h) h3
  · intro i w h
    simp [exM] at h

/-- both trajectories of the example can be merged -/
theorem exM_mergeable : ∀ t ∈ exM.tjs, Mergeable exM t := by
  intro t ht
  have ht : t = exM.tjs[0] ∨ t = exM.tjs[1] := by simpa [exM] using ht
  rcases ht with rfl | rfl
  · exact ⟨by decide, by decide +kernel, ⟨0, 1, pt 0, pt 1, by decide, by decide, by decide, by decide, by decide⟩, by decide,
      by decide, by decide, by decide, by decide⟩
  · exact ⟨by decide, by decide +kernel, ⟨0, 1, pt 4, pt 5, by decide, by decide, by decide, by decide, by decide⟩, by decide,
      by decide, by decide, by decide, by decide⟩

/-- what is seen after a merge: the answer, owners, killed trajectories with their vertices and hits, vertices -/
structure MView where
  answer : Bool
  owners : List Int
  killed : List Bool
  ends : List (Nat × Nat)
  hits : List (List Nat)
  vtxs : List Nat
deriving DecidableEq

/-- what is seen after a merge -/
def mergeView (r : Res (Bool × Slice)) : Option MView :=
  match r with
  | .ok (b, s) => some ⟨b, owners s, s.tjs.map Traj.killed, s.tjs.map Traj.vtx, s.tjs.map used, s.vtxs.map Vtx.id⟩
  | _ => none

/-- merge the first two trajectories -/
def mergeEx (s : Slice) : Res (Bool × Slice) := mergeAndStore (22 / 7) 0 (fun _ _ => 0) (fun _ => 13) (fun _ _ _ => .ub) s 0 1

example : Owned exM ∧ VtxOK exM ∧ (∀ t ∈ exM.tjs, Mergeable exM t) := ⟨exM_owned, exM_vtx, exM_mergeable⟩

/-- after a successful merge across a vertex, the vertex is killed and the new trajectory is attached to it: the tables
of the vertices no longer agree -/
theorem C121_dead_vertex_refuted :
    Owned exM ∧ VtxOK exM ∧ (∀ t ∈ exM.tjs, Mergeable exM t) ∧
    mergeView (mergeEx exM) = some ⟨true, [3, 3, 3, 3, 3, 3, 3, 3], [true, true, false], [(0, 0), (0, 0), (0, 1)],
      [[0, 1, 2, 3], [4, 5, 6, 7], [0, 1, 2, 3, 4, 5, 6, 7]], [0]⟩ ∧
    ∀ s, mergeEx exM = .ok (true, s) → ¬ VtxOK s := by
  have hview : mergeView (mergeEx exM) = some ⟨true, [3, 3, 3, 3, 3, 3, 3, 3], [true, true, false],
      [(0, 0), (0, 0), (0, 1)], [[0, 1, 2, 3], [4, 5, 6, 7], [0, 1, 2, 3, 4, 5, 6, 7]], [0]⟩ := by decide +kernel
  refine ⟨exM_owned, exM_vtx, exM_mergeable, hview, ?_⟩
  intro s hs hok
  have hh : (match mergeEx exM with
      | .ok (_, s) => s.tjs.map Traj.halo
      | _ => []) = [false, false, false] := by decide +kernel
  rw [hs] at hview hh
  simp only [mergeView, Option.some.injEq, MView.mk.injEq, true_and] at hview hh
  obtain ⟨_, h2, h3, _, h5⟩ := hview
  have hlen : s.tjs.length = 3 := by
    have := congrArg List.length h2
    simpa using this
  have g : ∀ {β : Type} (f : Traj → β) (l : List β), s.tjs.map f = l → l[2]? = some (f (s.tjs[2]'(by omega))) := by
    intro β f l h
    rw [← h, List.getElem?_map, List.getElem?_eq_getElem (by omega : 2 < s.tjs.length)]
    rfl
  have k1 := g Traj.killed _ h2
  have k2 := g Traj.vtx _ h3
  have k3 := g Traj.halo _ hh
  simp at k1 k2 k3
  have hv1 : (s.tjs[2]'(by omega)).vtxAt true = 1 := by
    simp [Traj.vtxAt, ← k2]
  rcases hok.ends _ (List.getElem_mem (by omega : 2 < s.tjs.length)) k1 k3 true with h | h | ⟨v, h, h', _⟩
  · omega
  · omega
  · rw [hv1] at h h'
    simp only [Nat.sub_self] at h
    have : (s.vtxs.map Vtx.id)[0]? = some 1 := by
      rw [List.getElem?_map, h]
      simp [h']
    rw [h5] at this
    simp at this

/-- a refused merge (here: a Bragg peak at the end of the first trajectory) has already removed the vertex between the
two trajectories -/
theorem C121_refused_vertex_refuted :
    mergeView (mergeEx { exM with tjs := exM.tjs.map fun t => { t with endFlag := (0, 8) } }) =
      some ⟨false, [1, 1, 1, 1, 2, 2, 2, 2], [false, false], [(0, 0), (0, 0)], [[0, 1, 2, 3], [4, 5, 6, 7]], [0]⟩ := by
  decide +kernel

/-- without the limit of 16 hits per point: the new trajectory cannot be stored, but the originals are killed and the
hits are lost -/
theorem C121_lost_refuted :
    mergeView (mergeEx { exM with
      vtxs := [], n := 40, own := fun h => if h < 4 then 1 else if h < 8 then 2 else 0
      tjs := [{ pts := [pt 0, pt 1, pt 2, pt 3], endPt := (0, 3), id := 1, uid := 1, workID := -1 },
        { pts := [pt 4, pt 5, pt 6, { pt 7 with hits := (7, true) :: (List.range 16).map fun x => (x + 8, false) }],
          endPt := (0, 3), id := 2, uid := 2, workID := -2 }] }) =
      some ⟨false, List.replicate 40 0, [true, true], [(0, 0), (0, 0)], [[0, 1, 2, 3], [4, 5, 6, 7]], []⟩ := by
  decide +kernel

end Verif.TC

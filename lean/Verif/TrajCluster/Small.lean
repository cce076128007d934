import Verif.TrajCluster.Merge
import Mathlib.Tactic.Linarith
import Mathlib.Tactic.Ring
/-!
# The check of the hit tables, lists of hits, duplicates, reversing
-/
namespace Verif.TC

/-! ### the check of the hit tables -/

theorem equalPrefix_self (l : List Nat) : equalPrefix l l = some true := by
  induction l with
  | nil => rfl
  | cons a l ih => simp [equalPrefix, ih]

/-- **C126.** When the tables of the hits agree and all vertices at ends exist, the check answers yes (for fewer than
65536 trajectories). -/
theorem C126_ok_passes {s : Slice} (ho : Owned s) (hlen : s.tjs.length < 65536)
    (hv : ∀ t ∈ s.tjs, t.killed = false → t.vtx.1 ≤ s.vtxs.length ∧ t.vtx.2 ≤ s.vtxs.length) :
    inTrajOK s s.tjs = some true := by
  have hat : ∀ (i : Nat) (t : Traj), s.tjs[i]? = some t → inTrajOKAt s t = some true := by
    intro i t ht
    unfold inTrajOKAt
    cases hk : t.killed with
    | true => rfl
    | false =>
      have hil := (List.getElem?_eq_some_iff.1 ht).1
      have hid := ho.ids i t ht
      have hmod : t.id % 65536 = i + 1 := by omega
      simp only [Bool.false_eq_true, if_false]
      by_cases h2 : (trajHits t .used).length < 2
      · rw [if_pos h2]
      · rw [if_neg h2, hmod]
        have heq : (trajHits t .used).insertionSort (· ≤ ·) = ownedHits s (i + 1) := by
          apply List.Perm.eq_of_pairwise' (r := (· ≤ ·))
          · exact List.pairwise_insertionSort _ _
          · unfold ownedHits
            exact (List.pairwise_le_range (n := s.n)).filter _
          · refine (List.perm_insertionSort _ _).trans ?_
            refine (List.perm_ext_iff_of_nodup (ho.once i t ht hk) (List.nodup_range.filter _)).2 ?_
            intro x
            simp only [List.mem_filter, List.mem_range, decide_eq_true_eq]
            constructor
            · intro hx
              exact ho.owns i t ht hk x hx
            · rintro ⟨hx, hox⟩
              obtain ⟨j, u, a, b, c, d⟩ := ho.owner x hx (by omega)
              have : i = j := by omega
              subst this
              rw [ht] at a
              cases a
              exact d
        by_cases h3 : (ownedHits s (i + 1)).length < 2
        · rw [if_pos h3]
        · rw [if_neg h3, heq, equalPrefix_self]
          simp [hv t (List.mem_of_getElem? ht) hk]
  have : ∀ l, (∀ t ∈ l, inTrajOKAt s t = some true) → inTrajOK s l = some true := by
    intro l
    induction l with
    | nil => intro _; rfl
    | cons t l ih =>
      intro h
      rw [inTrajOK, h t (List.mem_cons_self ..)]
      exact ih fun u hu => h u (List.mem_cons_of_mem _ hu)
  apply this
  intro t ht
  obtain ⟨i, hi, rfl⟩ := List.mem_iff_getElem.1 ht
  exact hat i _ (List.getElem?_eq_getElem hi)

/-- the check answers yes although a hit is marked as owned by a trajectory that does not use it, although the only used
hit of a trajectory is owned by another one, and although all hits of a trajectory are owned by another one; and for a
trajectory that uses more hits than it owns it reads beyond the end of a list -/
theorem C126_incomplete_refuted :
    inTrajOK { ex0 with own := fun h => if h < 3 then 1 else 0 }
      [{ pts := [pt 0, pt 1], id := 1 }] = some true ∧
    inTrajOK { ex0 with own := fun h => if h < 2 then 2 else 0 }
      [{ pts := [pt 0, pt 1], id := 1 }] = some true ∧
    inTrajOK { ex0 with own := fun h => if h < 2 then 1 else 0 }
      [{ pts := [pt 0, pt 1, pt 2], id := 1 }] = none := by
  refine ⟨?_, ?_, ?_⟩ <;> decide +kernel

/-! ### lists of hits -/

/-- **C127.** The used and the unused hits of a trajectory together are all its hits, each list in the order of the
points. (For a shower trajectory the three lists are the same.) -/
theorem C127_partition (t : Traj) (hs : t.shower = false) :
    (trajHits t .used ++ trajHits t .unused).Perm (trajHits t .all) ∧
    (trajHits t .used).Sublist (trajHits t .all) ∧ (trajHits t .unused).Sublist (trajHits t .all) ∧
    (∀ h, h ∈ trajHits t .used ↔ ∃ p ∈ t.pts, (h, true) ∈ p.hits) ∧
    (∀ h, h ∈ trajHits t .unused ↔ ∃ p ∈ t.pts, (h, false) ∈ p.hits) := by
  unfold trajHits
  rw [if_neg (by simp [hs]), if_neg (by simp [hs]), if_neg (by simp [hs])]
  have htp : ∀ p : TP, (tpHits .used p ++ tpHits .unused p).Perm (tpHits .all p) := by
    intro p
    unfold tpHits
    rw [← List.map_append]
    refine List.Perm.map _ ?_
    have := List.filter_append_perm (fun x : Nat × Bool => wanted .used x.2) p.hits
    have e : p.hits.filter (fun x => wanted .all x.2) = p.hits := by
      rw [List.filter_eq_self]; intro _ _; rfl
    rw [e]
    exact this
  refine ⟨?_, flatMap_used_sub_all _, ?_, ?_, ?_⟩
  · have hperm : ∀ l : List TP, (l.flatMap (tpHits .used) ++ l.flatMap (tpHits .unused)).Perm
        (l.flatMap (tpHits .all)) := by
      intro l
      induction l with
      | nil => simp
      | cons p l ih =>
        simp only [List.flatMap_cons]
        have h1 : (tpHits .used p ++ l.flatMap (tpHits .used) ++ (tpHits .unused p ++ l.flatMap (tpHits .unused))).Perm
            (tpHits .used p ++ tpHits .unused p ++ (l.flatMap (tpHits .used) ++ l.flatMap (tpHits .unused))) := by
          rw [List.append_assoc, List.append_assoc]
          refine List.Perm.append_left _ ?_
          rw [← List.append_assoc, ← List.append_assoc]
          exact List.Perm.append_right _ List.perm_append_comm
        exact h1.trans ((htp p).append ih)
    exact hperm t.pts
  · have hsub : ∀ l : List TP, (l.flatMap (tpHits .unused)).Sublist (l.flatMap (tpHits .all)) := by
      intro l
      induction l with
      | nil => simp
      | cons p l ih =>
        simp only [List.flatMap_cons]
        refine List.Sublist.append ?_ ih
        unfold tpHits
        refine List.Sublist.map _ ?_
        have : p.hits.filter (fun x => wanted .all x.2) = p.hits := by
          rw [List.filter_eq_self]; intro _ _; rfl
        rw [this]
        exact List.filter_sublist
    exact hsub t.pts
  · intro h
    simp only [List.mem_flatMap, mem_tpHits_used]
  · intro h
    simp only [List.mem_flatMap, tpHits, wanted, List.mem_map, List.mem_filter]
    constructor
    · rintro ⟨p, hp, ⟨x, u⟩, ⟨h1, h2⟩, rfl⟩
      simp only [Bool.not_eq_true'] at h2
      subst h2
      exact ⟨p, hp, h1⟩
    · rintro ⟨p, hp, h1⟩
      exact ⟨p, hp, _, ⟨h1, rfl⟩, rfl⟩

example : trajHits exT .used = [0, 1, 3] ∧ trajHits exT .unused = [2] ∧ trajHits exT .all = [0, 1, 2, 3] := by decide

theorem nodup_hasDup {l : List Nat} (h : l.Nodup) : hasDup l = false := by
  induction l with
  | nil => rfl
  | cons a l ih =>
    rw [List.nodup_cons] at h
    rw [hasDup, Bool.or_eq_false_iff]
    refine ⟨?_, ih h.2⟩
    rw [List.any_eq_false]
    intro x hx
    simp only [decide_eq_true_eq]
    rintro rfl
    exact h.1 hx

/-- **C127.** For a trajectory with at least one and at most 65535 hits the test for duplicates answers exactly whether
some hit occurs twice, used or not. -/
theorem C127_duplicates_partial (t : Traj) (h1 : trajHits t .all ≠ []) (h2 : (trajHits t .all).length < 65536) :
    ∃ b, hasDuplicateHits t = some b ∧ (b = true ↔ ¬ (trajHits t .all).Nodup) := by
  unfold hasDuplicateHits
  simp only
  rw [if_neg h1, if_neg (by omega)]
  refine ⟨_, rfl, ?_⟩
  constructor
  · intro h hn
    rw [nodup_hasDup hn] at h
    cases h
  · intro h
    by_contra hc
    exact h (hasDup_false (by simpa using hc))

example : hasDuplicateHits { pts := [pt 0, pt 1, pt 0], id := 1 } = some true ∧ hasDuplicateHits exT = some false := by
  decide

/-- without hits the test never ends, and from 65536 hits on it always finds duplicates -/
theorem C127_duplicates_refuted (t : Traj) :
    (trajHits t .all = [] → hasDuplicateHits t = none) ∧
    (65536 ≤ (trajHits t .all).length → hasDuplicateHits t = some true) := by
  unfold hasDuplicateHits
  simp only
  constructor
  · intro h
    rw [if_pos h]
  · intro h
    rw [if_neg, if_pos h]
    intro e
    rw [e] at h
    simp at h

/-! ### reversing -/

/-- a point seen in the other direction -/
def flipTP (pi : Rat) (p : TP) : TP :=
  { p with dir := (-p.dir.1, -p.dir.2), ang := if 0 < p.ang then p.ang - pi else p.ang + pi }

theorem flipTP_flipTP {pi : Rat} {p : TP} (h1 : -pi < p.ang) (h2 : p.ang ≤ pi) : flipTP pi (flipTP pi p) = p := by
  obtain ⟨hits, chg, pos, dir, ang⟩ := p
  simp only [flipTP, neg_neg, TP.mk.injEq, true_and, Prod.mk.eta] at *
  split
  · rw [if_neg (by linarith)]; ring
  · rw [if_pos (by linarith)]; ring

theorem reverse_eq (pi : Rat) {t : Traj} (hne : t.pts ≠ []) (h1 : t.shower = false) (h2 : t.halo = false) :
    reverseTraj pi t = { t with
      stepDir := -t.stepDir
      vtx := (t.vtx.2, t.vtx.1)
      endFlag := (t.endFlag.2, t.endFlag.1)
      dEdx := (t.dEdx.2, t.dEdx.1)
      pts := t.pts.reverse.map (flipTP pi)
      startEnd := if t.startEnd = 0 ∨ t.startEnd = 1 then 1 - t.startEnd else t.startEnd
      endPt := (firstChg (t.pts.reverse.map (flipTP pi)), lastChg (t.pts.reverse.map (flipTP pi))) } := by
  unfold reverseTraj
  rw [if_neg hne]
  unfold setEndPoints
  rw [if_neg (by simp [h1, h2])]
  rfl

/-- **C128.** Reversing a trajectory (not a shower, not halo) puts its points in the opposite order, turns their
directions, exchanges what belongs to the two ends (vertices, flags, dE/dx), and its end points are the mirror images of
the old ones. -/
theorem C128_reverse (pi : Rat) {t : Traj} (h1 : t.shower = false) (h2 : t.halo = false) (h3 : TwoPoints t)
    (he : t.endPt = (setEndPoints t).endPt) :
    (reverseTraj pi t).pts.map TP.hits = (t.pts.map TP.hits).reverse ∧
    (reverseTraj pi t).pts.map TP.pos = (t.pts.map TP.pos).reverse ∧
    (reverseTraj pi t).pts.map TP.dir = ((t.pts.map TP.dir).reverse.map fun d => (-d.1, -d.2)) ∧
    (∀ e, (reverseTraj pi t).vtxAt e = t.vtxAt (!e)) ∧
    (reverseTraj pi t).endFlag = (t.endFlag.2, t.endFlag.1) ∧ (reverseTraj pi t).dEdx = (t.dEdx.2, t.dEdx.1) ∧
    (reverseTraj pi t).endPt = (t.pts.length - 1 - t.endPt.2, t.pts.length - 1 - t.endPt.1) := by
  have hne : t.pts ≠ [] := by
    intro e
    obtain ⟨i, j, p, q, _, h, _⟩ := h3
    rw [e] at h
    cases h
  rw [reverse_eq pi hne h1 h2]
  refine ⟨?_, ?_, ?_, ?_, rfl, rfl, ?_⟩
  · simp [flipTP, Function.comp_def]
  · simp [flipTP, Function.comp_def]
  · simp [flipTP, Function.comp_def]
  · intro e; cases e <;> rfl
  · have hE : t.endPt = (firstChg t.pts, lastChg t.pts) := by
      rw [he]; simp [setEndPoints, h1, h2]
    obtain ⟨i, j, p, q, hij, a1, a2, a3, a4⟩ := h3
    obtain ⟨f1, ⟨pf, f2, f3⟩, f4⟩ := firstChg_spec i p a1 a3
    obtain ⟨l1, ⟨pl, l2, l3⟩, l4⟩ := lastChg_spec i p a1 a3
    have fl := (List.getElem?_eq_some_iff.1 f2).1
    have ll := (List.getElem?_eq_some_iff.1 l2).1
    have hg : ∀ (k : Nat) (r : TP), t.pts[k]? = some r →
        (t.pts.reverse.map (flipTP pi))[t.pts.length - 1 - k]? = some (flipTP pi r) := by
      intro k r hk
      have hl := (List.getElem?_eq_some_iff.1 hk).1
      rw [List.getElem?_map, List.getElem?_reverse (by omega),
        show t.pts.length - 1 - (t.pts.length - 1 - k) = k by omega, hk]
      rfl
    have hback : ∀ (k : Nat) (r : TP), (t.pts.reverse.map (flipTP pi))[k]? = some r → k < t.pts.length ∧
        ∃ r', t.pts[t.pts.length - 1 - k]? = some r' ∧ r.chg = r'.chg := by
      intro k r hk
      have hl : k < t.pts.length := by simpa using (List.getElem?_eq_some_iff.1 hk).1
      rw [List.getElem?_map, List.getElem?_reverse hl, Option.map_eq_some_iff] at hk
      obtain ⟨r', h5, rfl⟩ := hk
      exact ⟨hl, r', h5, rfl⟩
    have b1 := hg _ _ f2
    have b2 := hg _ _ l2
    obtain ⟨g1, ⟨pg, g2, g3⟩, g4⟩ := firstChg_spec _ _ b2 (show (flipTP pi pl).chg ≠ 0 from l3)
    obtain ⟨k1, ⟨pk, k2, k3⟩, k4⟩ := lastChg_spec _ _ b1 (show (flipTP pi pf).chg ≠ 0 from f3)
    obtain ⟨_, rg, rg1, rg2⟩ := hback _ _ g2
    obtain ⟨hkl, rk, rk1, rk2⟩ := hback _ _ k2
    simp only [hE, Prod.mk.injEq]
    constructor
    · by_contra hc
      have : lastChg t.pts < t.pts.length - 1 - firstChg (t.pts.reverse.map (flipTP pi)) := by omega
      have := l4 _ this _ rg1
      rw [← rg2] at this
      exact g3 this
    · by_contra hc
      have : t.pts.length - 1 - lastChg (t.pts.reverse.map (flipTP pi)) < firstChg t.pts := by omega
      have := f4 _ this _ rk1
      rw [← rk2] at this
      exact k3 this

/-- **C128.** Reversing twice gives the trajectory back, provided all angles are above -π and at most π. -/
theorem C128_twice_partial (pi : Rat) {t : Traj} (h1 : t.shower = false) (h2 : t.halo = false)
    (he : t.endPt = (setEndPoints t).endPt) (ha : ∀ p ∈ t.pts, -pi < p.ang ∧ p.ang ≤ pi) :
    reverseTraj pi (reverseTraj pi t) = t := by
  by_cases hne : t.pts = []
  · have : reverseTraj pi t = t := by unfold reverseTraj; rw [if_pos hne]
    rw [this, this]
  · have hE : t.endPt = (firstChg t.pts, lastChg t.pts) := by
      rw [he]; simp [setEndPoints, h1, h2]
    rw [reverse_eq pi hne h1 h2, reverse_eq pi (by simpa using hne) (by simpa using h1) (by simpa using h2)]
    simp only
    have hpts : ((t.pts.reverse.map (flipTP pi)).reverse.map (flipTP pi)) = t.pts := by
      rw [← List.map_reverse, List.reverse_reverse, List.map_map]
      conv_rhs => rw [← List.map_id t.pts]
      apply List.map_congr_left
      intro p hp
      exact flipTP_flipTP (ha p hp).1 (ha p hp).2
    rw [hpts, ← hE]
    obtain ⟨pts, endPt, vtx, endFlag, dEdx, id, workID, parentID, uid, stepDir, startEnd, pdg, ctp, killed, halo, shower,
      photon, hiVx3, michel, delta, split⟩ := t
    simp only [neg_neg, Prod.mk.eta, Traj.mk.injEq, true_and, and_true]
    by_cases hst : startEnd = 0 ∨ startEnd = 1
    · rw [if_pos hst]
      rcases hst with h | h <;> simp [h]
    · rw [if_neg hst, if_neg hst]

example : TwoPoints exT ∧ (setEndPoints exT).endPt = (0, 3) ∧ ∀ p ∈ exT.pts, -(22 / 7 : Rat) < p.ang ∧ p.ang ≤ 22 / 7 :=
  ⟨⟨0, 1, pt 0, pt 1, by decide, rfl, rfl, by decide, by decide⟩, by decide +kernel, by decide +kernel⟩

/-- an angle of -π comes back as π -/
theorem C128_angle_refuted (pi : Rat) (hpi : 0 < pi) :
    (flipTP pi (flipTP pi ⟨[], 0, (0, 0), (0, 0), -pi⟩)).ang = pi := by
  have h : ¬ (0 < -pi) := by linarith
  simp [flipTP, h, hpi.le]

end Verif.TC

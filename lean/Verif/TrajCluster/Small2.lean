import Verif.TrajCluster.Small
import Verif.TrajCluster.MergeThm
/-!
# Further facts on the checks and end points (tightened after seeded bugs)
-/
namespace Verif.TC

theorem equalPrefix_true {l m : List Nat} (h : equalPrefix l m = some true) : l <+: m := by
  induction l generalizing m with
  | nil => exact List.nil_prefix
  | cons a l ih =>
    cases m with
    | nil => simp [equalPrefix] at h
    | cons b m =>
      rw [equalPrefix] at h
      split at h
      · next e =>
        subst e
        exact List.cons_prefix_cons.2 ⟨rfl, ih h⟩
      · simp at h

/-- **C126.** When the check answers yes, every trajectory that is not killed, uses two hits and has two hits marked with
its number owns all the hits it uses, and the vertices at its ends exist. -/
theorem C126_yes_sound {s : Slice} {l : List Traj} (h : inTrajOK s l = some true) :
    ∀ t ∈ l, t.killed = false → 0 ≤ t.id → t.id < 65536 → 2 ≤ (trajHits t .used).length →
      (∃ a b, a < b ∧ b < s.n ∧ s.own a = t.id ∧ s.own b = t.id) →
      (∀ x ∈ trajHits t .used, x < s.n ∧ s.own x = t.id) ∧ t.vtx.1 ≤ s.vtxs.length ∧ t.vtx.2 ≤ s.vtxs.length := by
  induction l with
  | nil => simp
  | cons u l ih =>
    rw [inTrajOK] at h
    have hu : inTrajOKAt s u = some true ∧ inTrajOK s l = some true := by
      split at h
      · next e => exact ⟨e, h⟩
      · next e => exact absurd h e
    intro t ht hk h0 h1 h2 ⟨a, b, hab, hb, oa, ob⟩
    rcases List.mem_cons.1 ht with rfl | ht
    · have := hu.1
      unfold inTrajOKAt at this
      rw [if_neg (by simp [hk])] at this
      have hm : t.id % 65536 = t.id := Int.emod_eq_of_lt h0 h1
      simp only [hm] at this
      rw [if_neg (by omega)] at this
      have hlen : ¬ (ownedHits s t.id).length < 2 := by
        have hsub : [a, b] ⊆ ownedHits s t.id := by
          intro x hx
          simp only [List.mem_cons, List.not_mem_nil, or_false] at hx
          unfold ownedHits
          rcases hx with rfl | rfl <;> simp [*] <;> omega
        have := (List.subperm_of_subset (by simp; omega) hsub).length_le
        simpa using this
      rw [if_neg hlen] at this
      split at this
      · simp at this
      · simp at this
      · next e =>
        have hp := equalPrefix_true e
        refine ⟨?_, by simpa using this⟩
        intro x hx
        have : x ∈ ownedHits s t.id :=
          hp.subset ((List.perm_insertionSort _ _).mem_iff.2 hx)
        simpa [ownedHits] using this
    · exact ih hu.2 t ht hk h0 h1 h2 ⟨a, b, hab, hb, oa, ob⟩

/-- the trajectory with hits 0 and 1 passes, with hit 2 in the place of hit 1 it does not -/
example : inTrajOK { ex0 with own := fun h => if h < 2 then 1 else 0 } [{ pts := [pt 0, pt 1], id := 1 }] = some true ∧
    inTrajOK { ex0 with own := fun h => if h < 2 then 1 else 0 } [{ pts := [pt 0, pt 2], id := 1 }] = some false := by
  constructor <;> decide +kernel

/-- **C121.** Two trajectories of which one does not exist, is killed or is a halo are not merged, and nothing
changes. -/
theorem C121_refuses (pi cut : Rat) (score : Slice → Vtx3 → Rat) (code : Traj → Nat)
    (showers : Slice → Nat → Nat → Res (Bool × Slice)) (s : Slice) (hs : s.tjs ≠ []) (i j : Nat)
    (h : ∀ a b, s.tjs[i]? = some a → s.tjs[j]? = some b →
      a.killed = true ∨ b.killed = true ∨ a.halo = true ∨ b.halo = true) :
    mergeAndStore pi cut score code showers s i j = .ok (false, s) := by
  unfold mergeAndStore
  rw [if_neg hs]
  cases ha : s.tjs[i]? with
  | none => rfl
  | some a =>
    cases hb : s.tjs[j]? with
    | none => rfl
    | some b =>
      have := h a b ha hb
      simp only
      by_cases hk : (a.killed || b.killed) = true
      · rw [if_pos hk]
      · rw [if_neg hk, if_pos]
        simp only [Bool.or_eq_true, not_or, Bool.not_eq_true] at hk ⊢
        simpa [hk.1, hk.2] using this

/-- the first trajectory of the example, killed, is not merged with the second -/
example : exM.tjs ≠ [] ∧ ∀ a b, (exM.tjs.map fun t => { t with killed := true })[0]? = some a →
    exM.tjs[1]? = some b → a.killed = true := by
  refine ⟨by decide, ?_⟩
  intro a b ha _
  rw [List.getElem?_map] at ha
  cases h : exM.tjs[0]? with
  | none => rw [h] at ha; cases ha
  | some x => rw [h] at ha; cases ha; rfl

/-- **C118.** The end points of a trajectory are its first and last points with charge; those of a shower and of a halo
are left as they are. -/
theorem C118_end_points (t : Traj) :
    (t.shower = true ∨ t.halo = true → setEndPoints t = t) ∧
    (t.shower = false → t.halo = false → (∃ p ∈ t.pts, p.chg ≠ 0) →
      setEndPoints t = { t with endPt := (setEndPoints t).endPt } ∧
      (∃ p, t.pts[(setEndPoints t).endPt.1]? = some p ∧ p.chg ≠ 0) ∧
      (∃ p, t.pts[(setEndPoints t).endPt.2]? = some p ∧ p.chg ≠ 0) ∧
      ∀ (i : Nat) (p : TP), t.pts[i]? = some p → p.chg ≠ 0 →
        (setEndPoints t).endPt.1 ≤ i ∧ i ≤ (setEndPoints t).endPt.2) := by
  constructor
  · intro h
    unfold setEndPoints
    rw [if_pos (by simpa using h)]
  · intro h1 h2 ⟨p, hp, hc⟩
    obtain ⟨i, hi, rfl⟩ := List.mem_iff_getElem.1 hp
    have e : setEndPoints t = { t with endPt := (firstChg t.pts, lastChg t.pts) } := by
      unfold setEndPoints
      rw [if_neg (by simp [h1, h2])]
    rw [e]
    refine ⟨rfl, (firstChg_spec i _ (List.getElem?_eq_getElem hi) hc).2.1,
      (lastChg_spec i _ (List.getElem?_eq_getElem hi) hc).2.1, ?_⟩
    intro j p hj hc
    exact ⟨(firstChg_spec j p hj hc).1, (lastChg_spec j p hj hc).1⟩

/-- a trajectory whose middle points have charge -/
example : (setEndPoints { pts := [blank (pt 0), pt 1, pt 2, blank (pt 3)], id := 1 }).endPt = (1, 2) := by decide +kernel

/-- **C128, refuted for halos and showers.** The end points are not exchanged: they name the same places of the reversed
list, so the first end point is no longer at the point it was at, nor at the mirror image of the last one. -/
theorem C128_halo_refuted (pi : Rat) (t : Traj) (h : t.shower = true ∨ t.halo = true) :
    (reverseTraj pi t).endPt = t.endPt := by
  unfold reverseTraj
  split
  · rfl
  · rw [(C118_end_points _).1 (by simpa using h)]

/-- the halo that runs over hits 0 and 1 runs over hits 2 and 3 after reversal -/
example : (let t : Traj := { pts := [pt 0, pt 1, pt 2, pt 3], endPt := (0, 1), halo := true, id := 1 }
    (endHits t, endHits (reverseTraj 3 t))) = ([0, 1], [3, 2]) := by decide +kernel

end Verif.TC

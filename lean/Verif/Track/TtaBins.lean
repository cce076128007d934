import Verif.Track.TtaProps

/-!
The bins of `TrackTrajectoryAlg::TrackTrajectory`: which hits a trajectory point is fitted to (C210), how many
bins there are and where the first point is (additions to C191 and C194).
-/

namespace Verif.Tta

/-- the hits of a list within `[lo, hi]` -/
def inside (lo hi : ℚ) (l : List H) : List H := l.filter fun h => decide (lo ≤ h.x ∧ h.x ≤ hi)

/-- on hits in the order of X the loop over a plane takes exactly the hits in the window -/
theorem win_fst (lo hi : ℚ) (l : List H) (i cur : Nat) (hs : l.Pairwise fun a b => a.x ≤ b.x) :
    (win lo hi i cur l).1 = inside lo hi l := by
  induction l generalizing i cur with
  | nil => rfl
  | cons h l ih =>
    rw [List.pairwise_cons] at hs
    unfold win inside
    by_cases h1 : h.x < lo
    · rw [if_pos h1, ih _ _ hs.2, List.filter_cons_of_neg (by simp; intro hc; exact absurd h1 (not_lt.2 hc))]
      rfl
    · rw [if_neg h1]
      by_cases h2 : hi < h.x
      · rw [if_pos h2]
        symm
        rw [List.filter_eq_nil_iff]
        intro a ha
        have hxa : h.x ≤ a.x := by
          rcases List.mem_cons.1 ha with rfl | ha
          · exact le_refl _
          · exact hs.1 a ha
        simp only [decide_eq_true_eq, not_and, not_le]
        intro _
        exact h2.trans_le hxa
      · rw [if_neg h2, List.filter_cons_of_pos (by simp; exact ⟨not_lt.1 h1, not_lt.1 h2⟩), ih _ _ hs.2]
        rfl

/-- the new start index is the index of the last hit taken -/
theorem win_snd (lo hi : ℚ) (l : List H) (i cur : Nat) :
    ((win lo hi i cur l).1 = [] ∧ (win lo hi i cur l).2 = cur) ∨
      ∃ k, (win lo hi i cur l).2 = i + k ∧ (l[k]? : Option H) = (win lo hi i cur l).1.getLast? ∧
        (win lo hi i cur l).1 ≠ [] := by
  induction l generalizing i cur with
  | nil => left; exact ⟨rfl, rfl⟩
  | cons h l ih =>
    unfold win
    by_cases h1 : h.x < lo
    · rw [if_pos h1]
      rcases ih (i + 1) cur with hh | ⟨k, hk, hl, hn⟩
      · left; exact hh
      · right; exact ⟨k + 1, by rw [hk]; omega, by simpa using hl, hn⟩
    · rw [if_neg h1]
      by_cases h2 : hi < h.x
      · rw [if_pos h2]; left; exact ⟨rfl, rfl⟩
      · rw [if_neg h2]
        right
        rcases ih (i + 1) i with ⟨hh, hc⟩ | ⟨k, hk, hl, hn⟩
        · refine ⟨0, by simpa using hc, ?_, by simp⟩
          rw [hh]; simp
        · refine ⟨k + 1, by dsimp only; rw [hk]; omega, ?_, by simp⟩
          dsimp only
          rw [List.getElem?_cons_succ, hl]
          rw [List.getLast?_cons]
          cases hg : (win lo hi (i + 1) i l).1.getLast? with
          | none => exact absurd (List.getLast?_eq_none_iff.1 hg) hn
          | some a => rfl

/-- C210 (partial: the first bin only, hits in the order of X): the first trajectory point is fitted to all
hits within one bin width of the lowest X, and to no others. -/
theorem C210_first_bin_partial (t : Trk) (xo w : ℚ) (hs : ∀ p, (t p).Pairwise fun a b => a.x ≤ b.x) :
    (bin t xo w (fun _ => 0)).1 =
      (t 0 ++ t 1 ++ t 2).filter fun h => decide (xo - w ≤ h.x ∧ h.x ≤ xo + w) := by
  unfold bin
  dsimp only
  rw [win_fst _ _ _ _ _ (by simpa using hs 0), win_fst _ _ _ _ _ (by simpa using hs 1),
    win_fst _ _ _ _ _ (by simpa using hs 2)]
  simp only [List.drop_zero, List.filter_append]
  rfl

/-- C210 (partial: from the start index on): every later point is fitted to the hits in its window that do
not come before the last hit of the window before. -/
theorem C210_later_bins_partial (t : Trk) (xo w : ℚ) (st : Nat → Nat) (hs : ∀ p, (t p).Pairwise fun a b => a.x ≤ b.x) :
    (bin t xo w st).1 = inside (xo - w) (xo + w) ((t 0).drop (st 0)) ++
      inside (xo - w) (xo + w) ((t 1).drop (st 1)) ++ inside (xo - w) (xo + w) ((t 2).drop (st 2)) ∧
    ∀ p, let used := inside (xo - w) (xo + w) ((t p).drop (st p))
      (used = [] → (bin t xo w st).2 p = st p) ∧
      (used ≠ [] → ((t p)[((bin t xo w st).2 p : Nat)]? : Option H) = used.getLast?) := by
  have hw : ∀ p, (win (xo - w) (xo + w) (st p) (st p) ((t p).drop (st p))).1 =
      inside (xo - w) (xo + w) ((t p).drop (st p)) := fun p => win_fst _ _ _ _ _ ((hs p).drop)
  refine ⟨?_, ?_⟩
  · unfold bin
    dsimp only
    rw [hw, hw, hw]
  · intro p
    dsimp only
    rw [← hw p]
    show (_ → (win (xo - w) (xo + w) (st p) (st p) ((t p).drop (st p))).2 = st p) ∧ (_ →
      ((t p)[(win (xo - w) (xo + w) (st p) (st p) ((t p).drop (st p))).2]? : Option H) = _)
    rcases win_snd (xo - w) (xo + w) ((t p).drop (st p)) (st p) (st p) with ⟨h1, h2⟩ | ⟨k, hk, hl, hn⟩
    · exact ⟨fun _ => h2, fun h => absurd h1 h⟩
    · refine ⟨fun h => absurd h hn, fun _ => ?_⟩
      rw [hk, ← hl, List.getElem?_drop]

/-- C210: every point should be fitted to the hits within one bin width of it. The start index moves to the last
hit of a bin, although the bins overlap by half: of the five hits within 2 of the second origin, the second
fit uses only three. -/
theorem C210_overlap_refuted :
    ∃ (t : Trk), (∀ p, (t p).Pairwise fun a b => a.x ≤ b.x) ∧
      (inside (2 - 2) (2 + 2) (t 0)).map H.x = [0, 1, 2, 3, 4] ∧
      ((bin t 2 2 (bin t 0 2 (fun _ => 0)).2).1.map H.x) = [2, 3, 4] := by
  refine ⟨fun p => if p = 0 then (List.range 9).map fun (i : Nat) => (⟨0, 0, (i : ℚ), 1⟩ : H) else [], ?_, ?_, ?_⟩
  · intro p
    dsimp only
    split
    · decide +kernel
    · exact List.Pairwise.nil
  · decide +kernel
  · decide +kernel

/-! ### Additions to C191 and C194 -/

/-- C191: the number of bins is the range of X over the mean error of X, but at least 2, at most the number
of hits of the longest plane and at most 100. -/
theorem C191_bins (t : Trk) :
    npt t = min 100 (min (max (t 0).length (max (t 1).length (t 2).length))
      (max 2 ⌊((maxX t).1 - (minX t).1) / ((((t 0 ++ t 1 ++ t 2).map H.err).sum) /
        ((t 0 ++ t 1 ++ t 2).length : ℚ))⌋₊)) := by
  have hl : (longest t).1 = max (t 0).length (max (t 1).length (t 2).length) := by
    unfold longest
    simp only [List.foldl_cons, List.foldl_nil]
    split_ifs <;> simp_all <;> omega
  unfold npt aveErr
  dsimp only
  rw [hl]
  generalize ⌊((maxX t).1 - (minX t).1) / ((((t 0 ++ t 1 ++ t 2).map H.err).sum) /
        ((t 0 ++ t 1 ++ t 2).length : ℚ))⌋₊ = n
  generalize max (t 0).length (max (t 1).length (t 2).length) = m
  split_ifs <;> omega

example : npt exTrk = 5 := by decide +kernel

/-- C193: the order is taken from the first of the planes with most hits. -/
theorem C193_first_of_longest (t : Trk) (p : Nat) (hp : p < 3) (h0 : t p ≠ [])
    (h1 : ∀ q < 3, (t q).length ≤ (t p).length) (h2 : ∀ q < p, (t q).length < (t p).length) :
    posX t = decide (firstX (t p) ≤ lastX (t p)) := by
  have hl : (longest t).2 = p := by
    have a0 := h1 0 (by omega)
    have a1 := h1 1 (by omega)
    have a2 := h1 2 (by omega)
    have hpos : 0 < (t p).length := List.length_pos_iff.2 h0
    unfold longest
    simp only [List.foldl_cons, List.foldl_nil]
    have : p = 0 ∨ p = 1 ∨ p = 2 := by omega
    clear h0 h1
    rcases this with rfl | rfl | rfl
    · clear h2
      generalize (t 0).length = x at *
      generalize (t 1).length = y at *
      generalize (t 2).length = z at *
      rw [if_pos hpos]; dsimp only
      have hxy : ¬ x < y := by omega
      rw [if_neg hxy]; dsimp only; rw [if_neg (by omega)]
    · have b0 := h2 0 (by omega)
      clear h2
      generalize (t 0).length = x at *
      generalize (t 1).length = y at *
      generalize (t 2).length = z at *
      by_cases hx : 0 < x
      · rw [if_pos hx]; dsimp only; rw [if_pos b0]; dsimp only; rw [if_neg (by omega)]
      · rw [if_neg hx]; dsimp only; rw [if_pos hpos]; dsimp only; rw [if_neg (by omega)]
    · have b0 := h2 0 (by omega)
      have b1 := h2 1 (by omega)
      clear h2
      generalize (t 0).length = x at *
      generalize (t 1).length = y at *
      generalize (t 2).length = z at *
      rw [if_pos (by split_ifs <;> dsimp only <;> omega)]
  unfold posX
  rw [hl]
  simp only [gt_iff_lt, not_lt]

example : ∃ t : Trk, (t 0).length = (t 1).length ∧ t 0 ≠ [] ∧ posX t = true ∧ firstX (t 1) > lastX (t 1) :=
  ⟨fun p => if p = 0 then [⟨0, 0, 0, 1⟩, ⟨0, 0, 1, 1⟩] else if p = 1 then [⟨1, 0, 1, 1⟩, ⟨1, 0, 0, 1⟩] else [],
    by decide +kernel, by decide +kernel, by decide +kernel, by decide +kernel⟩

/-- points already made are kept -/
theorem loop_prefix (E : Env) (t : Trk) (st : V × V × V) (mx w : ℚ) (N n : Nat) :
    ∀ (ipt : Nat) (hs : Nat → Nat) (xo : ℚ) (r : Reg) (out : List (V × V)),
      out <+: (loop E t st mx w N n ipt hs xo r out).1 := by
  induction n with
  | zero => intro ipt hs xo r out; exact List.prefix_rfl
  | succ n ih =>
    intro ipt hs xo r out
    unfold loop
    dsimp only
    split
    · exact List.prefix_rfl
    · split
      · exact ih _ _ _ _ _
      · split
        · exact (List.prefix_append _ _).trans (ih _ _ _ _ _)
        · exact (List.prefix_append _ _).trans (ih _ _ _ _ _)

/-- C194: with fewer than four hits in the first bin (and a harmless value in the variable that is not
initialised) the trajectory starts at the low-X end of the hits, as the short trajectory does. -/
theorem C194_first_point (E : Env) (chi0 : ℚ) (t : Trk) (st : V × V × V) (hs : short E t = some st)
    (hp : posX t = true) (h2 : 2 ≤ (planes t).length) (hc : 0 ≤ chi0 ∧ chi0 ≤ 100)
    (h4 : (firstBin t).length < 4) : (track E chi0 t).head? = some (st.1, st.2.2) := by
  have ho : oriented t = t := by unfold oriented; rw [hp]; rfl
  unfold track
  rw [if_neg (by omega)]
  dsimp only
  rw [ho, hs, hp]
  dsimp only
  simp only [if_true]
  unfold points
  dsimp only
  split
  · rfl
  · have hpre : ∀ out0 : List (V × V) × Bool, (out0.1 = [] ∧ out0.2 = false) ∨ [(st.1, st.2.2)] <+: out0.1 →
        (if (if out0.2 = true then out0.1 else out0.1 ++ [(st.2.1, st.2.2)]).length < 2 then
          ([(st.1, st.2.2), (st.2.1, st.2.2)] : List (V × V))
          else if out0.2 = true then out0.1 else out0.1 ++ [(st.2.1, st.2.2)]).head? = some (st.1, st.2.2) := by
      intro o ho
      rcases ho with ⟨h1, h2⟩ | ⟨u, hu⟩
      · rw [h1, h2]; rfl
      · rw [← hu]
        by_cases hb : o.2 = true
        · simp only [hb, if_true]
          by_cases hl : ([(st.1, st.2.2)] ++ u).length < 2
          · rw [if_pos hl]; rfl
          · rw [if_neg hl]; rfl
        · rw [if_neg hb]
          by_cases hl : ([(st.1, st.2.2)] ++ u ++ [(st.2.1, st.2.2)]).length < 2
          · rw [if_pos hl]; rfl
          · rw [if_neg hl]; rfl
    apply hpre
    unfold firstBin at h4
    dsimp only at h4
    unfold loop
    dsimp only
    split
    · left; exact ⟨rfl, rfl⟩
    · right
      have hfit : fitBin E st 0 (bin t (minX t).1 (((maxX t).1 - (minX t).1) / ((npt t : ℚ) - 1)) fun _ => 0).1
          (minX t).1 ⟨0, 0, chi0⟩ = ⟨st.1, st.2.2, chi0⟩ := by
        unfold fitBin
        rw [if_neg (by omega), if_pos rfl]
      rw [hfit]
      dsimp only
      rw [if_neg (by rintro (h | h) <;> linarith [hc.1, hc.2])]
      split
      · exact loop_prefix _ _ _ _ _ _ _ _ _ _ _ _
      · exact loop_prefix _ _ _ _ _ _ _ _ _ _ _ _

/-- two planes, five hits each, X from 0 to 40, small errors: three hits of ten in the first bin -/
def exTrk3 : Trk := fun p =>
  if p = 0 then [⟨0, 0, 0, 1⟩, ⟨0, 0, 10, 1⟩, ⟨0, 0, 20, 1⟩, ⟨0, 0, 30, 1⟩, ⟨0, 0, 40, 1⟩]
  else if p = 1 then [⟨1, 0, 1, 1⟩, ⟨1, 0, 12, 1⟩, ⟨1, 0, 22, 1⟩, ⟨1, 0, 32, 1⟩, ⟨1, 0, 40, 1⟩]
  else []

example : (firstBin exTrk3).length < 4 ∧ posX exTrk3 = true ∧ 2 ≤ (planes exTrk3).length ∧
    (short exEnv exTrk3).isSome := by decide +kernel

end Verif.Tta

import Verif.Track.TtaModel
import Mathlib.Tactic.Linarith
import Mathlib.Tactic.LinearCombination
import Mathlib.Tactic.Ring
import Mathlib.Tactic.FieldSimp
import Mathlib.Tactic.Positivity

/-! Properties C191-C195: `TrackTrajectoryAlg` and `TrackLineFitAlg`. -/

namespace Verif.Tta

/-! ### The number of points -/

theorem loop_length (E : Env) (t : Trk) (st : V × V × V) (mn mx w : ℚ) (N : Nat)
    (hw : 0 ≤ w) (hend : mn + ((N : ℚ) - 1) * w = mx) (hN : 1 ≤ N) :
    ∀ (n ipt : Nat) hs xo r out, (mn + (ipt : ℚ) * w ≤ xo ∨ mx ≤ xo) → out.length ≤ ipt → ipt ≤ N - 1 →
      (loop E t st mx w N n ipt hs xo r out).2 = false ∧
      (loop E t st mx w N n ipt hs xo r out).1.length ≤ N - 1 := by
  intro n
  induction n with
  | zero =>
    intro ipt hs xo r out _ hl hi
    refine ⟨rfl, ?_⟩
    show out.length ≤ _
    omega
  | succ n ih =>
    intro ipt hs xo r out hx hl hi
    unfold loop
    dsimp only
    by_cases h : mx ≤ xo
    · simp only [h, if_true]
      exact ⟨trivial, by omega⟩
    · simp only [h, if_false]
      have hx' : mn + (ipt : ℚ) * w ≤ xo := by tauto
      have hlt : ipt < N - 1 := by
        rcases Nat.lt_or_ge ipt (N - 1) with h' | h'
        · exact h'
        · exfalso
          have : ipt = N - 1 := by omega
          apply h
          rw [← hend]
          have hc : (ipt : ℚ) = (N : ℚ) - 1 := by
            rw [this]; push_cast [Nat.cast_sub hN]; ring
          rw [hc] at hx'
          exact hx'
      have hnext : (mn + ((ipt + 1 : Nat) : ℚ) * w ≤ (if mx - xo < w then mx else xo + w) ∨
          mx ≤ (if mx - xo < w then mx else xo + w)) := by
        split
        · right; exact le_refl _
        · left
          push_cast
          linarith
      have hne : ipt ≠ N := by omega
      generalize fitBin E st ipt (bin t xo w hs).1 xo r = r'
      by_cases hc : r'.chi < 0 ∨ 100 < r'.chi
      · rw [if_pos hc]
        exact ih _ _ _ _ _ hnext (by omega) (by omega)
      · rw [if_neg hc, if_neg hne]
        exact ih _ _ _ _ _ hnext (by simp; omega) (by omega)

theorem planes_perm_len (t : Trk) : (planes (oriented t)) = planes t := by
  unfold planes oriented
  split
  · rfl
  · congr 1
    funext p
    simp

theorem longest_oriented (t : Trk) : longest (oriented t) = longest t := by
  unfold longest oriented
  split
  · rfl
  · simp

theorem minX_le (t : Trk) : (minX t).1 ≤ 1000000 ∧ ∀ p ∈ planes t, (minX t).1 ≤ firstX (t p) := by
  unfold minX
  suffices h : ∀ (l : List Nat) (s : ℚ × Nat),
      (l.foldl (fun (s : ℚ × Nat) p => if firstX (t p) < s.1 then (firstX (t p), p) else s) s).1 ≤ s.1 ∧
      ∀ p ∈ l, (l.foldl (fun (s : ℚ × Nat) p => if firstX (t p) < s.1 then (firstX (t p), p) else s) s).1 ≤
        firstX (t p) from h _ _
  intro l
  induction l with
  | nil => intro s; exact ⟨le_refl _, by simp⟩
  | cons a l ih =>
    intro s
    simp only [List.foldl_cons]
    by_cases hc : firstX (t a) < s.1
    · rw [if_pos hc]
      have := ih (firstX (t a), a)
      refine ⟨this.1.trans hc.le, ?_⟩
      intro p hp
      rcases List.mem_cons.1 hp with rfl | hp
      · exact this.1
      · exact this.2 p hp
    · rw [if_neg hc]
      have := ih s
      refine ⟨this.1, ?_⟩
      intro p hp
      rcases List.mem_cons.1 hp with rfl | hp
      · exact this.1.trans (not_lt.1 hc)
      · exact this.2 p hp

theorem le_maxX (t : Trk) : -1000000 ≤ (maxX t).1 ∧ ∀ p ∈ planes t, lastX (t p) ≤ (maxX t).1 := by
  unfold maxX
  suffices h : ∀ (l : List Nat) (s : ℚ × Nat),
      s.1 ≤ (l.foldl (fun (s : ℚ × Nat) p => if s.1 < lastX (t p) then (lastX (t p), p) else s) s).1 ∧
      ∀ p ∈ l, lastX (t p) ≤
        (l.foldl (fun (s : ℚ × Nat) p => if s.1 < lastX (t p) then (lastX (t p), p) else s) s).1 from h _ _
  intro l
  induction l with
  | nil => intro s; exact ⟨le_refl _, by simp⟩
  | cons a l ih =>
    intro s
    simp only [List.foldl_cons]
    by_cases hc : s.1 < lastX (t a)
    · rw [if_pos hc]
      have := ih (lastX (t a), a)
      refine ⟨hc.le.trans this.1, ?_⟩
      intro p hp
      rcases List.mem_cons.1 hp with rfl | hp
      · exact this.1
      · exact this.2 p hp
    · rw [if_neg hc]
      have := ih s
      refine ⟨this.1, ?_⟩
      intro p hp
      rcases List.mem_cons.1 hp with rfl | hp
      · exact (not_lt.1 hc).trans this.1
      · exact this.2 p hp

theorem longest_spec (t : Trk) :
    ((longest t).1 = 0 ∧ planes t = []) ∨
      ((longest t).2 ∈ planes t ∧ (t (longest t).2).length = (longest t).1 ∧ (longest t).1 ≠ 0) := by
  unfold longest planes
  simp only [List.foldl_cons, List.foldl_nil]
  rcases h0 : t 0 with _ | ⟨a, l0⟩ <;> rcases h1 : t 1 with _ | ⟨b, l1⟩ <;> rcases h2 : t 2 with _ | ⟨c, l2⟩ <;>
    simp [h0, h1, h2] <;> (try split) <;> (try split) <;> simp_all

theorem oriented_first_le (t : Trk) :
    firstX (oriented t (longest t).2) ≤ lastX (oriented t (longest t).2) := by
  unfold oriented
  by_cases h : posX t
  · rw [if_pos h]
    unfold posX at h
    have := of_decide_eq_true h
    exact not_lt.1 this
  · rw [if_neg h]
    unfold posX at h
    have h' : firstX (t (longest t).2) > lastX (t (longest t).2) := by
      by_contra hc
      exact h (decide_eq_true hc)
    unfold firstX lastX at *
    simp only [List.head?_reverse, List.getLast?_reverse]
    exact h'.le

theorem min_le_max (t : Trk) (h : planes t ≠ []) : (minX (oriented t)).1 ≤ (maxX (oriented t)).1 := by
  rcases longest_spec t with h' | h'
  · exact absurd h'.2 h
  · have hp : (longest t).2 ∈ planes (oriented t) := by rw [planes_perm_len]; exact h'.1
    exact ((minX_le _).2 _ hp).trans ((oriented_first_le t).trans ((le_maxX _).2 _ hp))

theorem npt_le (t : Trk) : npt t ≤ 100 ∧ npt t ≤ (longest t).1 := by
  unfold npt
  dsimp only
  split_ifs <;> omega

/-- the loop of one call ends without `gotLastPoint` and with at most `npt - 1` points -/
theorem points_shape (E : Env) (chi0 : ℚ) (t : Trk) (st : V × V × V) (hmm : (minX t).1 ≤ (maxX t).1) :
    2 ≤ (points E chi0 t st).length ∧ (points E chi0 t st).length ≤ max 2 (min 100 (longest t).1) ∧
      (points E chi0 t st).getLast? = some (st.2.1, st.2.2) := by
  unfold points
  dsimp only
  by_cases h : (longest t).1 < 4 ∨ npt t < 2
  · rw [if_pos h]
    simp
  · rw [if_neg h]
    push Not at h
    have hN : (2 : ℚ) ≤ (npt t : ℚ) := by exact_mod_cast h.2
    have hw : 0 ≤ ((maxX t).1 - (minX t).1) / ((npt t : ℚ) - 1) := by
      apply div_nonneg <;> linarith
    have hend : (minX t).1 + ((npt t : ℚ) - 1) * (((maxX t).1 - (minX t).1) / ((npt t : ℚ) - 1)) = (maxX t).1 := by
      have : ((npt t : ℚ) - 1) ≠ 0 := by linarith
      field_simp
      ring
    have key := loop_length E t st (minX t).1 (maxX t).1 _ (npt t) hw hend (by omega) (npt t + 1) 0
      (fun _ => 0) (minX t).1 ⟨0, 0, chi0⟩ [] (by left; simp) (by simp) (by omega)
    generalize loop E t st (maxX t).1 (((maxX t).1 - (minX t).1) / ((npt t : ℚ) - 1)) (npt t) (npt t + 1) 0
      (fun _ => 0) (minX t).1 ⟨0, 0, chi0⟩ [] = r at key ⊢
    rw [key.1]
    simp only [Bool.false_eq_true, if_false]
    have hb := npt_le t
    split
    · simp
    · rename_i hl
      refine ⟨by omega, ?_, by simp⟩
      simp only [List.length_append, List.length_cons, List.length_nil] at hl ⊢
      have := key.2
      omega

/-- C191: the trajectory is empty or has at least two points, no more than 100 and (beyond two) no more
than the hits of the plane with most hits; so the declared limit of 100 points is respected. -/
theorem C191_number_of_points (E : Env) (chi0 : ℚ) (t : Trk) (n : Nat)
    (hn : ∀ p, (t p).length ≤ n) :
    track E chi0 t = [] ∨
      (2 ≤ (track E chi0 t).length ∧ (track E chi0 t).length ≤ max 2 (min 100 n)) := by
  unfold track
  split
  · exact Or.inl rfl
  · rename_i hp
    dsimp only
    have hne : planes t ≠ [] := by
      intro h; rw [h] at hp; simp at hp
    have hl : (longest (oriented t)).1 ≤ n := by
      rw [longest_oriented]
      rcases longest_spec t with h' | h'
      · rw [h'.1]; omega
      · rw [← h'.2.1]; exact hn _
    cases hs : short E (oriented t) with
    | none => exact Or.inl rfl
    | some st =>
      right
      dsimp only
      have := points_shape E chi0 (oriented t) st (min_le_max t hne)
      split <;> (try rw [List.length_reverse]) <;> omega

/-- a wire geometry for the examples: y of plane 0 wire, z of the other; the fit returns zeros -/
def exEnv : Env :=
  { cross := fun a b => if a.1 = b.1 then none else some ((a.2 : ℚ), (b.2 : ℚ))
    bad := 99999
    unit := fun v => if 0 < v.1 then (1, 0, 0) else (-1, 0, 0)
    inv := fun _ _ => 1
    cw := fun p => if p = 0 then 1 else 0
    sw := fun p => if p = 0 then 0 else 1
    off := fun _ => 0
    solve := fun _ _ => (0, 0, 0, 0)
    pitch := 1 }

/-- two planes, five hits each, X from 0 to 8 -/
def exTrk : Trk := fun p =>
  if p = 0 then [⟨0, 0, 0, 1⟩, ⟨0, 0, 2, 1⟩, ⟨0, 0, 4, 1⟩, ⟨0, 0, 6, 1⟩, ⟨0, 0, 8, 1⟩]
  else if p = 1 then [⟨1, 0, 0, 1⟩, ⟨1, 0, 2, 1⟩, ⟨1, 0, 4, 1⟩, ⟨1, 0, 6, 1⟩, ⟨1, 0, 8, 1⟩]
  else []

example : (track exEnv 0 exTrk).length = 5 := by decide +kernel

/-! ### Failure -/

theorem minX_mem (t : Trk) (h : planes t ≠ []) (hx : ∀ p ∈ planes t, firstX (t p) < 1000000) :
    (minX t).2 ∈ planes t ∧ firstX (t (minX t).2) = (minX t).1 := by
  unfold minX
  suffices h' : ∀ (l : List Nat) (s : ℚ × Nat), (∀ p ∈ l, p ∈ planes t) →
      ((s.2 ∈ planes t ∧ firstX (t s.2) = s.1) ∨ (l ≠ [] ∧ ∀ p ∈ l, firstX (t p) < s.1)) →
      (l.foldl (fun (s : ℚ × Nat) p => if firstX (t p) < s.1 then (firstX (t p), p) else s) s).2 ∈ planes t ∧
      firstX (t (l.foldl (fun (s : ℚ × Nat) p => if firstX (t p) < s.1 then (firstX (t p), p) else s) s).2) =
        (l.foldl (fun (s : ℚ × Nat) p => if firstX (t p) < s.1 then (firstX (t p), p) else s) s).1 from
    h' _ _ (fun _ hp => hp) (Or.inr ⟨h, hx⟩)
  intro l
  induction l with
  | nil =>
    intro s _ hs
    rcases hs with hs | hs
    · exact hs
    · exact absurd rfl hs.1
  | cons a l ih =>
    intro s hl hs
    simp only [List.foldl_cons]
    by_cases hc : firstX (t a) < s.1
    · rw [if_pos hc]
      exact ih _ (fun p hp => hl p (by simp [hp])) (Or.inl ⟨hl a (by simp), rfl⟩)
    · rw [if_neg hc]
      refine ih _ (fun p hp => hl p (by simp [hp])) (Or.inl ?_)
      rcases hs with hs | hs
      · exact hs
      · exact absurd (hs.2 a (by simp)) hc

theorem maxX_mem (t : Trk) (h : planes t ≠ []) (hx : ∀ p ∈ planes t, -1000000 < lastX (t p)) :
    (maxX t).2 ∈ planes t ∧ lastX (t (maxX t).2) = (maxX t).1 := by
  unfold maxX
  suffices h' : ∀ (l : List Nat) (s : ℚ × Nat), (∀ p ∈ l, p ∈ planes t) →
      ((s.2 ∈ planes t ∧ lastX (t s.2) = s.1) ∨ (l ≠ [] ∧ ∀ p ∈ l, s.1 < lastX (t p))) →
      (l.foldl (fun (s : ℚ × Nat) p => if s.1 < lastX (t p) then (lastX (t p), p) else s) s).2 ∈ planes t ∧
      lastX (t (l.foldl (fun (s : ℚ × Nat) p => if s.1 < lastX (t p) then (lastX (t p), p) else s) s).2) =
        (l.foldl (fun (s : ℚ × Nat) p => if s.1 < lastX (t p) then (lastX (t p), p) else s) s).1 from
    h' _ _ (fun _ hp => hp) (Or.inr ⟨h, hx⟩)
  intro l
  induction l with
  | nil =>
    intro s _ hs
    rcases hs with hs | hs
    · exact hs
    · exact absurd rfl hs.1
  | cons a l ih =>
    intro s hl hs
    simp only [List.foldl_cons]
    by_cases hc : s.1 < lastX (t a)
    · rw [if_pos hc]
      exact ih _ (fun p hp => hl p (by simp [hp])) (Or.inl ⟨hl a (by simp), rfl⟩)
    · rw [if_neg hc]
      refine ih _ (fun p hp => hl p (by simp [hp])) (Or.inl ?_)
      rcases hs with hs | hs
      · exact hs
      · exact absurd (hs.2 a (by simp)) hc

theorem gather_two (sel : Nat → List Nat) (n i : Nat) (acc : List Nat) (h : ∀ i, sel i ≠ [])
    (hn : 2 ≤ n + acc.length) (hn' : 1 ≤ n) : 2 ≤ (gather sel n i acc).length := by
  induction n generalizing i acc with
  | zero => omega
  | succ n ih =>
    unfold gather
    dsimp only
    have := List.length_pos_iff.2 (h i)
    split
    · assumption
    · rename_i hc
      simp only [List.length_append] at hc
      apply ih
      · simp only [List.length_append]; omega
      · omega

theorem gather_sub (sel : Nat → List Nat) (P : Nat → Prop) (hP : ∀ i, ∀ p ∈ sel i, P p) (n i : Nat)
    (acc : List Nat) (ha : ∀ p ∈ acc, P p) : ∀ p ∈ gather sel n i acc, P p := by
  induction n generalizing i acc with
  | zero => exact ha
  | succ n ih =>
    unfold gather
    dsimp only
    have h2 : ∀ p ∈ acc ++ sel i, P p := by
      intro p hp
      rcases List.mem_append.1 hp with hp | hp
      · exact ha p hp
      · exact hP i p hp
    split
    · exact h2
    · exact ih _ _ h2

theorem endOf_some (E : Env) (pick : Nat → Option H) (use : List Nat) (h2 : 2 ≤ use.length)
    (hp : ∀ p ∈ use, (pick p).isSome) : (endOf E pick use).isSome := by
  unfold endOf
  match use, h2, hp with
  | p :: q :: l, _, hp =>
    obtain ⟨a, ha⟩ := Option.isSome_iff_exists.1 (hp p (by simp))
    obtain ⟨b, hb⟩ := Option.isSome_iff_exists.1 (hp q (by simp))
    simp [ha, hb]

theorem mem_planes_ne {t : Trk} {p : Nat} (h : p ∈ planes t) : t p ≠ [] := by
  unfold planes at h
  simpa using (List.mem_filter.1 h).2

theorem mem_planes_lt {t : Trk} {p : Nat} (h : p ∈ planes t) : p < 3 := by
  unfold planes at h
  have := (List.mem_filter.1 h).1
  simp at this
  omega

theorem firstErr_pos {l : List H} (h : l ≠ []) (hp : ∀ a ∈ l, 0 < a.err) : 0 < firstErr l := by
  cases l with
  | nil => exact absurd rfl h
  | cons a l => exact hp a (by simp)

theorem oriented_mem (t : Trk) (p : Nat) (a : H) : a ∈ oriented t p ↔ a ∈ t p := by
  unfold oriented
  split
  · rfl
  · exact List.mem_reverse

theorem firstX_mem {l : List H} (h : l ≠ []) : ∃ a ∈ l, a.x = firstX l := by
  cases l with
  | nil => exact absurd rfl h
  | cons a l => exact ⟨a, by simp, rfl⟩

theorem lastX_mem {l : List H} (h : l ≠ []) : ∃ a ∈ l, a.x = lastX l := by
  obtain ⟨a, ha⟩ := Option.isSome_iff_exists.1 (List.getLast?_isSome.2 h)
  exact ⟨a, List.mem_of_getLast? ha, by unfold lastX; simp [ha]⟩

theorem short_some (E : Env) (t : Trk) (hpl : planes t ≠ [])
    (herr : ∀ p, ∀ a ∈ t p, 0 < a.err) (hx : ∀ p, ∀ a ∈ t p, -1000000 < a.x ∧ a.x < 1000000) :
    (short E t).isSome := by
  have hf : ∀ p ∈ planes t, firstX (t p) < 1000000 := by
    intro p hp
    obtain ⟨a, ha, e⟩ := firstX_mem (mem_planes_ne hp)
    rw [← e]; exact (hx p a ha).2
  have hl : ∀ p ∈ planes t, -1000000 < lastX (t p) := by
    intro p hp
    obtain ⟨a, ha, e⟩ := lastX_mem (mem_planes_ne hp)
    rw [← e]; exact (hx p a ha).1
  have m1 := minX_mem t hpl hf
  have m2 := maxX_mem t hpl hl
  have e1 : (endOf E (fun p => (t p).head?) (useMin t)).isSome := by
    apply endOf_some
    · apply gather_two _ _ _ _ _ (by simp) (by omega)
      intro _ h
      have : (minX t).2 ∈ (planes t).filter fun p =>
          decide (firstX (t p) < (minX t).1 + 5 * firstErr (t (minX t).2)) := by
        apply List.mem_filter.2
        refine ⟨m1.1, ?_⟩
        have := firstErr_pos (mem_planes_ne m1.1) (herr _)
        simp only [m1.2, decide_eq_true_eq]
        linarith
      rw [h] at this
      simp at this
    · intro p hp
      have : p ∈ planes t := gather_sub _ (fun p => p ∈ planes t)
        (fun i p hp => (List.mem_filter.1 hp).1) _ _ _ (by simp) p hp
      cases h : t p with
      | nil => exact absurd h (mem_planes_ne this)
      | cons a l => simp [h]
  have e2 : (endOf E (fun p => (t p).getLast?) (useMax t)).isSome := by
    apply endOf_some
    · apply gather_two _ _ _ _ _ (by simp) (by omega)
      intro i h
      have : (maxX t).2 ∈ (planes t).filter fun p =>
          decide (lastX (t p) > (maxX t).1 - (5 + 5 * (i : ℚ)) * firstErr (t (maxX t).2)) := by
        apply List.mem_filter.2
        refine ⟨m2.1, ?_⟩
        have h1 := firstErr_pos (mem_planes_ne m2.1) (herr _)
        have h2 : (0 : ℚ) ≤ i := Nat.cast_nonneg i
        simp only [m2.2, decide_eq_true_eq]
        have : 0 < (5 + 5 * (i : ℚ)) * firstErr (t (maxX t).2) := by positivity
        linarith
      rw [h] at this
      simp at this
    · intro p hp
      have : p ∈ planes t := gather_sub _ (fun p => p ∈ planes t)
        (fun i p hp => (List.mem_filter.1 hp).1) _ _ _ (by simp) p hp
      exact List.getLast?_isSome.2 (mem_planes_ne this)
  unfold short
  obtain ⟨a, ha⟩ := Option.isSome_iff_exists.1 e1
  obtain ⟨b, hb⟩ := Option.isSome_iff_exists.1 e2
  simp [ha, hb]

/-- C192: with hits in at least two planes, positive errors and X within the range of the search (10 km), a
trajectory is always made: the documented failure, an end that is seen by one plane only, never
happens. -/
theorem C192_always_succeeds (E : Env) (chi0 : ℚ) (t : Trk) (p q : Nat) (hp : p < 3) (hq : q < 3)
    (hpq : p ≠ q) (hp' : t p ≠ []) (hq' : t q ≠ [])
    (herr : ∀ p, ∀ a ∈ t p, 0 < a.err) (hx : ∀ p, ∀ a ∈ t p, -1000000 < a.x ∧ a.x < 1000000) :
    2 ≤ (track E chi0 t).length := by
  have mp : ∀ {p}, p < 3 → t p ≠ [] → p ∈ planes t := by
    intro p h h'
    unfold planes
    apply List.mem_filter.2
    refine ⟨?_, by simpa using h'⟩
    simp; omega
  have h2 : ¬ (planes t).length < 2 := by
    have hp1 := mp hp hp'
    have hq1 := mp hq hq'
    intro hlt
    rcases hpl : planes t with _ | ⟨a, l⟩
    · rw [hpl] at hp1; simp at hp1
    · rw [hpl] at hp1 hq1 hlt
      cases l with
      | nil => simp at hp1 hq1; omega
      | cons b l => simp only [List.length_cons] at hlt; omega
  have hne : planes t ≠ [] := by intro h; rw [h] at h2; simp at h2
  unfold track
  rw [if_neg h2]
  dsimp only
  have hs := short_some E (oriented t) (by rw [planes_perm_len]; exact hne)
    (fun p a ha => herr p a ((oriented_mem t p a).1 ha)) (fun p a ha => hx p a ((oriented_mem t p a).1 ha))
  obtain ⟨st, hst⟩ := Option.isSome_iff_exists.1 hs
  rw [hst]
  dsimp only
  have := points_shape E chi0 (oriented t) st (min_le_max t hne)
  split <;> (try rw [List.length_reverse]) <;> omega

example : ∀ p, ∀ a ∈ exTrk p, 0 < a.err := by
  intro p a
  unfold exTrk
  split_ifs <;> simp <;> rintro (rfl | rfl | rfl | rfl | rfl) <;> norm_num

/-- plane 0 reaches from 0 to 8, plane 1 only from 100: the low end is seen by plane 0 alone -/
def oneSided : Trk := fun p =>
  if p = 0 then [⟨0, 7, 0, 1⟩, ⟨0, 8, 100, 1⟩]
  else if p = 1 then [⟨1, 3, 60, 1⟩, ⟨1, 4, 100, 1⟩]
  else []

/-- C192: an end seen by one plane only should make the search fail (comment of the function); instead
the plane is counted twice, its wire is crossed with itself, and the trajectory starts at the
coordinates of the invalid crossing. -/
theorem C192_single_plane_end_refuted :
    ∃ (E : Env) (t : Trk), (∀ w : Nat × Nat, E.cross w w = none) ∧
      (∀ a ∈ t 1, ∀ b ∈ t 0, a.x - b.x > 5 * b.err ∨ b.x = 100) ∧ t 2 = [] ∧
      ((track E 0 t).head?.map Prod.fst) = some (0, E.bad, E.bad) :=
  ⟨exEnv, oneSided, by simp [exEnv], by simp [oneSided]; norm_num, rfl, by decide +kernel⟩

/-! ### The order of the points -/

theorem reversed_posX (t : Trk) (h : firstX (t (longest t).2) < lastX (t (longest t).2)) :
    posX (fun p => (t p).reverse) = false := by
  unfold posX
  have hl : longest (fun p => (t p).reverse) = longest t := by unfold longest; simp
  rw [hl]
  unfold firstX lastX at *
  simp only [List.head?_reverse, List.getLast?_reverse]
  exact decide_eq_false (by simpa using h)

/-- C193: the trajectory of the same hits in the opposite order has the same points in the opposite order —
with the same directions, which are not turned round. -/
theorem C193_reversed_hits (E : Env) (chi0 : ℚ) (t : Trk)
    (h : ∀ p < 3, t p ≠ [] → ∀ a ∈ (t p).head?, ∀ b ∈ (t p).getLast?, a.x < b.x) :
    track E chi0 (fun p => (t p).reverse) = (track E chi0 t).reverse := by
  have hpl : planes (fun p => (t p).reverse) = planes t := by unfold planes; simp
  unfold track
  rw [hpl]
  by_cases h2 : (planes t).length < 2
  · rw [if_pos h2, if_pos h2]; rfl
  rw [if_neg h2, if_neg h2]
  dsimp only
  have hne : planes t ≠ [] := by intro h; rw [h] at h2; simp at h2
  have hlt : firstX (t (longest t).2) < lastX (t (longest t).2) := by
    rcases longest_spec t with h' | h'
    · exact absurd h'.2 hne
    · have hn := mem_planes_ne h'.1
      generalize hl : t (longest t).2 = l at *
      obtain ⟨b, hb⟩ := Option.isSome_iff_exists.1 (List.getLast?_isSome.2 hn)
      cases hcl : l with
      | nil => exact absurd hcl hn
      | cons a l' =>
        have := h _ (mem_planes_lt h'.1) (by rw [hl]; exact hn) a (by rw [hl, hcl]; rfl) b (by rw [hl, hb]; rfl)
        rw [hcl] at hb
        unfold firstX lastX
        rw [hb]
        exact this
  have hp1 : posX t = true := by
    unfold posX
    exact decide_eq_true (not_lt.2 hlt.le)
  have hp2 := reversed_posX t hlt
  have ho : oriented (fun p => (t p).reverse) = oriented t := by
    unfold oriented
    rw [hp1, hp2]
    simp
  rw [ho, hp1, hp2]
  cases short E (oriented t) with
  | none => rfl
  | some st => simp

example : ∀ p < 3, exTrk p ≠ [] → ∀ a ∈ (exTrk p).head?, ∀ b ∈ (exTrk p).getLast?, a.x < b.x := by
  intro p hp
  have : p = 0 ∨ p = 1 ∨ p = 2 := by omega
  rcases this with rfl | rfl | rfl <;> simp [exTrk]

/-- C193: the directions should point from each point to the next.  A trajectory with decreasing X whose
directions all point to increasing X. -/
theorem C193_directions_refuted :
    ∃ (E : Env) (t : Trk), (∀ v : V, 0 < v.1 → 0 < (E.unit v).1) ∧ (∀ a b, 0 < E.inv a b) ∧
      (track E 0 t).map (fun q => q.1.1) = [8, 0] ∧ ∀ q ∈ track E 0 t, 0 < q.2.1 := by
  refine ⟨exEnv, fun p => if p < 2 then [⟨p, 0, 8, 1⟩, ⟨p, 0, 0, 1⟩] else [], ?_, ?_, ?_, ?_⟩
  · intro v hv; simp [exEnv, hv]
  · intro a b; simp [exEnv]
  · decide +kernel
  · decide +kernel

/-! ### Where the points are -/

/-- a position of the loop: untouched, the short trajectory's start, or a fit at an earlier X -/
theorem loop_sorted (E : Env) (t : Trk) (st : V × V × V) (mn mx w : ℚ) (N : Nat) (hw : 0 < w) :
    ∀ (n ipt : Nat) hs xo r out, 0 < ipt → mn ≤ xo → xo ≤ mx →
      (mn ≤ r.pos.1 ∧ r.pos.1 ≤ xo ∧ r.pos.1 < mx) →
      ((out.map fun q => q.1.1).Pairwise (· ≤ ·)) →
      (∀ q ∈ out, mn ≤ q.1.1 ∧ q.1.1 < mx ∧ q.1.1 ≤ r.pos.1) →
      (((loop E t st mx w N n ipt hs xo r out).1.map fun q => q.1.1).Pairwise (· ≤ ·)) ∧
      ∀ q ∈ (loop E t st mx w N n ipt hs xo r out).1, mn ≤ q.1.1 ∧ q.1.1 < mx := by
  intro n
  induction n with
  | zero =>
    intro ipt hs xo r out _ _ _ _ hs' hq
    exact ⟨hs', fun q h => ⟨(hq q h).1, (hq q h).2.1⟩⟩
  | succ n ih =>
    intro ipt hs xo r out hi h1 h2 hr hs' hq
    unfold loop
    dsimp only
    by_cases hx : mx ≤ xo
    · simp only [hx, if_true]
      exact ⟨hs', fun q h => ⟨(hq q h).1, (hq q h).2.1⟩⟩
    · simp only [hx, if_false]
      have hr' : mn ≤ (fitBin E st ipt (bin t xo w hs).1 xo r).pos.1 ∧
          (fitBin E st ipt (bin t xo w hs).1 xo r).pos.1 ≤ xo ∧
          r.pos.1 ≤ (fitBin E st ipt (bin t xo w hs).1 xo r).pos.1 := by
        unfold fitBin lineFit
        have : ipt ≠ 0 := by omega
        split_ifs
        all_goals first
          | exact ⟨hr.1, hr.2.1, le_refl _⟩
          | exact ⟨h1, le_refl _, hr.2.1⟩
      generalize fitBin E st ipt (bin t xo w hs).1 xo r = r' at hr' ⊢
      have hxo1 : mn ≤ (if mx - xo < w then mx else xo + w) := by split <;> linarith
      have hxo2 : (if mx - xo < w then mx else xo + w) ≤ mx := by
        split
        · exact le_refl _
        · linarith
      have hxo3 : xo ≤ (if mx - xo < w then mx else xo + w) := by split <;> linarith
      have hreg : mn ≤ r'.pos.1 ∧ r'.pos.1 ≤ (if mx - xo < w then mx else xo + w) ∧ r'.pos.1 < mx :=
        ⟨hr'.1, hr'.2.1.trans hxo3, lt_of_le_of_lt hr'.2.1 (not_le.1 hx)⟩
      have hold : ∀ q ∈ out, mn ≤ q.1.1 ∧ q.1.1 < mx ∧ q.1.1 ≤ r'.pos.1 :=
        fun q h => ⟨(hq q h).1, (hq q h).2.1, (hq q h).2.2.trans hr'.2.2⟩
      have hnew : ∀ q ∈ out ++ [(r'.pos, r'.dir)], mn ≤ q.1.1 ∧ q.1.1 < mx ∧ q.1.1 ≤ r'.pos.1 := by
        intro q h
        rcases List.mem_append.1 h with h | h
        · exact hold q h
        · simp at h
          subst h
          exact ⟨hr'.1, hreg.2.2, le_refl _⟩
      have hnews : ((out ++ [(r'.pos, r'.dir)]).map fun q => q.1.1).Pairwise (· ≤ ·) := by
        rw [List.map_append, List.pairwise_append]
        refine ⟨hs', by simp, ?_⟩
        intro a ha b hb
        simp at hb
        subst hb
        obtain ⟨q, hqm, rfl⟩ := List.mem_map.1 ha
        exact (hold q hqm).2.2
      clear hxo3
      generalize (if mx - xo < w then mx else xo + w) = xo' at hxo1 hxo2 hreg ⊢
      split_ifs
      · exact ih _ _ _ _ _ (by omega) hxo1 hxo2 hreg hs' hold
      · exact ih _ _ _ _ _ (by omega) hxo1 hxo2 hreg hnews hnew
      · exact ih _ _ _ _ _ (by omega) hxo1 hxo2 hreg hnews hnew

/-- The hits of the first bin: those at most one bin width above the lowest X, up to the first hit of each
plane beyond it. -/
def firstBin (t : Trk) : List H :=
  let w := ((maxX t).1 - (minX t).1) / ((npt t : ℚ) - 1)
  (bin t (minX t).1 w (fun _ => 0)).1

/-- C194 (partial: only if the first bin has more than four hits, in two planes at least twice): the points,
apart from the last one, lie in the X range of the hits and are ordered along X; the last one is the end
point of the short trajectory. -/
theorem C194_points_ordered_partial (E : Env) (chi0 : ℚ) (t : Trk) (st : V × V × V)
    (hs : short E t = some st) (hp : posX t = true) (h2 : 2 ≤ (planes t).length)
    (h5 : 4 < (firstBin t).length) (hnok : 2 ≤ nok (firstBin t)) :
    ∃ pts, (track E chi0 t = pts ++ [(st.2.1, st.2.2)]) ∧
      ((pts.map fun q => q.1.1).Pairwise (· ≤ ·)) ∧
      ∀ q ∈ pts, q.1 = st.1 ∨ ((minX t).1 ≤ q.1.1 ∧ q.1.1 < (maxX t).1) := by
  have hne : planes t ≠ [] := by intro h; rw [h] at h2; simp at h2
  have ho : oriented t = t := by unfold oriented; rw [hp]; rfl
  have hmm := min_le_max t hne
  rw [ho] at hmm
  unfold track
  rw [if_neg (by omega)]
  dsimp only
  rw [ho, hs, hp]
  dsimp only
  simp only [if_true]
  unfold points
  dsimp only
  have hends : ∃ pts : List (V × V), ([(st.1, st.2.2), (st.2.1, st.2.2)] : List (V × V)) = pts ++ [(st.2.1, st.2.2)] ∧
      ((pts.map fun q => q.1.1).Pairwise (· ≤ ·)) ∧
      ∀ q ∈ pts, q.1 = st.1 ∨ ((minX t).1 ≤ q.1.1 ∧ q.1.1 < (maxX t).1) :=
    ⟨[(st.1, st.2.2)], rfl, by simp, by simp⟩
  by_cases h : (longest t).1 < 4 ∨ npt t < 2
  · rw [if_pos h]; exact hends
  · rw [if_neg h]
    push Not at h
    have hN : (2 : ℚ) ≤ (npt t : ℚ) := by exact_mod_cast h.2
    have hw : 0 ≤ ((maxX t).1 - (minX t).1) / ((npt t : ℚ) - 1) := by
      apply div_nonneg <;> linarith
    have hend : (minX t).1 + ((npt t : ℚ) - 1) * (((maxX t).1 - (minX t).1) / ((npt t : ℚ) - 1)) = (maxX t).1 := by
      have : ((npt t : ℚ) - 1) ≠ 0 := by linarith
      field_simp
      ring
    have key := loop_length E t st (minX t).1 (maxX t).1 _ (npt t) hw hend (by omega) (npt t + 1) 0
      (fun _ => 0) (minX t).1 ⟨0, 0, chi0⟩ [] (by left; simp) (by simp) (by omega)
    have srt : (((loop E t st (maxX t).1 (((maxX t).1 - (minX t).1) / ((npt t : ℚ) - 1)) (npt t) (npt t + 1) 0
        (fun _ => 0) (minX t).1 ⟨0, 0, chi0⟩ []).1.map fun q => q.1.1).Pairwise (· ≤ ·)) ∧
        ∀ q ∈ (loop E t st (maxX t).1 (((maxX t).1 - (minX t).1) / ((npt t : ℚ) - 1)) (npt t) (npt t + 1) 0
        (fun _ => 0) (minX t).1 ⟨0, 0, chi0⟩ []).1, (minX t).1 ≤ q.1.1 ∧ q.1.1 < (maxX t).1 := by
      unfold loop
      dsimp only
      by_cases hx : (maxX t).1 ≤ (minX t).1
      · simp [hx]
      · simp only [hx, if_false]
        have hwp : 0 < ((maxX t).1 - (minX t).1) / ((npt t : ℚ) - 1) := by
          apply div_pos <;> linarith
        have hfit : ∃ d c, fitBin E st 0 (firstBin t) (minX t).1 ⟨0, 0, chi0⟩ =
            ⟨((minX t).1, (E.solve (firstBin t) (minX t).1).1, (E.solve (firstBin t) (minX t).1).2.1), d, c⟩ := by
          unfold fitBin lineFit
          rw [if_pos (by omega), if_neg (by omega), if_neg (by omega), if_neg (by omega)]
          exact ⟨_, _, rfl⟩
        unfold firstBin at hfit
        dsimp only at hfit
        obtain ⟨d, c, hfit⟩ := hfit
        rw [hfit]
        dsimp only
        have hxo1 : (minX t).1 ≤ (if (maxX t).1 - (minX t).1 < ((maxX t).1 - (minX t).1) / ((npt t : ℚ) - 1)
            then (maxX t).1 else (minX t).1 + ((maxX t).1 - (minX t).1) / ((npt t : ℚ) - 1)) := by
          split <;> linarith
        have hxo2 : (if (maxX t).1 - (minX t).1 < ((maxX t).1 - (minX t).1) / ((npt t : ℚ) - 1)
            then (maxX t).1 else (minX t).1 + ((maxX t).1 - (minX t).1) / ((npt t : ℚ) - 1)) ≤ (maxX t).1 := by
          split
          · exact le_refl _
          · linarith
        have h0 : ¬ (0 = npt t) := by omega
        rw [if_neg h0]
        generalize (if (maxX t).1 - (minX t).1 < ((maxX t).1 - (minX t).1) / ((npt t : ℚ) - 1)
            then (maxX t).1 else (minX t).1 + ((maxX t).1 - (minX t).1) / ((npt t : ℚ) - 1)) = xo' at hxo1 hxo2 ⊢
        split_ifs
        · exact loop_sorted E t st (minX t).1 (maxX t).1 _ (npt t) hwp _ _ _ _ _ _ (by omega) hxo1 hxo2
            ⟨le_refl _, hxo1, not_le.1 hx⟩ (by simp) (by simp)
        · exact loop_sorted E t st (minX t).1 (maxX t).1 _ (npt t) hwp _ _ _ _ _ _ (by omega) hxo1 hxo2
            ⟨le_refl _, hxo1, not_le.1 hx⟩ (by simp) (by simpa using hx)
    generalize loop E t st (maxX t).1 (((maxX t).1 - (minX t).1) / ((npt t : ℚ) - 1)) (npt t) (npt t + 1) 0
      (fun _ => 0) (minX t).1 ⟨0, 0, chi0⟩ [] = r at key srt ⊢
    rw [key.1]
    simp only [Bool.false_eq_true, if_false]
    split
    · exact hends
    · exact ⟨r.1, rfl, srt.1, fun q hq => Or.inr (srt.2 q hq)⟩

/-- three planes, nine hits each: X from 0 to 8, the third plane at the high end only -/
def exTrk5 : Trk := fun p =>
  if p < 3 then (List.range 9).map fun (i : Nat) => (⟨p, 0, (i : ℚ), 2⟩ : H) else []

example : 4 < (firstBin exTrk5).length ∧ 2 ≤ nok (firstBin exTrk5) ∧ posX exTrk5 = true ∧
    2 ≤ (planes exTrk5).length ∧ (short exEnv exTrk5).isSome := by decide +kernel

/-- the hits of `exTrk`, all at X of 100 more -/
def shifted : Trk := fun p => (exTrk p).map fun h => { h with x := h.x + 100 }

/-- C194: the points should lie in the X range of the hits. With exactly four hits in the first bin the fit
reports success without writing its results, and the trajectory starts at the origin. -/
theorem C194_range_refuted :
    ∃ (E : Env) (t : Trk), (∀ p, ∀ a ∈ t p, 100 ≤ a.x ∧ a.x ≤ 108 ∧ a.err = 1) ∧
      (track E 0 t).head? = some ((0, 0, 0), (0, 0, 0)) := by
  refine ⟨exEnv, shifted, ?_, by decide +kernel⟩
  intro p a
  unfold shifted exTrk
  split_ifs <;> simp <;> rintro (rfl | rfl | rfl | rfl | rfl) <;> norm_num

/-! ### The line fit -/

/-- The hit lies on the line `(y0, z0) + (x - x0) (dy, dz)`: its wire is the wire coordinate of the line at
the X of the hit. -/
def OnLine (E : Env) (x0 y0 z0 dy dz : ℚ) (h : H) : Prop :=
  E.cw h.plane * (y0 + dy * (h.x - x0)) + E.sw h.plane * (z0 + dz * (h.x - x0)) + E.off h.plane = h.wire

/-- The sum of squares minimised by the decomposition, for the parameters (y, z, dy/dx, dz/dx). -/
def sumSq (E : Env) (hs : List H) (x0 : ℚ) (v : ℚ × ℚ × ℚ × ℚ) : ℚ :=
  (hs.map fun h =>
    let a := row E x0 h
    (a.1 * v.1 + a.2.1 * v.2.1 + a.2.2.1 * v.2.2.1 + a.2.2.2 * v.2.2.2 - rhs E h) ^ 2).sum

theorem wght_pos (h : H) : 0 < wght h := by
  unfold wght
  split
  · positivity
  · norm_num

theorem sumSq_zero_of_le (f : H → ℚ) (hs : List H) (h : (hs.map fun a => (f a) ^ 2).sum ≤ 0) :
    ∀ a ∈ hs, f a = 0 := by
  have nn : ∀ l : List H, 0 ≤ (l.map fun a => (f a) ^ 2).sum := by
    intro l
    induction l with
    | nil => simp
    | cons b l ih => simp only [List.map_cons, List.sum_cons]; have := sq_nonneg (f b); linarith
  induction hs with
  | nil => simp
  | cons b l ih =>
    simp only [List.map_cons, List.sum_cons] at h
    have h1 := sq_nonneg (f b)
    have h2 := nn l
    have hb : (f b) ^ 2 = 0 := by linarith
    intro a ha
    rcases List.mem_cons.1 ha with rfl | ha
    · exact pow_eq_zero_iff (two_ne_zero) |>.1 hb
    · exact ih (by linarith) a ha

theorem onLine_iff (E : Env) (x0 : ℚ) (v : ℚ × ℚ × ℚ × ℚ) (h : H) :
    ((row E x0 h).1 * v.1 + (row E x0 h).2.1 * v.2.1 + (row E x0 h).2.2.1 * v.2.2.1 +
      (row E x0 h).2.2.2 * v.2.2.2 - rhs E h = 0) ↔ OnLine E x0 v.1 v.2.1 v.2.2.1 v.2.2.2 h := by
  have hw := wght_pos h
  unfold OnLine row rhs
  dsimp only
  constructor
  · intro hh
    have : wght h * (E.cw h.plane * (v.1 + v.2.2.1 * (h.x - x0)) + E.sw h.plane * (v.2.1 + v.2.2.2 * (h.x - x0)) +
        E.off h.plane - h.wire) = 0 := by linear_combination hh
    rcases mul_eq_zero.1 this with h' | h'
    · exact absurd h' hw.ne'
    · linarith
  · intro hh
    linear_combination (wght h) * hh

/-- two planes with wires in different directions and two different X each fix the line -/
theorem line_unique (E : Env) (x0 : ℚ) (a a' b b' : H) (ha : a.plane = a'.plane) (hb : b.plane = b'.plane)
    (hxa : a.x ≠ a'.x) (hxb : b.x ≠ b'.x)
    (hdir : E.cw a.plane * E.sw b.plane ≠ E.cw b.plane * E.sw a.plane) (u v : ℚ × ℚ × ℚ × ℚ)
    (hu : ∀ h ∈ [a, a', b, b'], OnLine E x0 u.1 u.2.1 u.2.2.1 u.2.2.2 h)
    (hv : ∀ h ∈ [a, a', b, b'], OnLine E x0 v.1 v.2.1 v.2.2.1 v.2.2.2 h) : u = v := by
  have u1 := hu a (by simp)
  have u2 := hu a' (by simp)
  have u3 := hu b (by simp)
  have u4 := hu b' (by simp)
  have v1 := hv a (by simp)
  have v2 := hv a' (by simp)
  have v3 := hv b (by simp)
  have v4 := hv b' (by simp)
  unfold OnLine at *
  rw [← ha] at u2 v2
  rw [← hb] at u4 v4
  obtain ⟨p, q, r, s⟩ := u
  obtain ⟨p', q', r', s'⟩ := v
  dsimp only at *
  generalize E.cw a.plane = ca at *
  generalize E.sw a.plane = sa at *
  generalize E.cw b.plane = cb at *
  generalize E.sw b.plane = sb at *
  have hA : ca * (r - r') + sa * (s - s') = 0 := by
    have : (ca * (r - r') + sa * (s - s')) * (a.x - a'.x) = 0 := by linear_combination u1 - u2 - v1 + v2
    rcases mul_eq_zero.1 this with h | h
    · exact h
    · exact absurd (sub_eq_zero.1 h) hxa
  have hB : cb * (r - r') + sb * (s - s') = 0 := by
    have : (cb * (r - r') + sb * (s - s')) * (b.x - b'.x) = 0 := by linear_combination u3 - u4 - v3 + v4
    rcases mul_eq_zero.1 this with h | h
    · exact h
    · exact absurd (sub_eq_zero.1 h) hxb
  have hD : ca * sb - cb * sa ≠ 0 := sub_ne_zero.2 hdir
  have hr : r = r' := by
    have : (ca * sb - cb * sa) * (r - r') = 0 := by linear_combination sb * hA - sa * hB
    rcases mul_eq_zero.1 this with h | h
    · exact absurd h hD
    · exact sub_eq_zero.1 h
  have hs : s = s' := by
    have : (ca * sb - cb * sa) * (s - s') = 0 := by linear_combination ca * hB - cb * hA
    rcases mul_eq_zero.1 this with h | h
    · exact absurd h hD
    · exact sub_eq_zero.1 h
  subst hr hs
  have hA' : ca * (p - p') + sa * (q - q') = 0 := by linear_combination u1 - v1
  have hB' : cb * (p - p') + sb * (q - q') = 0 := by linear_combination u3 - v3
  have hp : p = p' := by
    have : (ca * sb - cb * sa) * (p - p') = 0 := by linear_combination sb * hA' - sa * hB'
    rcases mul_eq_zero.1 this with h | h
    · exact absurd h hD
    · exact sub_eq_zero.1 h
  have hq : q = q' := by
    have : (ca * sb - cb * sa) * (q - q') = 0 := by linear_combination ca * hB' - cb * hA'
    rcases mul_eq_zero.1 this with h | h
    · exact absurd h hD
    · exact sub_eq_zero.1 h
  rw [hp, hq]

theorem two_le_countP (hs : List H) (p : Nat) (a b : H) (ha : a ∈ hs) (hb : b ∈ hs) (hab : a ≠ b)
    (hpa : a.plane = p) (hpb : b.plane = p) : 2 ≤ hs.countP fun h => h.plane = p := by
  rw [List.countP_eq_length_filter]
  have h1 : a ∈ hs.filter fun h => h.plane = p := List.mem_filter.2 ⟨ha, by simpa using hpa⟩
  have h2 : b ∈ hs.filter fun h => h.plane = p := List.mem_filter.2 ⟨hb, by simpa using hpb⟩
  rcases hl : hs.filter fun h => decide (h.plane = p) with _ | ⟨c, l⟩
  · rw [hl] at h1; simp at h1
  · rw [hl] at h1 h2
    cases l with
    | nil => simp at h1 h2; exact absurd (h1.trans h2.symm) hab
    | cons d l => rw [hl]; simp

theorem two_le_nok (hs : List H) (p q : Nat) (hp : p < 3) (hq : q < 3) (hpq : p ≠ q)
    (h1 : 2 ≤ hs.countP fun h => h.plane = p) (h2 : 2 ≤ hs.countP fun h => h.plane = q) : 2 ≤ nok hs := by
  unfold nok
  have m1 : p ∈ [0, 1, 2].filter fun p => decide (2 ≤ hs.countP fun h => h.plane = p) :=
    List.mem_filter.2 ⟨by simp; omega, by simpa using h1⟩
  have m2 : q ∈ [0, 1, 2].filter fun p => decide (2 ≤ hs.countP fun h => h.plane = p) :=
    List.mem_filter.2 ⟨by simp; omega, by simpa using h2⟩
  rcases hl : [0, 1, 2].filter fun p => decide (2 ≤ hs.countP fun h => h.plane = p) with _ | ⟨c, l⟩
  · rw [hl] at m1; simp at m1
  · rw [hl] at m1 m2
    cases l with
    | nil => simp at m1 m2; omega
    | cons d l => simp

/-- C195: hits exactly on a line, more than four of them, with two planes of different wire directions that
both have hits at two different X: if the decomposition minimises the sum of squares, the fit returns the
point of the line at the origin, a multiple of its direction, and a chi-square of zero. -/
theorem C195_exact_line (E : Env) (hs : List H) (x0 y0 z0 dy dz : ℚ) (r : Reg)
    (hlsq : ∀ v, sumSq E hs x0 (E.solve hs x0) ≤ sumSq E hs x0 v)
    (hon : ∀ h ∈ hs, OnLine E x0 y0 z0 dy dz h) (h5 : 4 < hs.length)
    (a a' b b' : H) (hin : a ∈ hs ∧ a' ∈ hs ∧ b ∈ hs ∧ b' ∈ hs)
    (ha : a.plane = a'.plane) (hb : b.plane = b'.plane) (ha3 : a.plane < 3) (hb3 : b.plane < 3)
    (hxa : a.x ≠ a'.x) (hxb : b.x ≠ b'.x)
    (hdir : E.cw a.plane * E.sw b.plane ≠ E.cw b.plane * E.sw a.plane) :
    (lineFit E hs x0 r).pos = (x0, y0, z0) ∧
      (∃ n, (lineFit E hs x0 r).dir = (n, dy * n, dz * n) ∧ n = E.inv dy dz) ∧
      (lineFit E hs x0 r).chi = 0 := by
  have hz : sumSq E hs x0 (y0, z0, dy, dz) = 0 := by
    unfold sumSq
    dsimp only
    have : (hs.map fun h => ((row E x0 h).1 * y0 + (row E x0 h).2.1 * z0 + (row E x0 h).2.2.1 * dy +
        (row E x0 h).2.2.2 * dz - rhs E h) ^ 2) = hs.map fun _ => (0 : ℚ) := by
      apply List.map_congr_left
      intro h hh
      have := (onLine_iff E x0 (y0, z0, dy, dz) h).2 (hon h hh)
      dsimp only at this
      rw [this]; norm_num
    rw [this]
    simp
  have hle := hlsq (y0, z0, dy, dz)
  rw [hz] at hle
  have hall : ∀ h ∈ hs, OnLine E x0 (E.solve hs x0).1 (E.solve hs x0).2.1 (E.solve hs x0).2.2.1
      (E.solve hs x0).2.2.2 h := by
    intro h hh
    exact (onLine_iff E x0 (E.solve hs x0) h).1 (sumSq_zero_of_le _ hs hle h hh)
  have hsol : E.solve hs x0 = (y0, z0, dy, dz) := by
    apply line_unique E x0 a a' b b' ha hb hxa hxb hdir
    · intro h hh
      apply hall
      simp at hh
      rcases hh with rfl | rfl | rfl | rfl
      · exact hin.1
      · exact hin.2.1
      · exact hin.2.2.1
      · exact hin.2.2.2
    · intro h hh
      apply hon
      simp at hh
      rcases hh with rfl | rfl | rfl | rfl
      · exact hin.1
      · exact hin.2.1
      · exact hin.2.2.1
      · exact hin.2.2.2
  have hpq : a.plane ≠ b.plane := by
    intro h; rw [h] at hdir; exact hdir rfl
  have hn := two_le_nok hs a.plane b.plane ha3 hb3 hpq
    (two_le_countP hs _ a a' hin.1 hin.2.1 (by intro h; exact hxa (by rw [h])) rfl ha.symm)
    (two_le_countP hs _ b b' hin.2.2.1 hin.2.2.2 (by intro h; exact hxb (by rw [h])) rfl hb.symm)
  unfold lineFit
  rw [if_neg (by omega), if_neg (by omega), if_neg (by omega)]
  dsimp only
  rw [hsol]
  refine ⟨rfl, ⟨_, rfl, rfl⟩, ?_⟩
  have : (hs.map (chiTerm E (y0, z0, dy, dz) x0)) = hs.map fun _ => (0 : ℚ) := by
    apply List.map_congr_left
    intro h hh
    have := hon h hh
    unfold OnLine at this
    unfold chiTerm
    dsimp only
    have e : (y0 + dy * (h.x - x0)) * E.cw h.plane + (z0 + dz * (h.x - x0)) * E.sw h.plane -
        ((h.wire : ℚ) - E.off h.plane) = 0 := by linear_combination this
    rw [e]; simp
  rw [this]
  simp

/-- hits of the line y = 1 + x, z = 2 seen by the two planes of `exEnv` -/
def exHits : List H := [⟨0, 1, 0, 1⟩, ⟨0, 2, 1, 1⟩, ⟨0, 3, 2, 1⟩, ⟨1, 2, 0, 1⟩, ⟨1, 2, 1, 1⟩]

example : (∀ h ∈ exHits, OnLine exEnv 0 1 2 1 0 h) ∧ 4 < exHits.length ∧
    exEnv.cw 0 * exEnv.sw 1 ≠ exEnv.cw 1 * exEnv.sw 0 := by
  simp [exHits, OnLine, exEnv]
  norm_num

/-- C195: a fit is refused (negative chi-square, position and direction left alone) exactly if there are
fewer than four hits or fewer than two planes with two hits; a refused fit changes nothing else. -/
theorem C195_refused (E : Env) (hs : List H) (x0 : ℚ) (r : Reg) (hp : ∀ h ∈ hs, h.plane < 3) :
    ((lineFit E hs x0 r).chi < 0 ↔ hs.length < 4 ∨ ¬ ∃ p q, p ≠ q ∧
      2 ≤ (hs.filter fun h => h.plane = p).length ∧ 2 ≤ (hs.filter fun h => h.plane = q).length) ∧
    ((lineFit E hs x0 r).chi < 0 → (lineFit E hs x0 r).pos = r.pos ∧ (lineFit E hs x0 r).dir = r.dir) := by
  have hnok : nok hs < 2 ↔ ¬ ∃ p q, p ≠ q ∧
      2 ≤ (hs.filter fun h => h.plane = p).length ∧ 2 ≤ (hs.filter fun h => h.plane = q).length := by
    simp only [← List.countP_eq_length_filter]
    constructor
    · rintro h ⟨p, q, hpq, h1, h2⟩
      have lt3 : ∀ p, 2 ≤ hs.countP (fun h => decide (h.plane = p)) → p < 3 := by
        intro p h
        have : 0 < hs.countP (fun h => decide (h.plane = p)) := by omega
        obtain ⟨a, ha, e⟩ := List.countP_pos_iff.1 this
        have := hp a ha
        simp at e
        omega
      have := two_le_nok hs p q (lt3 p h1) (lt3 q h2) hpq h1 h2
      omega
    · intro h
      by_contra hc
      apply h
      unfold nok at hc
      by_cases h0 : 2 ≤ hs.countP (fun h => decide (h.plane = 0)) <;>
      by_cases h1 : 2 ≤ hs.countP (fun h => decide (h.plane = 1)) <;>
      by_cases h2 : 2 ≤ hs.countP (fun h => decide (h.plane = 2)) <;>
      simp [h0, h1, h2] at hc
      all_goals first
        | exact ⟨0, 1, by decide, h0, h1⟩
        | exact ⟨0, 2, by decide, h0, h2⟩
        | exact ⟨1, 2, by decide, h1, h2⟩
  rw [← hnok]
  have nn : ∀ (t : ℚ × ℚ × ℚ × ℚ) (l : List H), 0 ≤ (l.map (chiTerm E t x0)).sum := by
    intro t l
    induction l with
    | nil => simp
    | cons b l ih =>
      simp only [List.map_cons, List.sum_cons]
      have : 0 ≤ chiTerm E t x0 b := mul_self_nonneg _
      linarith
  unfold lineFit
  by_cases h4 : hs.length < 4
  · rw [if_pos h4]
    exact ⟨⟨fun _ => Or.inl h4, fun _ => by norm_num⟩, fun _ => ⟨rfl, rfl⟩⟩
  rw [if_neg h4]
  by_cases hk : nok hs < 2
  · rw [if_pos hk]
    exact ⟨⟨fun _ => Or.inr hk, fun _ => by norm_num⟩, fun _ => ⟨rfl, rfl⟩⟩
  rw [if_neg hk]
  by_cases he : hs.length = 4
  · rw [if_pos he]
    exact ⟨⟨fun h => absurd h (by simp), fun h => by omega⟩, fun _ => ⟨rfl, rfl⟩⟩
  rw [if_neg he]
  dsimp only
  have hl : (0 : ℚ) ≤ (hs.length : ℚ) - 4 := by
    have : (4 : ℚ) ≤ (hs.length : ℚ) := by exact_mod_cast Nat.le_of_not_lt h4
    linarith
  have hc : 0 ≤ (hs.map (chiTerm E (E.solve hs x0) x0)).sum / (E.pitch * E.pitch) / ((hs.length : ℚ) - 4) :=
    div_nonneg (div_nonneg (nn _ _) (mul_self_nonneg _)) hl
  exact ⟨⟨fun h => absurd h (not_lt.2 hc), fun h => by omega⟩, fun h => absurd h (not_lt.2 hc)⟩

example : (lineFit exEnv exHits 0 ⟨0, 0, 0⟩).chi = 22 := by decide +kernel

/-- C195: a fit that reports success should return the position it found. Four hits exactly on a line, any
decomposition: success, and the position passed in is returned. -/
theorem C195_four_hits_refuted (E : Env) (r : Reg) :
    ∃ hs : List H, hs.length = 4 ∧ nok hs = 2 ∧ (lineFit E hs 0 r).chi = 0 ∧ (lineFit E hs 0 r).pos = r.pos ∧
      (lineFit E hs 0 r).dir = r.dir := by
  refine ⟨[⟨0, 0, 0, 1⟩, ⟨0, 0, 1, 1⟩, ⟨1, 0, 0, 1⟩, ⟨1, 0, 1, 1⟩], rfl, by decide, ?_⟩
  unfold lineFit
  rw [if_neg (by decide), if_neg (by decide), if_pos (by decide)]
  exact ⟨rfl, rfl, rfl⟩

/-- C195: a hit with a larger error should count less in the chi-square. Its residual is multiplied by the
error: for the same residual, the hit with the larger error contributes more. -/
theorem C195_chi_weight_refuted (E : Env) (t : ℚ × ℚ × ℚ × ℚ) (x0 : ℚ) (h h' : H)
    (hsame : h'.plane = h.plane ∧ h'.wire = h.wire ∧ h'.x = h.x) (herr : 0 < h.err ∧ h.err < h'.err)
    (hres : ¬ OnLine E x0 t.1 t.2.1 t.2.2.1 t.2.2.2 h) : chiTerm E t x0 h < chiTerm E t x0 h' := by
  have w1 : wght h = 1 / h.err := by unfold wght; rw [if_pos herr.1]
  have w2 : wght h' = 1 / h'.err := by unfold wght; rw [if_pos (herr.1.trans herr.2)]
  unfold chiTerm
  dsimp only
  rw [w1, w2, hsame.1, hsame.2.1, hsame.2.2]
  unfold OnLine at hres
  generalize hd : (t.1 + t.2.2.1 * (h.x - x0)) * E.cw h.plane + (t.2.1 + t.2.2.2 * (h.x - x0)) * E.sw h.plane -
    ((h.wire : ℚ) - E.off h.plane) = d
  have hne : d ≠ 0 := by
    intro h0
    apply hres
    rw [h0] at hd
    linear_combination hd
  have h0 : 0 < d * d := mul_self_pos.2 hne
  have e1 : d / (1 / h.err) = d * h.err := by field_simp
  have e2 : d / (1 / h'.err) = d * h'.err := by
    have : h'.err ≠ 0 := (herr.1.trans herr.2).ne'
    field_simp
  rw [e1, e2]
  have : h.err * h.err < h'.err * h'.err := by
    apply mul_self_lt_mul_self herr.1.le herr.2
  nlinarith

end Verif.Tta

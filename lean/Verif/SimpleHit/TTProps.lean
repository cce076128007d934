import Verif.SimpleHit.TTModel
import Mathlib.Data.List.Range
import Mathlib.Tactic.Linarith
import Mathlib.Tactic.NormNum
import Mathlib.Tactic.Ring
import Mathlib.Algebra.BigOperators.Group.List.Basic

/-! Properties C304 - C306: `TTHitFinder`. -/

namespace Verif.TTHit

/-- Specification: the sum of the signal over `w` ticks from `b`. -/
def windowSum (s : Int → ℚ) (w : Nat) (b : Int) : ℚ := ((List.range w).map fun j : Nat => s (b + j)).sum

theorem totalCharge_spec (s : Int → ℚ) (tail : ℚ) : ∀ (k : Nat) (b : Int) (tot : ℚ),
    ((∀ j : Nat, j < k → tail ≤ s (b + j)) → totalCharge s tail k b tot = tot + windowSum s k b) ∧
    ((∃ j : Nat, j < k ∧ s (b + j) < tail) → totalCharge s tail k b tot = -999) := by
  intro k
  induction k with
  | zero => intro b tot; simp [totalCharge, windowSum]
  | succ k ih =>
    intro b tot
    obtain ⟨h1, h2⟩ := ih (b + 1) (tot + s b)
    constructor
    · intro h
      have h0 := h 0 (by omega)
      simp only [Nat.cast_zero, add_zero] at h0
      rw [totalCharge, if_neg (by linarith), h1 (by
        intro j hj
        have := h (j + 1) (by omega)
        rwa [show b + ((j + 1 : Nat) : Int) = b + 1 + j by push_cast; ring] at this)]
      unfold windowSum
      rw [List.range_succ_eq_map, List.map_cons, List.sum_cons, List.map_map]
      have : ((fun j : Nat => s (b + j)) ∘ Nat.succ) = fun j : Nat => s (b + 1 + j) := by
        funext j
        simp only [Function.comp]
        congr 1
        push_cast
        ring
      rw [this]
      simp
      ring
    · rintro ⟨j, hj, hs⟩
      rw [totalCharge]
      split_ifs with hc
      · rfl
      · apply h2
        rcases j with _ | j
        · simp at hs; exact absurd hs hc
        · exact ⟨j, by omega, by rwa [show b + ((j + 1 : Nat) : Int) = b + 1 + j by push_cast; ring] at hs⟩

theorem begin_nonneg (w t : Nat) : 0 ≤ beginTick w t ↔ ¬ (t : ℚ) - ((w : ℚ) - 1) / 2 < 0 := by
  unfold beginTick
  rw [Int.floor_nonneg, not_lt]

theorem begin_odd (w t : Nat) (h : w % 2 = 1) : (beginTick w t : ℚ) = t - ((w : ℚ) - 1) / 2 := by
  obtain ⟨k, rfl⟩ : ∃ k, w = 2 * k + 1 := ⟨w / 2, by omega⟩
  unfold beginTick
  rw [show (t : ℚ) - (((2 * k + 1 : Nat) : ℚ) - 1) / 2 = ((t - k : Int) : ℚ) by push_cast; ring, Int.floor_intCast]

theorem begin_even (w t : Nat) (h : w % 2 = 0) : (beginTick w t : ℚ) = t - (w : ℚ) / 2 := by
  obtain ⟨k, rfl⟩ : ∃ k, w = 2 * k := ⟨w / 2, by omega⟩
  have : beginTick (2 * k) t = (t : Int) - k := by
    unfold beginTick
    rw [Int.floor_eq_iff]
    push_cast
    constructor <;> linarith
  rw [this]
  push_cast
  ring

theorem in_signal (n w t : Nat) (hb : beginTick w t + w ≤ n) : ¬ (t : ℚ) + ((w : ℚ) - 1) / 2 > n := by
  have hb' : (beginTick w t : ℚ) + w ≤ n := by exact_mod_cast hb
  rcases Nat.mod_two_eq_zero_or_one w with h | h
  · rw [begin_even w t h] at hb'
    linarith
  · rw [begin_odd w t h] at hb'
    linarith

/-- C304 (part): for a tick whose window of the asked-for width lies in the signal (and whose sum is not -999): there is a hit
exactly if the peak value reaches the threshold and no tick of the window is below the tail threshold; the hit has that
peak value and the sum over the window as its charge.  There is no hit for a window that begins before the signal. -/
theorem C304_hit_partial (s : Int → ℚ) (n w : Nat) (thr tail : ℚ) (t : Nat)
    (hc : windowSum s w (beginTick w t) ≠ -999) :
    (beginTick w t < 0 → tick s n w thr tail t = none) ∧
    (0 ≤ beginTick w t → beginTick w t + w ≤ n →
      ((tick s n w thr tail t).isSome = true ↔
        thr ≤ peak s w t ∧ ∀ j : Nat, j < w → tail ≤ s (beginTick w t + j)) ∧
      ∀ h, tick s n w thr tail t = some h → h.amp = peak s w t ∧ h.charge = windowSum s w (beginTick w t)) := by
  have hbn := begin_nonneg w t
  obtain ⟨h1, h2⟩ := totalCharge_spec s tail w (beginTick w t) 0
  rw [zero_add] at h1
  constructor
  · intro hb
    unfold tick
    by_cases hp : peak s w t < thr
    · rw [if_pos hp]
    · rw [if_neg hp, if_pos (by by_contra h; exact absurd (hbn.2 h) (by omega))]
  · intro hb hn
    have hin := in_signal n w t hn
    have e : tick s n w thr tail t = if peak s w t < thr then none else
        if totalCharge s tail w (beginTick w t) 0 = -999 then none
        else some ⟨if w % 2 = 0 then t + 1 / 2 else t, trunc ((if w % 2 = 0 then (t : ℚ) + 1 / 2 else t) - w),
          trunc ((if w % 2 = 0 then (t : ℚ) + 1 / 2 else t) + w), peak s w t, totalCharge s tail w (beginTick w t) 0⟩ := by
      unfold tick
      rw [if_neg (hbn.1 hb), if_neg hin]
    rw [e]
    by_cases hall : ∀ j : Nat, j < w → tail ≤ s (beginTick w t + j)
    · rw [h1 hall, if_neg hc]
      by_cases hp : peak s w t < thr
      · rw [if_pos hp]
        simp [hp]
      · rw [if_neg hp]
        refine ⟨by simp only [Option.isSome_some, true_iff]; exact ⟨not_lt.1 hp, hall⟩, ?_⟩
        intro h he
        simp only [Option.some.injEq] at he
        rw [← he]
        exact ⟨rfl, rfl⟩
    · have : ∃ j : Nat, j < w ∧ s (beginTick w t + j) < tail := by
        push Not at hall
        exact hall
      rw [h2 this]
      simp only [if_true]
      refine ⟨?_, by split_ifs <;> simp⟩
      constructor
      · split_ifs <;> simp
      · exact fun h => absurd h.2 hall

/-- C304 (refuted): a tick that reaches the threshold, with no tick of its window below the tail threshold, gives no hit if
the charge happens to be the special value -999. -/
theorem C304_refuted : ¬ ∀ (s : Int → ℚ) (n w : Nat) (thr tail : ℚ) (t : Nat), 0 ≤ beginTick w t → beginTick w t + w ≤ n →
    thr ≤ peak s w t → (∀ j : Nat, j < w → tail ≤ s (beginTick w t + j)) → (tick s n w thr tail t).isSome = true := by
  intro h
  have := h (fun _ => -333) 3 3 (-400) (-400) 1 (by decide +kernel) (by decide +kernel) (by decide +kernel)
    (by intro j _; norm_num)
  revert this
  decide +kernel

example : (tick (fun t => if t = 2 then 9 else 1) 5 3 5 0 2).map (fun h => (h.time, h.charge)) = some (2, 11) := by
  decide +kernel

/-! ### C305 what is read -/

theorem mem_chargeReads (s : Int → ℚ) (tail : ℚ) : ∀ (k : Nat) (b r : Int), r ∈ chargeReads s tail k b →
    b ≤ r ∧ r < b + k := by
  intro k
  induction k with
  | zero => intro b r h; simp [chargeReads] at h
  | succ k ih =>
    intro b r h
    rw [chargeReads] at h
    split_ifs at h
    · simp at h; subst h; push_cast; constructor <;> omega
    · rcases List.mem_cons.1 h with rfl | h
      · push_cast; constructor <;> omega
      · have := ih (b + 1) r h
        push_cast
        constructor <;> omega

/-- C305 (part): no tick before the signal is read, and none more than one tick after its end. -/
theorem C305_reads_partial (s : Int → ℚ) (n w : Nat) (thr tail : ℚ) (t : Nat) (ht : t < n) :
    ∀ r ∈ reads s n w thr tail t, 0 ≤ r ∧ r ≤ n := by
  intro r hr
  unfold reads at hr
  rcases List.mem_append.1 hr with hr | hr
  · split_ifs at hr
    · simp at hr; omega
    · simp at hr; omega
  · split_ifs at hr with a b c
    · simp at hr
    · simp at hr
    · simp at hr
    · have hb := (begin_nonneg w t).2 b
      obtain ⟨h1, h2⟩ := mem_chargeReads s tail w _ r hr
      refine ⟨by omega, ?_⟩
      have h2' : (r : ℚ) < beginTick w t + w := by exact_mod_cast h2
      have h3 : r < (n : Int) + 1 := by
        rcases Nat.mod_two_eq_zero_or_one w with h | h
        · rw [begin_even w t h] at h2'
          have : (r : ℚ) < n + 1 := by linarith
          exact_mod_cast this
        · rw [begin_odd w t h] at h2'
          have : (r : ℚ) < n + 1 := by linarith
          exact_mod_cast this
      omega

/-- C305 (refuted): the signal is read beyond its end: with the default width for a last tick above threshold, and with an
even width for every last tick. -/
theorem C305_refuted :
    (¬ ∀ (s : Int → ℚ) (n : Nat) (thr tail : ℚ) (t : Nat), t < n → ∀ r ∈ reads s n 3 thr tail t, r < n) ∧
    (¬ ∀ (s : Int → ℚ) (n : Nat) (thr tail : ℚ) (t : Nat), t < n → ∀ r ∈ reads s n 2 thr tail t, r < n) := by
  constructor
  · intro h
    have := h (fun _ => 5) 4 1 (-99) 3 (by omega) 4 (by decide +kernel)
    omega
  · intro h
    have := h (fun _ => 0) 4 1 (-99) 3 (by omega) 4 (by decide +kernel)
    omega

/-! ### C306 the window is centred on the hit -/

/-- C306 (part): with an odd width the hit is at the middle of the window of which it has the charge; its ticks reach one
width before and after.  With an even width the middle of the window is one tick before the hit. -/
theorem C306_centre_partial (s : Int → ℚ) (n w : Nat) (thr tail : ℚ) (t : Nat) (h : Hit)
    (hh : tick s n w thr tail t = some h) :
    (w % 2 = 1 → (beginTick w t : ℚ) + ((w : ℚ) - 1) / 2 = h.time ∧
      h.startTick = (t : Int) - w ∧ h.endTick = (t : Int) + w) ∧
    (w % 2 = 0 → (beginTick w t : ℚ) + ((w : ℚ) - 1) / 2 = h.time - 1) := by
  have ht : h.time = (if w % 2 = 0 then (t : ℚ) + 1 / 2 else t) ∧
      h.startTick = trunc ((if w % 2 = 0 then (t : ℚ) + 1 / 2 else t) - w) ∧
      h.endTick = trunc ((if w % 2 = 0 then (t : ℚ) + 1 / 2 else t) + w) := by
    unfold tick at hh
    split_ifs at hh
    all_goals
      dsimp only at hh
      split_ifs at hh
      simp only [Option.some.injEq] at hh
      rw [← hh]
      refine ⟨?_, ?_, ?_⟩ <;> simp [*]
  obtain ⟨t1, t2, t3⟩ := ht
  constructor
  · intro hw
    rw [if_neg (by omega)] at t1 t2 t3
    refine ⟨by rw [begin_odd w t hw, t1]; ring, ?_, ?_⟩
    · rw [t2, show (t : ℚ) - w = (((t : Int) - w : Int) : ℚ) by push_cast; ring]
      unfold trunc
      split_ifs <;> simp
    · rw [t3, show (t : ℚ) + w = (((t : Int) + w : Int) : ℚ) by push_cast; ring]
      unfold trunc
      split_ifs <;> simp
  · intro hw
    rw [if_pos hw] at t1
    rw [begin_even w t hw, t1]
    ring

/-- C306 (refuted): with an even width the charge is not that of the ticks around the hit. -/
theorem C306_refuted : ¬ ∀ (s : Int → ℚ) (n w : Nat) (thr tail : ℚ) (t : Nat) (h : Hit),
    tick s n w thr tail t = some h → (beginTick w t : ℚ) + ((w : ℚ) - 1) / 2 = h.time := by
  intro h
  have := h (fun t => if t = 2 ∨ t = 3 then 9 else 1) 6 2 5 0 2 ⟨5 / 2, 0, 4, 9, 10⟩ (by decide +kernel)
  revert this
  decide +kernel

/-- the hits of a wire are those of its ticks, in time order -/
theorem C304_wire (s : Int → ℚ) (n w : Nat) (thr tail : ℚ) (h : Hit) :
    h ∈ hits s n w thr tail ↔ ∃ t, t < n ∧ tick s n w thr tail t = some h := by
  unfold hits
  rw [List.mem_filterMap]
  constructor
  · rintro ⟨t, ht, he⟩; exact ⟨t, List.mem_range.1 ht, he⟩
  · rintro ⟨t, ht, he⟩; exact ⟨t, List.mem_range.2 ht, he⟩

/-- C304: the width in use is the one asked for, if that is at least one tick, and is never zero. -/
theorem C304_width (w : Int) : 1 ≤ setWidth w ∧ (1 ≤ w → (setWidth w : Int) = w) := by
  unfold setWidth
  split <;> omega

example : setWidth 0 = 1 ∧ setWidth (-3) = 1 ∧ setWidth 4 = 4 := by decide

end Verif.TTHit

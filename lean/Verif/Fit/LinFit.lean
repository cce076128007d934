import Verif.Basic
import Mathlib.Algebra.Order.Field.Rat
import Mathlib.Data.List.Basic
import Mathlib.Tactic.FieldSimp
import Mathlib.Tactic.Positivity
import Mathlib.Algebra.Order.BigOperators.Group.List
/-!
# Model of `trkf::LinFitAlg::LinFit` (C53, C77)

Source: `/repo/larreco/RecoAlg/LinFitAlg.cxx`. Rationals instead of `float`/`double`; the two parameter errors are modelled by their squares (the
C++ takes square roots). A zero error (division by zero) gives infinities in the C++ and is outside the theorems.
-/
namespace Verif.LinFit
open Verif

/-! ## Model -/

/-- the six sums, LinFitAlg.cxx:33-38 -/
structure Sums where
  sum : ℚ
  sumx : ℚ
  sumy : ℚ
  sumxy : ℚ
  sumx2 : ℚ
  sumy2 : ℚ
deriving DecidableEq

/-- initial values, LinFitAlg.cxx:33-38 -/
def Sums.zero : Sums := ⟨0, 0, 0, 0, 0, 0⟩

/-- loop body, LinFitAlg.cxx:43-49 -/
def addPoint (s : Sums) (x y e : ℚ) : Sums :=
  let w := 1 / e
  ⟨s.sum + w, s.sumx + w * x, s.sumy + w * y, s.sumxy + w * x * y, s.sumx2 + w * x * x, s.sumy2 + w * y * y⟩

/-- number of values of an `unsigned short` -/
def ushort : Nat := 65536

/-- the loop `for (ii = 0; ii < y.size(); ++ii)` with its `unsigned short` counter, LinFitAlg.cxx:40-50 and 75-78, for a body `f`;
`none`: still running after `fuel` rounds -/
def loop {σ : Type} (n : Nat) (f : σ → Nat → σ) : Nat → Nat → σ → Option σ
  | 0, ii, s => if ii < n then none else some s
  | fuel + 1, ii, s => if ii < n then loop n f fuel ((ii + 1) % ushort) (f s ii) else some s

/-- outputs of `LinFit`; `none` for an output not written (the caller's variable keeps its value) -/
structure Out where
  intercept : Option ℚ
  slope : Option ℚ
  interceptErr2 : Option ℚ
  slopeErr2 : Option ℚ
  chiDOF : ℚ
deriving DecidableEq

/-- second part of `LinFit`, after the sums, LinFitAlg.cxx:51-79; `chi2 A B` is the outcome of the second loop -/
def finish (nx : Nat) (s : Sums) (chi2 : ℚ → ℚ → Option ℚ) : Option Out :=
  let delta := s.sum * s.sumx2 - s.sumx * s.sumx
  if delta = 0 then some ⟨none, none, none, none, 999⟩
  else
    let A := (s.sumx2 * s.sumy - s.sumx * s.sumxy) / delta
    let B := (s.sumxy * s.sum - s.sumx * s.sumy) / delta
    if nx = 2 then some ⟨some A, some B, none, none, 0⟩
    else
      let ndof : ℚ := (nx : ℚ) - 2
      let varnce := (s.sumy2 + A * A * s.sum + B * B * s.sumx2 - 2 * (A * s.sumy + B * s.sumxy - A * B * s.sumx)) / ndof
      match chi2 A B with
      | none => none
      | some c =>
        if varnce > 0 then some ⟨some A, some B, some (varnce * s.sumx2 / delta), some (varnce * s.sum / delta), c / ndof⟩
        else some ⟨some A, some B, some 0, some 0, c / ndof⟩

/-- `LinFit`, LinFitAlg.cxx:16-80, with `fuel` loop rounds; `none`: still running -/
def linFit (fuel : Nat) (x y ey2 : List ℚ) : Option Out :=
  if y.length < 2 then some ⟨none, none, none, none, 999⟩
  else if x.length < y.length ∨ ey2.length < y.length then some ⟨none, none, none, none, 999⟩
  else
    match loop y.length (fun s i => addPoint s (x.getD i 0) (y.getD i 0) (ey2.getD i 0)) fuel 0 Sums.zero with
    | none => none
    | some s => finish x.length s (fun A B =>
        loop y.length (fun c i => c + (y.getD i 0 - A - B * x.getD i 0) * (y.getD i 0 - A - B * x.getD i 0) / ey2.getD i 0) fuel 0 0)

/-! ## Specification -/

/-- a measured point -/
structure Meas where
  x : ℚ
  y : ℚ
  err2 : ℚ
deriving DecidableEq

/-- the points fitted: as many as there are y values -/
def points (x y ey2 : List ℚ) : List Meas := (List.range y.length).map (fun i => ⟨x.getD i 0, y.getD i 0, ey2.getD i 0⟩)

/-- weighted sum of squared residuals of the line `a + b x` -/
def chi2 (l : List Meas) (a b : ℚ) : ℚ := (l.map (fun m => (m.y - a - b * m.x) ^ 2 / m.err2)).sum

/-! ## Proofs -/

/-- the loop ends with the expected result if the counter can reach the bound -/
theorem loop_ok {σ : Type} (n : Nat) (hn : n < ushort) (f : σ → Nat → σ) : ∀ fuel ii s, ii ≤ n → n - ii ≤ fuel →
    loop n f fuel ii s = some ((List.range' ii (n - ii)).foldl f s) := by
  intro fuel
  induction fuel with
  | zero =>
    intro ii s h1 h2
    unfold loop
    rw [if_neg (by omega), show n - ii = 0 by omega]; rfl
  | succ fuel ih =>
    intro ii s h1 h2
    unfold loop
    by_cases h : ii < n
    · rw [if_pos h, Nat.mod_eq_of_lt (by omega), ih (ii + 1) (f s ii) (by omega) (by omega)]
      have : n - ii = (n - (ii + 1)) + 1 := by omega
      rw [this, List.range'_succ, List.foldl_cons]
    · rw [if_neg h, show n - ii = 0 by omega]; rfl

/-- and never ends otherwise -/
theorem loop_never {σ : Type} (n : Nat) (hn : ushort ≤ n) (f : σ → Nat → σ) : ∀ fuel ii s, ii < ushort → loop n f fuel ii s = none := by
  intro fuel
  induction fuel with
  | zero => intro ii s h; unfold loop; rw [if_pos (by omega)]
  | succ fuel ih =>
    intro ii s h
    unfold loop
    rw [if_pos (by omega)]
    exact ih _ _ (Nat.mod_lt _ (by decide))

/-- the sums as sums over the points -/
def sums (l : List Meas) : Sums := l.foldl (fun s m => addPoint s m.x m.y m.err2) Sums.zero

/-- weight of a point -/
def wt (m : Meas) : ℚ := 1 / m.err2

theorem sums_aux (l : List Meas) : ∀ s : Sums, l.foldl (fun s m => addPoint s m.x m.y m.err2) s =
    ⟨s.sum + (l.map wt).sum, s.sumx + (l.map (fun m => wt m * m.x)).sum, s.sumy + (l.map (fun m => wt m * m.y)).sum,
     s.sumxy + (l.map (fun m => wt m * m.x * m.y)).sum, s.sumx2 + (l.map (fun m => wt m * m.x * m.x)).sum, s.sumy2 + (l.map (fun m => wt m * m.y * m.y)).sum⟩ := by
  induction l with
  | nil => intro s; simp
  | cons m l ih =>
    intro s
    rw [List.foldl_cons, ih]
    simp only [addPoint, List.map_cons, List.sum_cons, wt, Sums.mk.injEq]
    refine ⟨?_, ?_, ?_, ?_, ?_, ?_⟩ <;> ring

/-- expansion of the sum of squares -/
theorem chi2_expand (l : List Meas) (a b : ℚ) : chi2 l a b = (l.map (fun m => wt m * m.y * m.y)).sum + a * a * (l.map wt).sum +
    b * b * (l.map (fun m => wt m * m.x * m.x)).sum - 2 * (a * (l.map (fun m => wt m * m.y)).sum + b * (l.map (fun m => wt m * m.x * m.y)).sum -
    a * b * (l.map (fun m => wt m * m.x)).sum) := by
  unfold chi2
  induction l with
  | nil => simp
  | cons m l ih =>
    simp only [List.map_cons, List.sum_cons, ih]
    unfold wt
    ring

theorem chi2_nonneg (l : List Meas) (h : ∀ m ∈ l, 0 < m.err2) (a b : ℚ) : 0 ≤ chi2 l a b := by
  unfold chi2
  apply List.sum_nonneg
  intro t ht
  obtain ⟨m, hm, rfl⟩ := List.mem_map.1 ht
  exact div_nonneg (sq_nonneg _) (h m hm).le

theorem wt_sum_pos (l : List Meas) (h : ∀ m ∈ l, 0 < m.err2) (hl : l ≠ []) : 0 < (l.map wt).sum := by
  cases l with
  | nil => exact absurd rfl hl
  | cons m l =>
    simp only [List.map_cons, List.sum_cons]
    have h1 : 0 < wt m := by unfold wt; have := h m (by simp); positivity
    have h2 : 0 ≤ (l.map wt).sum := by
      apply List.sum_nonneg
      intro t ht
      obtain ⟨m', hm', rfl⟩ := List.mem_map.1 ht
      unfold wt; have := h m' (List.mem_cons_of_mem _ hm'); positivity
    linarith

/-- sum of weighted squared distances of x to a reference -/
theorem delta_ident (l : List Meas) (c : ℚ) : (l.map (fun m => wt m * (m.x - c) ^ 2)).sum =
    (l.map (fun m => wt m * m.x * m.x)).sum - 2 * c * (l.map (fun m => wt m * m.x)).sum + c ^ 2 * (l.map wt).sum := by
  induction l with
  | nil => simp
  | cons m l ih => simp only [List.map_cons, List.sum_cons, ih]; ring

/-- `delta` is never negative, and zero exactly if all x agree -/
theorem delta_pos (l : List Meas) (h : ∀ m ∈ l, 0 < m.err2) (hl : l ≠ []) :
    0 ≤ (l.map wt).sum * (l.map (fun m => wt m * m.x * m.x)).sum - (l.map (fun m => wt m * m.x)).sum * (l.map (fun m => wt m * m.x)).sum ∧
    ((l.map wt).sum * (l.map (fun m => wt m * m.x * m.x)).sum - (l.map (fun m => wt m * m.x)).sum * (l.map (fun m => wt m * m.x)).sum = 0 ↔
      ∀ m ∈ l, ∀ m' ∈ l, m.x = m'.x) := by
  have hS := wt_sum_pos l h hl
  have hd := delta_ident l ((l.map (fun m => wt m * m.x)).sum / (l.map wt).sum)
  generalize hSe : (l.map wt).sum = S at *
  generalize hSx : (l.map (fun m => wt m * m.x)).sum = Sx at *
  generalize hSxx : (l.map (fun m => wt m * m.x * m.x)).sum = Sxx at *
  have key : S * Sxx - Sx * Sx = S * (l.map (fun m => wt m * (m.x - Sx / S) ^ 2)).sum := by
    rw [hd]; field_simp; ring
  have hterm : ∀ t ∈ l.map (fun m => wt m * (m.x - Sx / S) ^ 2), 0 ≤ t := by
    intro t ht
    obtain ⟨m, hm, rfl⟩ := List.mem_map.1 ht
    have : 0 < wt m := by unfold wt; have := h m hm; positivity
    exact mul_nonneg this.le (sq_nonneg _)
  have hnn := List.sum_nonneg hterm
  refine ⟨by rw [key]; exact mul_nonneg hS.le hnn, ?_⟩
  rw [key]
  constructor
  · intro h0
    have hz : (l.map (fun m => wt m * (m.x - Sx / S) ^ 2)).sum = 0 := by
      rcases mul_eq_zero.1 h0 with h0 | h0
      · linarith
      · exact h0
    have hall : ∀ m ∈ l, m.x = Sx / S := by
      intro m hm
      have h1 : wt m * (m.x - Sx / S) ^ 2 ≤ (l.map (fun m => wt m * (m.x - Sx / S) ^ 2)).sum :=
        List.single_le_sum hterm _ (List.mem_map.2 ⟨m, hm, rfl⟩)
      have h2 : 0 < wt m := by unfold wt; have := h m hm; positivity
      have h3 : (m.x - Sx / S) ^ 2 ≤ 0 := by
        by_contra hc
        have := mul_pos h2 (not_le.1 hc)
        linarith
      have h4 : m.x - Sx / S = 0 := by
        have := le_antisymm h3 (sq_nonneg _)
        exact pow_eq_zero_iff (two_ne_zero) |>.1 this
      linarith
    intro m hm m' hm'
    rw [hall m hm, hall m' hm']
  · intro hx
    obtain ⟨m0, t, rfl⟩ := List.exists_cons_of_ne_nil hl
    have hc : Sx = m0.x * S := by
      rw [← hSx, ← hSe]
      have : ∀ l : List Meas, (∀ m ∈ l, m.x = m0.x) → (l.map (fun m => wt m * m.x)).sum = m0.x * (l.map wt).sum := by
        intro l
        induction l with
        | nil => intro _; simp
        | cons a l ih =>
          intro hh
          simp only [List.map_cons, List.sum_cons, ih (fun m hm => hh m (List.mem_cons_of_mem _ hm)), hh a (by simp)]; ring
      exact this _ (fun m hm => hx m hm m0 (by simp))
    have hq : Sx / S = m0.x := by rw [hc]; field_simp
    have : (List.map (fun m => wt m * (m.x - Sx / S) ^ 2) (m0 :: t)).sum = 0 := by
      have hz : ∀ t' ∈ List.map (fun m => wt m * (m.x - Sx / S) ^ 2) (m0 :: t), t' = 0 := by
        intro t' ht'
        obtain ⟨m, hm, rfl⟩ := List.mem_map.1 ht'
        rw [hq, hx m hm m0 (by simp)]; simp
      exact List.sum_eq_zero hz
    rw [this]; simp

theorem foldl_points {σ : Type} (g : σ → Meas → σ) (x y ey2 : List ℚ) (s : σ) :
    (List.range' 0 (y.length - 0)).foldl (fun s i => g s ⟨x.getD i 0, y.getD i 0, ey2.getD i 0⟩) s = (points x y ey2).foldl g s := by
  unfold points
  rw [List.foldl_map, Nat.sub_zero, List.range_eq_range']

/-- the call in closed form -/
theorem linFit_eq (x y ey2 : List ℚ) (fuel : Nat) (h2 : 2 ≤ y.length) (hx : y.length ≤ x.length) (he : y.length ≤ ey2.length)
    (hu : y.length < ushort) (hf : y.length ≤ fuel) :
    linFit fuel x y ey2 = finish x.length (sums (points x y ey2)) (fun A B => some (chi2 (points x y ey2) A B)) := by
  unfold linFit
  rw [if_neg (by omega), if_neg (by omega), loop_ok y.length hu _ fuel 0 Sums.zero (by omega) (by omega)]
  simp only []
  have e1 := foldl_points (fun s m => addPoint s m.x m.y m.err2) x y ey2 Sums.zero
  rw [e1]
  congr 1
  funext A B
  rw [loop_ok y.length hu _ fuel 0 0 (by omega) (by omega)]
  have e2 := foldl_points (fun c m => c + (m.y - A - B * m.x) * (m.y - A - B * m.x) / m.err2) x y ey2 0
  simp only [] at e2
  rw [e2]
  congr 1
  unfold chi2
  generalize points x y ey2 = l
  suffices H : ∀ c : ℚ, l.foldl (fun c m => c + (m.y - A - B * m.x) * (m.y - A - B * m.x) / m.err2) c = c + (l.map (fun m => (m.y - A - B * m.x) ^ 2 / m.err2)).sum by
    rw [H]; ring
  induction l with
  | nil => intro c; simp
  | cons m l ih =>
    intro c
    rw [List.foldl_cons, ih]
    simp only [List.map_cons, List.sum_cons]; ring

/-- the valid inputs: at least two points, vectors long enough, positive errors, and few enough points for the loop counter -/
structure Valid (x y ey2 : List ℚ) : Prop where
  two : 2 ≤ y.length
  hx : y.length ≤ x.length
  he : y.length ≤ ey2.length
  hu : y.length < 65536
  hpos : ∀ m ∈ points x y ey2, 0 < m.err2

theorem points_ne {x y ey2 : List ℚ} (h : Valid x y ey2) : points x y ey2 ≠ [] := by
  have := h.two
  intro he
  have hl := congrArg List.length he
  unfold points at hl
  simp at hl
  rw [hl] at this
  simp at this

/-- the minimum of the quadratic form -/
theorem min_form (S Sx Sy Sxy Sxx Syy : ℚ) (hS : 0 < S) (hd : 0 < S * Sxx - Sx * Sx) (a b : ℚ) :
    let A := (Sxx * Sy - Sx * Sxy) / (S * Sxx - Sx * Sx)
    let B := (Sxy * S - Sx * Sy) / (S * Sxx - Sx * Sx)
    S * ((Syy + a * a * S + b * b * Sxx - 2 * (a * Sy + b * Sxy - a * b * Sx)) - (Syy + A * A * S + B * B * Sxx - 2 * (A * Sy + B * Sxy - A * B * Sx))) =
      (S * (a - A) + Sx * (b - B)) ^ 2 + (S * Sxx - Sx * Sx) * (b - B) ^ 2 := by
  intro A B
  have hA : A * (S * Sxx - Sx * Sx) = Sxx * Sy - Sx * Sxy := div_mul_cancel₀ _ hd.ne'
  have hB : B * (S * Sxx - Sx * Sx) = Sxy * S - Sx * Sy := div_mul_cancel₀ _ hd.ne'
  -- normal equations
  have n1 : A * S + B * Sx = Sy := by
    have : (A * S + B * Sx) * (S * Sxx - Sx * Sx) = Sy * (S * Sxx - Sx * Sx) := by
      have : (A * S + B * Sx) * (S * Sxx - Sx * Sx) = (A * (S * Sxx - Sx * Sx)) * S + (B * (S * Sxx - Sx * Sx)) * Sx := by ring
      rw [this, hA, hB]; ring
    exact mul_right_cancel₀ hd.ne' this
  have n2 : A * Sx + B * Sxx = Sxy := by
    have : (A * Sx + B * Sxx) * (S * Sxx - Sx * Sx) = Sxy * (S * Sxx - Sx * Sx) := by
      have : (A * Sx + B * Sxx) * (S * Sxx - Sx * Sx) = (A * (S * Sxx - Sx * Sx)) * Sx + (B * (S * Sxx - Sx * Sx)) * Sxx := by ring
      rw [this, hA, hB]; ring
    exact mul_right_cancel₀ hd.ne' this
  clear_value A B
  subst n1; subst n2
  ring

/-- C53. On valid input whose x values are not all equal, the call returns a line; it minimises the weighted sum of squared residuals, and no
other line does. -/
theorem C53_least_squares (x y ey2 : List ℚ) (hv : Valid x y ey2) (fuel : Nat) (hf : y.length ≤ fuel)
    (hx : ∃ m ∈ points x y ey2, ∃ m' ∈ points x y ey2, m.x ≠ m'.x) : ∃ o A B, linFit fuel x y ey2 = some o ∧ o.intercept = some A ∧ o.slope = some B ∧
    (∀ a b, chi2 (points x y ey2) A B ≤ chi2 (points x y ey2) a b) ∧
    (∀ a b, chi2 (points x y ey2) a b ≤ chi2 (points x y ey2) A B → a = A ∧ b = B) ∧
    (x.length = 2 → o.chiDOF = 0) ∧ (x.length ≠ 2 → o.chiDOF = chi2 (points x y ey2) A B / ((x.length : ℚ) - 2)) ∧
    (x.length ≠ 2 → o.slopeErr2 = some (o.chiDOF * ((points x y ey2).map wt).sum /
      (((points x y ey2).map wt).sum * ((points x y ey2).map (fun m => wt m * m.x * m.x)).sum - ((points x y ey2).map (fun m => wt m * m.x)).sum ^ 2))) := by
  rw [linFit_eq x y ey2 fuel hv.two hv.hx hv.he hv.hu hf]
  have hne := points_ne hv
  obtain ⟨hd0, hdz⟩ := delta_pos (points x y ey2) hv.hpos hne
  have hS := wt_sum_pos (points x y ey2) hv.hpos hne
  have hdpos : 0 < ((points x y ey2).map wt).sum * ((points x y ey2).map (fun m => wt m * m.x * m.x)).sum -
      ((points x y ey2).map (fun m => wt m * m.x)).sum * ((points x y ey2).map (fun m => wt m * m.x)).sum := by
    refine lt_of_le_of_ne hd0 (fun h => ?_)
    obtain ⟨m, hm, m', hm', hne⟩ := hx
    exact hne (hdz.1 h.symm m hm m' hm')
  have hexp := chi2_expand (points x y ey2)
  have hnn := chi2_nonneg (points x y ey2) hv.hpos
  have hsums : sums (points x y ey2) = _ := sums_aux (points x y ey2) Sums.zero
  simp only [Sums.zero, zero_add] at hsums
  rw [hsums]
  have hlen : (x.length ≠ 2) → (0 : ℚ) < (x.length : ℚ) - 2 := by
    intro h
    have h1 := hv.two
    have h2 := hv.hx
    have h3 : 3 ≤ x.length := by omega
    have : (3 : ℚ) ≤ (x.length : ℚ) := by exact_mod_cast h3
    linarith
  generalize points x y ey2 = l at *
  clear hx hdz hd0 hsums hv hf
  unfold finish
  simp only []
  rw [if_neg hdpos.ne']
  generalize (l.map wt).sum = S at *
  generalize (l.map (fun m => wt m * m.x)).sum = Sx at *
  generalize (l.map (fun m => wt m * m.y)).sum = Sy at *
  generalize (l.map (fun m => wt m * m.x * m.y)).sum = Sxy at *
  generalize (l.map (fun m => wt m * m.x * m.x)).sum = Sxx at *
  generalize (l.map (fun m => wt m * m.y * m.y)).sum = Syy at *
  have hmin := min_form S Sx Sy Sxy Sxx Syy hS hdpos
  simp only [] at hmin
  generalize (Sxx * Sy - Sx * Sxy) / (S * Sxx - Sx * Sx) = A at *
  generalize (Sxy * S - Sx * Sy) / (S * Sxx - Sx * Sx) = B at *
  have hform : ∀ a b, S * (chi2 l a b - chi2 l A B) = (S * (a - A) + Sx * (b - B)) ^ 2 + (S * Sxx - Sx * Sx) * (b - B) ^ 2 := by
    intro a b; rw [hexp, hexp, ← hmin a b]
  have hle : ∀ a b, chi2 l A B ≤ chi2 l a b := by
    intro a b
    have h1 : 0 ≤ S * (chi2 l a b - chi2 l A B) := by
      rw [hform]; exact add_nonneg (sq_nonneg _) (mul_nonneg hdpos.le (sq_nonneg _))
    have := nonneg_of_mul_nonneg_right h1 hS
    linarith
  have huniq : ∀ a b, chi2 l a b ≤ chi2 l A B → a = A ∧ b = B := by
    intro a b h
    have h1 : (S * (a - A) + Sx * (b - B)) ^ 2 + (S * Sxx - Sx * Sx) * (b - B) ^ 2 ≤ 0 := by
      rw [← hform]; exact mul_nonpos_of_nonneg_of_nonpos hS.le (by linarith)
    have h2 := sq_nonneg (S * (a - A) + Sx * (b - B))
    have h3 : (S * Sxx - Sx * Sx) * (b - B) ^ 2 ≤ 0 := by linarith
    have h4 : (b - B) ^ 2 = 0 := by
      refine le_antisymm ?_ (sq_nonneg _)
      by_contra hc
      have := mul_pos hdpos (not_le.1 hc)
      linarith
    have hb : b - B = 0 := pow_eq_zero_iff two_ne_zero |>.1 h4
    rw [hb] at h1
    have h5 : (S * (a - A)) ^ 2 = 0 := le_antisymm (by simpa using h1) (sq_nonneg _)
    have h6 : S * (a - A) = 0 := pow_eq_zero_iff two_ne_zero |>.1 h5
    have ha : a - A = 0 := by
      rcases mul_eq_zero.1 h6 with h | h
      · exact absurd h hS.ne'
      · exact h
    exact ⟨by linarith, by linarith⟩
  by_cases h2 : x.length = 2
  · rw [if_pos h2]
    exact ⟨_, A, B, rfl, rfl, rfl, hle, huniq, fun _ => rfl, fun h => absurd h2 h, fun h => absurd h2 h⟩
  · rw [if_neg h2]
    have hn := hlen h2
    have hvar : (Syy + A * A * S + B * B * Sxx - 2 * (A * Sy + B * Sxy - A * B * Sx)) = chi2 l A B := (hexp A B).symm
    rw [hvar]
    by_cases hv : chi2 l A B / ((x.length : ℚ) - 2) > 0
    · rw [if_pos hv]
      refine ⟨_, A, B, rfl, rfl, rfl, hle, huniq, fun h => absurd h h2, fun _ => rfl, fun _ => ?_⟩
      simp only [pow_two]
    · rw [if_neg hv]
      have hz : chi2 l A B / ((x.length : ℚ) - 2) = 0 := le_antisymm (not_lt.1 hv) (div_nonneg (hnn A B) hn.le)
      refine ⟨_, A, B, rfl, rfl, rfl, hle, huniq, fun h => absurd h h2, fun _ => rfl, fun _ => ?_⟩
      simp only [hz]; simp

/-- C53. Points on a line are fitted exactly, with zero chi-square. -/
theorem C53_exact (x y ey2 : List ℚ) (hv : Valid x y ey2) (fuel : Nat) (hf : y.length ≤ fuel)
    (hx : ∃ m ∈ points x y ey2, ∃ m' ∈ points x y ey2, m.x ≠ m'.x) (a b : ℚ) (hl : ∀ m ∈ points x y ey2, m.y = a + b * m.x) :
    ∃ o, linFit fuel x y ey2 = some o ∧ o.intercept = some a ∧ o.slope = some b ∧ o.chiDOF = 0 := by
  obtain ⟨o, A, B, h1, h2, h3, h4, h5, h6, h7, -⟩ := C53_least_squares x y ey2 hv fuel hf hx
  have hz : chi2 (points x y ey2) a b = 0 := by
    unfold chi2
    apply List.sum_eq_zero
    intro t ht
    obtain ⟨m, hm, rfl⟩ := List.mem_map.1 ht
    rw [hl m hm]; ring
  have hnn := chi2_nonneg (points x y ey2) hv.hpos A B
  obtain ⟨ea, eb⟩ := h5 a b (by rw [hz]; exact hnn)
  subst ea; subst eb
  refine ⟨o, h1, h2, h3, ?_⟩
  by_cases h : x.length = 2
  · exact h6 h
  · rw [h7 h, hz]; simp

/-- C53. If all x values agree nothing is fitted: no output is written and the quality is 999. -/
theorem C53_degenerate (x y ey2 : List ℚ) (hv : Valid x y ey2) (fuel : Nat) (hf : y.length ≤ fuel)
    (hx : ∀ m ∈ points x y ey2, ∀ m' ∈ points x y ey2, m.x = m'.x) : linFit fuel x y ey2 = some ⟨none, none, none, none, 999⟩ := by
  rw [linFit_eq x y ey2 fuel hv.two hv.hx hv.he hv.hu hf]
  have hd := (delta_pos (points x y ey2) hv.hpos (points_ne hv)).2.2 hx
  have hsums : sums (points x y ey2) = _ := sums_aux (points x y ey2) Sums.zero
  simp only [Sums.zero, zero_add] at hsums
  rw [hsums]
  unfold finish
  simp only []
  rw [if_pos hd]

/-- hypotheses met: three points -/
example : Valid [0, 1, 2] [1, 3, 5] [1, 2, 1] := ⟨by decide, by decide, by decide, by decide, by decide +kernel⟩
example : linFit 10 [0, 1, 2] [1, 3, 5] [1, 2, 1] = some ⟨some 1, some 2, some 0, some 0, 0⟩ := by decide +kernel

/-! ### C77 -/

/-- C77, what holds: for fewer than 65536 points the call finishes after at most that many rounds of each loop. Missing: more points (false,
`C77_refuted`). -/
theorem C77_finishes_partial (x y ey2 : List ℚ) (h : y.length < 65536) (fuel : Nat) (hf : y.length ≤ fuel) : ∃ o, linFit fuel x y ey2 = some o := by
  by_cases h1 : y.length < 2
  · exact ⟨_, by unfold linFit; rw [if_pos h1]⟩
  · by_cases h2 : x.length < y.length ∨ ey2.length < y.length
    · exact ⟨_, by unfold linFit; rw [if_neg h1, if_pos h2]⟩
    · rw [linFit_eq x y ey2 fuel (by omega) (by omega) (by omega) h hf]
      unfold finish
      simp only []
      split
      · exact ⟨_, rfl⟩
      · split
        · exact ⟨_, rfl⟩
        · split <;> exact ⟨_, rfl⟩

/-- C77 is false: with 65536 or more points the loop counter (an `unsigned short`) wraps and the call never finishes -/
theorem C77_refuted (x y ey2 : List ℚ) (h : 65536 ≤ y.length) (hx : y.length ≤ x.length) (he : y.length ≤ ey2.length) (fuel : Nat) :
    linFit fuel x y ey2 = none := by
  unfold linFit
  rw [if_neg (by omega), if_neg (by omega), loop_never y.length h _ fuel 0 _ (by decide)]

example : 65536 ≤ (List.replicate 65536 (1 : ℚ)).length := by rw [List.length_replicate]

/-- C77 is false: with more x than y values ("the number of points fit is defined by the size of the y vector") the chi-square is divided by the
wrong number of degrees of freedom: three points, chi-square 2/3, one degree of freedom, reported quality 1/3 -/
theorem C77_ndof_refuted : linFit 10 [0, 1, 2, 3] [0, 1, 0] [1, 1, 1] = some ⟨some (1/3), some 0, some (5/18), some (1/6), 1/3⟩ ∧
    chi2 (points [0, 1, 2, 3] [0, 1, 0] [1, 1, 1]) (1/3) 0 / ((points [0, 1, 2, 3] [0, 1, 0] [1, 1, 1]).length - 2) = 2/3 := by
  refine ⟨by decide +kernel, by decide +kernel⟩

end Verif.LinFit

import Verif.SpacePoint.SpProofs
import Mathlib.Tactic.Positivity
import Mathlib.Tactic.LinearCombination
import Mathlib.Tactic.NormNum
/-!
# C157: the position of a space point is the weighted least-squares solution
-/
namespace Verif.SpAlg

theorem sumOf_add (l : List Hit) (f f' : Hit → ℚ) : sumOf l (fun h => f h + f' h) = sumOf l f + sumOf l f' := by
  unfold sumOf
  induction l with
  | nil => simp
  | cons a l ih => simp only [List.map_cons, List.sum_cons, ih]; ring

theorem sumOf_mul (l : List Hit) (k : ℚ) (f : Hit → ℚ) : sumOf l (fun h => k * f h) = k * sumOf l f := by
  unfold sumOf
  induction l with
  | nil => simp
  | cons a l ih => simp only [List.map_cons, List.sum_cons, ih]; ring

theorem sumOf_congr (l : List Hit) (f f' : Hit → ℚ) (h : ∀ x ∈ l, f x = f' x) : sumOf l f = sumOf l f' := by
  unfold sumOf
  rw [List.map_congr_left h]

theorem sumOf_nonneg (l : List Hit) (f : Hit → ℚ) (h : ∀ x ∈ l, 0 ≤ f x) : 0 ≤ sumOf l f := by
  unfold sumOf
  apply List.sum_nonneg
  intro y hy
  obtain ⟨x, hx, rfl⟩ := List.mem_map.1 hy
  exact h x hx

theorem sumOf_zero (l : List Hit) (f : Hit → ℚ) (h : ∀ x ∈ l, 0 ≤ f x) (hz : sumOf l f ≤ 0) : ∀ x ∈ l, f x = 0 := by
  induction l with
  | nil => intro x hx; cases hx
  | cons a l ih =>
    have h1 := h a (by simp)
    have h2 := sumOf_nonneg l f (fun x hx => h x (by simp [hx]))
    have e : sumOf (a :: l) f = f a + sumOf l f := by unfold sumOf; simp
    rw [e] at hz
    intro x hx
    rcases List.mem_cons.1 hx with rfl | hx
    · linarith
    · exact ih (fun x hx => h x (by simp [hx])) (by linarith) x hx

/-! ## Specification -/

/-- weighted sum of squared differences of the hit times from `τ` -/
def timeChi (g : Geo) (w : Hit → ℚ) (hits : List Hit) (τ : ℚ) : ℚ := sumOf hits (fun h => w h * (g.time h - τ) ^ 2)

/-- weighted sum of squared distances of the point (y, z) from the wires of the hits -/
def wireChi (g : Geo) (w : Hit → ℚ) (hits : List Hit) (y z : ℚ) : ℚ :=
  sumOf hits (fun h => w h * ((g.of h).u - (z * (g.of h).s - y * (g.of h).c)) ^ 2)

/-- two hits of the list are on wires that are not parallel -/
def NotParallel (g : Geo) (hits : List Hit) : Prop :=
  ∃ a ∈ hits, ∃ b ∈ hits, (g.of a).s * (g.of b).c - (g.of b).s * (g.of a).c ≠ 0

theorem timeChi_eq (g : Geo) (w : Hit → ℚ) (hits : List Hit) (τ : ℚ) : timeChi g w hits τ =
    sumOf hits (fun h => w h * g.time h * g.time h) - 2 * τ * sumOf hits (fun h => w h * g.time h) + τ ^ 2 * sumOf hits w := by
  unfold timeChi
  have : ∀ h ∈ hits, w h * (g.time h - τ) ^ 2 = (w h * g.time h * g.time h + (-2 * τ) * (w h * g.time h)) + τ ^ 2 * w h := by
    intro h _; ring
  rw [sumOf_congr _ _ _ this, sumOf_add, sumOf_add, sumOf_mul, sumOf_mul]
  ring

theorem wireChi_eq (g : Geo) (w : Hit → ℚ) (hits : List Hit) (y z : ℚ) : wireChi g w hits y z =
    sumOf hits (fun h => w h * (g.of h).u * (g.of h).u) - 2 * z * sumOf hits (fun h => w h * (g.of h).u * (g.of h).s) +
    2 * y * sumOf hits (fun h => w h * (g.of h).u * (g.of h).c) + z ^ 2 * sumOf hits (fun h => w h * (g.of h).s * (g.of h).s) -
    2 * y * z * sumOf hits (fun h => w h * (g.of h).s * (g.of h).c) + y ^ 2 * sumOf hits (fun h => w h * (g.of h).c * (g.of h).c) := by
  unfold wireChi
  have : ∀ h ∈ hits, w h * ((g.of h).u - (z * (g.of h).s - y * (g.of h).c)) ^ 2 =
      ((((w h * (g.of h).u * (g.of h).u + (-2 * z) * (w h * (g.of h).u * (g.of h).s)) + (2 * y) * (w h * (g.of h).u * (g.of h).c)) +
      z ^ 2 * (w h * (g.of h).s * (g.of h).s)) + (-2 * y * z) * (w h * (g.of h).s * (g.of h).c)) + y ^ 2 * (w h * (g.of h).c * (g.of h).c) := by
    intro h _; ring
  rw [sumOf_congr _ _ _ this, sumOf_add, sumOf_add, sumOf_add, sumOf_add, sumOf_add, sumOf_mul, sumOf_mul, sumOf_mul, sumOf_mul, sumOf_mul]
  ring

/-- **C157 (time).** With positive weights and at least one hit, the drift time is the weighted mean: no other time has a smaller weighted sum of squares,
and that smallest sum is the chi square recorded. -/
theorem time_least (g : Geo) (cx : Bool) (w : Hit → ℚ) (hits : List Hit) (hne : hits ≠ []) (hw : ∀ h ∈ hits, 0 < w h) (τ : ℚ) :
    (timeFit g cx w hits).2.2 = timeChi g w hits (timeFit g cx w hits).1 ∧
    timeChi g w hits (timeFit g cx w hits).1 ≤ timeChi g w hits τ ∧ 0 ≤ (timeFit g cx w hits).2.2 ∧
    (timeFit g cx w hits).2.1 = (if cx then timeChi g w hits (timeFit g cx w hits).1 / sumOf hits w else 1 / sumOf hits w) := by
  have hs : 0 < sumOf hits w := by
    obtain ⟨a, l, rfl⟩ := List.exists_cons_of_ne_nil hne
    have e : sumOf (a :: l) w = w a + sumOf l w := by unfold sumOf; simp
    rw [e]
    have := sumOf_nonneg l w (fun x hx => le_of_lt (hw x (by simp [hx])))
    have := hw a (by simp)
    linarith
  have hnn : 0 ≤ timeChi g w hits (sumOf hits (fun h => w h * g.time h) / sumOf hits w) :=
    sumOf_nonneg _ _ (fun x hx => mul_nonneg (le_of_lt (hw x hx)) (sq_nonneg _))
  have hall := timeChi_eq g w hits
  have e1 : (timeFit g cx w hits).1 = sumOf hits (fun h => w h * g.time h) / sumOf hits w := by
    unfold timeFit; simp [hs.ne']
  have hchi : sumOf hits (fun h => w h * g.time h * g.time h) - sumOf hits (fun h => w h * g.time h) * (sumOf hits (fun h => w h * g.time h) / sumOf hits w) =
      timeChi g w hits (sumOf hits (fun h => w h * g.time h) / sumOf hits w) := by
    rw [hall]; field_simp; ring
  have hvar : sumOf hits (fun h => w h * g.time h * g.time h) / sumOf hits w - (sumOf hits (fun h => w h * g.time h) / sumOf hits w) *
      (sumOf hits (fun h => w h * g.time h) / sumOf hits w) = timeChi g w hits (sumOf hits (fun h => w h * g.time h) / sumOf hits w) / sumOf hits w := by
    rw [hall]; field_simp; ring
  have e2 : (timeFit g cx w hits).2.2 = timeChi g w hits (sumOf hits (fun h => w h * g.time h) / sumOf hits w) := by
    unfold timeFit
    dsimp only
    rw [if_neg hs.ne']
    dsimp only
    rw [hchi, if_neg (not_lt.2 hnn)]
  have e3 : (timeFit g cx w hits).2.1 = (if cx then timeChi g w hits (sumOf hits (fun h => w h * g.time h) / sumOf hits w) / sumOf hits w else 1 / sumOf hits w) := by
    unfold timeFit
    dsimp only
    rw [if_neg hs.ne']
    dsimp only
    rw [hvar]
    cases cx
    · simp only [Bool.false_eq_true, if_false]
      rw [if_neg (not_lt.2 (by positivity))]
    · simp only [if_true]
      rw [if_neg (not_lt.2 (div_nonneg hnn hs.le))]
  refine ⟨by rw [e1, e2], ?_, by rw [e2]; exact hnn, by rw [e1, e3]⟩
  rw [e1, ← sub_nonneg]
  have : timeChi g w hits τ - timeChi g w hits (sumOf hits (fun h => w h * g.time h) / sumOf hits w) =
      sumOf hits w * (τ - sumOf hits (fun h => w h * g.time h) / sumOf hits w) ^ 2 := by
    rw [hall, hall]; field_simp; ring
  rw [this]
  exact mul_nonneg hs.le (sq_nonneg _)

theorem denom_pos (g : Geo) (w : Hit → ℚ) (hits : List Hit) (hw : ∀ h ∈ hits, 0 < w h) (hp : NotParallel g hits) :
    0 < sumOf hits (fun h => w h * (g.of h).c * (g.of h).c) * sumOf hits (fun h => w h * (g.of h).s * (g.of h).s) -
      sumOf hits (fun h => w h * (g.of h).s * (g.of h).c) * sumOf hits (fun h => w h * (g.of h).s * (g.of h).c) := by
  obtain ⟨a, ha, b, hb, hab⟩ := hp
  -- the quadratic form in (α, β) is positive away from zero
  have form : ∀ α β : ℚ, sumOf hits (fun h => w h * (α * (g.of h).s - β * (g.of h).c) ^ 2) =
      α ^ 2 * sumOf hits (fun h => w h * (g.of h).s * (g.of h).s) - 2 * α * β * sumOf hits (fun h => w h * (g.of h).s * (g.of h).c) +
      β ^ 2 * sumOf hits (fun h => w h * (g.of h).c * (g.of h).c) := by
    intro α β
    have : ∀ h ∈ hits, w h * (α * (g.of h).s - β * (g.of h).c) ^ 2 = (α ^ 2 * (w h * (g.of h).s * (g.of h).s) +
        (-2 * α * β) * (w h * (g.of h).s * (g.of h).c)) + β ^ 2 * (w h * (g.of h).c * (g.of h).c) := by intro h _; ring
    rw [sumOf_congr _ _ _ this, sumOf_add, sumOf_add, sumOf_mul, sumOf_mul, sumOf_mul]; ring
  have hnn : ∀ α β : ℚ, ∀ x ∈ hits, 0 ≤ w x * (α * (g.of x).s - β * (g.of x).c) ^ 2 :=
    fun α β x hx => mul_nonneg (le_of_lt (hw x hx)) (sq_nonneg _)
  have pos : ∀ α β : ℚ, (α ≠ 0 ∨ β ≠ 0) → 0 < sumOf hits (fun h => w h * (α * (g.of h).s - β * (g.of h).c) ^ 2) := by
    intro α β hne
    by_contra hle
    have hz := sumOf_zero hits _ (hnn α β) (not_lt.1 hle)
    have h1 : α * (g.of a).s - β * (g.of a).c = 0 := by
      have := hz a ha
      rcases mul_eq_zero.1 this with h | h
      · exact absurd h (hw a ha).ne'
      · exact pow_eq_zero_iff (two_ne_zero) |>.1 h
    have h2 : α * (g.of b).s - β * (g.of b).c = 0 := by
      have := hz b hb
      rcases mul_eq_zero.1 this with h | h
      · exact absurd h (hw b hb).ne'
      · exact pow_eq_zero_iff (two_ne_zero) |>.1 h
    have hα : α * ((g.of a).s * (g.of b).c - (g.of b).s * (g.of a).c) = 0 := by linear_combination (g.of b).c * h1 - (g.of a).c * h2
    have hβ : β * ((g.of a).s * (g.of b).c - (g.of b).s * (g.of a).c) = 0 := by linear_combination (g.of b).s * h1 - (g.of a).s * h2
    rcases hne with h | h
    · exact (mul_ne_zero h hab) hα
    · exact (mul_ne_zero h hab) hβ
  have p1 := pos 1 0 (Or.inl one_ne_zero)
  rw [form] at p1
  have p2 := pos (sumOf hits (fun h => w h * (g.of h).s * (g.of h).c)) (sumOf hits (fun h => w h * (g.of h).s * (g.of h).s)) (Or.inr (by intro h; rw [h] at p1; norm_num at p1))
  rw [form] at p2
  generalize sumOf hits (fun h => w h * (g.of h).s * (g.of h).s) = S at *
  generalize sumOf hits (fun h => w h * (g.of h).c * (g.of h).c) = C at *
  generalize sumOf hits (fun h => w h * (g.of h).s * (g.of h).c) = X at *
  have hS : 0 < S := by linarith
  have : 0 < S * (C * S - X * X) := by linarith
  exact (pos_iff_pos_of_mul_pos this).1 hS

/-- **C157 (wires).** With positive weights and wires that are not all parallel, y and z are the point with the smallest weighted sum of squared distances
from the wires. -/
theorem wire_least (g : Geo) (w : Hit → ℚ) (hits : List Hit) (hw : ∀ h ∈ hits, 0 < w h) (hp : NotParallel g hits) (y z : ℚ) :
    wireChi g w hits (wireFit g w hits).1 (wireFit g w hits).2.1 ≤ wireChi g w hits y z := by
  have hd := denom_pos g w hits hw hp
  have e1 : (wireFit g w hits).1 = (-sumOf hits (fun h => w h * (g.of h).u * (g.of h).c) * sumOf hits (fun h => w h * (g.of h).s * (g.of h).s) +
      sumOf hits (fun h => w h * (g.of h).u * (g.of h).s) * sumOf hits (fun h => w h * (g.of h).s * (g.of h).c)) /
      (sumOf hits (fun h => w h * (g.of h).c * (g.of h).c) * sumOf hits (fun h => w h * (g.of h).s * (g.of h).s) -
      sumOf hits (fun h => w h * (g.of h).s * (g.of h).c) * sumOf hits (fun h => w h * (g.of h).s * (g.of h).c)) := by
    unfold wireFit; dsimp only; rw [if_neg hd.ne']
  have e2 : (wireFit g w hits).2.1 = (sumOf hits (fun h => w h * (g.of h).u * (g.of h).s) * sumOf hits (fun h => w h * (g.of h).c * (g.of h).c) -
      sumOf hits (fun h => w h * (g.of h).u * (g.of h).c) * sumOf hits (fun h => w h * (g.of h).s * (g.of h).c)) /
      (sumOf hits (fun h => w h * (g.of h).c * (g.of h).c) * sumOf hits (fun h => w h * (g.of h).s * (g.of h).s) -
      sumOf hits (fun h => w h * (g.of h).s * (g.of h).c) * sumOf hits (fun h => w h * (g.of h).s * (g.of h).c)) := by
    unfold wireFit; dsimp only; rw [if_neg hd.ne']
  have hq : ∀ α β : ℚ, 0 ≤ α ^ 2 * sumOf hits (fun h => w h * (g.of h).s * (g.of h).s) - 2 * α * β * sumOf hits (fun h => w h * (g.of h).s * (g.of h).c) +
      β ^ 2 * sumOf hits (fun h => w h * (g.of h).c * (g.of h).c) := by
    intro α β
    have : ∀ h ∈ hits, w h * (α * (g.of h).s - β * (g.of h).c) ^ 2 = (α ^ 2 * (w h * (g.of h).s * (g.of h).s) +
        (-2 * α * β) * (w h * (g.of h).s * (g.of h).c)) + β ^ 2 * (w h * (g.of h).c * (g.of h).c) := by intro h _; ring
    have e := sumOf_congr hits _ _ this
    rw [sumOf_add, sumOf_add, sumOf_mul, sumOf_mul, sumOf_mul] at e
    have := sumOf_nonneg hits (fun h => w h * (α * (g.of h).s - β * (g.of h).c) ^ 2) (fun x hx => mul_nonneg (le_of_lt (hw x hx)) (sq_nonneg _))
    linarith
  rw [wireChi_eq, wireChi_eq, e1, e2]
  generalize sumOf hits (fun h => w h * (g.of h).s * (g.of h).s) = S at *
  generalize sumOf hits (fun h => w h * (g.of h).c * (g.of h).c) = C at *
  generalize sumOf hits (fun h => w h * (g.of h).s * (g.of h).c) = X at *
  generalize sumOf hits (fun h => w h * (g.of h).u * (g.of h).s) = P at *
  generalize sumOf hits (fun h => w h * (g.of h).u * (g.of h).c) = Q at *
  generalize sumOf hits (fun h => w h * (g.of h).u * (g.of h).u) = U at *
  have hD : C * S - X * X ≠ 0 := hd.ne'
  have h1 := hq (z - (P * C - Q * X) / (C * S - X * X)) (y - (-Q * S + P * X) / (C * S - X * X))
  rw [← sub_nonneg]
  refine le_of_le_of_eq h1 ?_
  have n1 : (P * C - Q * X) / (C * S - X * X) * S - (-Q * S + P * X) / (C * S - X * X) * X = P := by
    rw [div_mul_eq_mul_div, div_mul_eq_mul_div, ← sub_div, div_eq_iff hD]; ring
  have n2 : (-Q * S + P * X) / (C * S - X * X) * C - (P * C - Q * X) / (C * S - X * X) * X = -Q := by
    rw [div_mul_eq_mul_div, div_mul_eq_mul_div, ← sub_div, div_eq_iff hD]; ring
  generalize (P * C - Q * X) / (C * S - X * X) = zz at *
  generalize (-Q * S + P * X) / (C * S - X * X) = yy at *
  linear_combination (-2) * (z - zz) * n1 - 2 * (y - yy) * n2

/-- **C157 (two hits).** A point made of two hits on wires that cross lies on both wires. -/
theorem two_hits_on_wires (g : Geo) (w : Hit → ℚ) (a b : Hit) (ha : 0 < w a) (hb : 0 < w b)
    (hp : (g.of a).s * (g.of b).c - (g.of b).s * (g.of a).c ≠ 0) :
    (wireFit g w [a, b]).2.1 * (g.of a).s - (wireFit g w [a, b]).1 * (g.of a).c = (g.of a).u ∧
    (wireFit g w [a, b]).2.1 * (g.of b).s - (wireFit g w [a, b]).1 * (g.of b).c = (g.of b).u := by
  have hw : ∀ h ∈ [a, b], 0 < w h := by intro h hh; simp at hh; rcases hh with rfl | rfl <;> assumption
  let D := (g.of a).s * (g.of b).c - (g.of b).s * (g.of a).c
  let z0 := ((g.of a).u * (g.of b).c - (g.of b).u * (g.of a).c) / D
  let y0 := ((g.of a).u * (g.of b).s - (g.of b).u * (g.of a).s) / D
  have hD : D ≠ 0 := hp
  have ea : (g.of a).u - (z0 * (g.of a).s - y0 * (g.of a).c) = 0 := by
    have : z0 * (g.of a).s - y0 * (g.of a).c = (g.of a).u := by
      show (_ / D) * _ - (_ / D) * _ = _
      field_simp
      show _ = (g.of a).u * ((g.of a).s * (g.of b).c - (g.of b).s * (g.of a).c)
      ring
    linarith
  have eb : (g.of b).u - (z0 * (g.of b).s - y0 * (g.of b).c) = 0 := by
    have : z0 * (g.of b).s - y0 * (g.of b).c = (g.of b).u := by
      show (_ / D) * _ - (_ / D) * _ = _
      field_simp
      show _ = (g.of b).u * ((g.of a).s * (g.of b).c - (g.of b).s * (g.of a).c)
      ring
    linarith
  have hmin := wire_least g w [a, b] hw ⟨a, by simp, b, by simp, hp⟩ y0 z0
  have hz : wireChi g w [a, b] y0 z0 = 0 := by
    unfold wireChi sumOf
    simp only [List.map_cons, List.map_nil, List.sum_cons, List.sum_nil, ea, eb]
    ring
  rw [hz] at hmin
  have hall := sumOf_zero [a, b] _ (fun x hx => mul_nonneg (le_of_lt (hw x hx)) (sq_nonneg _)) hmin
  have fin : ∀ x ∈ [a, b], (wireFit g w [a, b]).2.1 * (g.of x).s - (wireFit g w [a, b]).1 * (g.of x).c = (g.of x).u := by
    intro x hx
    rcases mul_eq_zero.1 (hall x hx) with h | h
    · exact absurd h (hw x hx).ne'
    · have := pow_eq_zero_iff (two_ne_zero) |>.1 h
      linarith
  exact ⟨fin a (by simp), fin b (by simp)⟩

/-- the weights used are positive for hits with a time error, in planes with a pitch -/
theorem weights_pos (g : Geo) (cx : Bool) (hits : List Hit) (hs : ∀ h ∈ hits, h.sig ≠ 0) (hp : ∀ h ∈ hits, g.pitch h.tpc h.plane ≠ 0) :
    ∀ h ∈ hits, 0 < timeW cx hits h ∧ 0 < wireW g cx hits h := by
  intro h hh
  have hc : 0 < planeWeight hits h := by
    unfold planeWeight
    have : 0 < hits.countP (fun k => decide (k.plane = h.plane)) := List.countP_pos_iff.2 ⟨h, hh, by simp⟩
    positivity
  have h1 : 0 < h.sig * h.sig := mul_self_pos.2 (hs h hh)
  have h2 : 0 < g.pitch h.tpc h.plane * g.pitch h.tpc h.plane := mul_self_pos.2 (hp h hh)
  unfold timeW wireW
  cases cx
  · simp only [Bool.false_eq_true, if_false]; constructor <;> positivity
  · simp only [if_true]; constructor <;> positivity

/-- the form whose value at a shift of (y, z) is the growth of `wireChi` from its minimum: `wireForm d d` -/
def wireForm (g : Geo) (w : Hit → ℚ) (hits : List Hit) (dy dz ey ez : ℚ) : ℚ :=
  sumOf hits (fun h => w h * (dz * (g.of h).s - dy * (g.of h).c) * (ez * (g.of h).s - ey * (g.of h).c))

theorem wireForm_eq (g : Geo) (w : Hit → ℚ) (hits : List Hit) (dy dz ey ez : ℚ) : wireForm g w hits dy dz ey ez =
    dz * ez * sumOf hits (fun h => w h * (g.of h).s * (g.of h).s) - (dz * ey + dy * ez) * sumOf hits (fun h => w h * (g.of h).s * (g.of h).c) +
    dy * ey * sumOf hits (fun h => w h * (g.of h).c * (g.of h).c) := by
  unfold wireForm
  have : ∀ h ∈ hits, w h * (dz * (g.of h).s - dy * (g.of h).c) * (ez * (g.of h).s - ey * (g.of h).c) =
      (dz * ez * (w h * (g.of h).s * (g.of h).s) + (-(dz * ey + dy * ez)) * (w h * (g.of h).s * (g.of h).c)) +
      dy * ey * (w h * (g.of h).c * (g.of h).c) := by intro h _; ring
  rw [sumOf_congr _ _ _ this, sumOf_add, sumOf_add, sumOf_mul, sumOf_mul, sumOf_mul]
  ring

/-- **C157 (errors).** The error matrix of y and z is the inverse of the matrix of the quadratic form of `wireChi`. -/
theorem wire_errors (g : Geo) (cx : Bool) (hits : List Hit) (id : Int) (hs : ∀ h ∈ hits, h.sig ≠ 0)
    (hp : ∀ h ∈ hits, g.pitch h.tpc h.plane ≠ 0) (hpar : NotParallel g hits) (dy dz : ℚ) :
    let p := point g cx hits id
    wireForm g (wireW g cx hits) hits p.errYY p.errYZ dy dz = dy ∧ wireForm g (wireW g cx hits) hits p.errYZ p.errZZ dy dz = dz := by
  have hd := denom_pos g (wireW g cx hits) hits (fun h hh => (weights_pos g cx hits hs hp h hh).2) hpar
  have e : (wireFit g (wireW g cx hits) hits).2.2 =
      (sumOf hits (fun h => wireW g cx hits h * (g.of h).s * (g.of h).s) / (sumOf hits (fun h => wireW g cx hits h * (g.of h).c * (g.of h).c) *
        sumOf hits (fun h => wireW g cx hits h * (g.of h).s * (g.of h).s) -
        sumOf hits (fun h => wireW g cx hits h * (g.of h).s * (g.of h).c) * sumOf hits (fun h => wireW g cx hits h * (g.of h).s * (g.of h).c)),
       sumOf hits (fun h => wireW g cx hits h * (g.of h).s * (g.of h).c) / (sumOf hits (fun h => wireW g cx hits h * (g.of h).c * (g.of h).c) *
        sumOf hits (fun h => wireW g cx hits h * (g.of h).s * (g.of h).s) -
        sumOf hits (fun h => wireW g cx hits h * (g.of h).s * (g.of h).c) * sumOf hits (fun h => wireW g cx hits h * (g.of h).s * (g.of h).c)),
       sumOf hits (fun h => wireW g cx hits h * (g.of h).c * (g.of h).c) / (sumOf hits (fun h => wireW g cx hits h * (g.of h).c * (g.of h).c) *
        sumOf hits (fun h => wireW g cx hits h * (g.of h).s * (g.of h).s) -
        sumOf hits (fun h => wireW g cx hits h * (g.of h).s * (g.of h).c) * sumOf hits (fun h => wireW g cx hits h * (g.of h).s * (g.of h).c))) := by
    unfold wireFit; dsimp only; rw [if_neg hd.ne']
  intro p
  have e1 : p.errYY = (wireFit g (wireW g cx hits) hits).2.2.1 := rfl
  have e2 : p.errYZ = (wireFit g (wireW g cx hits) hits).2.2.2.1 := rfl
  have e3 : p.errZZ = (wireFit g (wireW g cx hits) hits).2.2.2.2 := rfl
  rw [e1, e2, e3, e, wireForm_eq, wireForm_eq]
  dsimp only
  generalize sumOf hits (fun h => wireW g cx hits h * (g.of h).s * (g.of h).s) = S at *
  generalize sumOf hits (fun h => wireW g cx hits h * (g.of h).c * (g.of h).c) = C at *
  generalize sumOf hits (fun h => wireW g cx hits h * (g.of h).s * (g.of h).c) = X at *
  have hD : C * S - X * X ≠ 0 := hd.ne'
  have hi : (C * S - X * X) * (C * S - X * X)⁻¹ = 1 := mul_inv_cancel₀ hD
  simp only [div_eq_mul_inv]
  generalize (C * S - X * X)⁻¹ = D at *
  constructor
  · linear_combination dy * hi
  · linear_combination dz * hi

/-- **C157 (merged weights).** In a merged point a plane with `n` hits has total weight `1/n²`, shared equally. -/
theorem plane_weight_total (hits : List Hit) (p : Nat) (hp : ∃ h ∈ hits, h.plane = p) :
    sumOf (hits.filter (fun h => decide (h.plane = p))) (planeWeight hits) = 1 / ((hits.filter (fun h => decide (h.plane = p))).length : ℚ) ^ 2 ∧
    ∀ a ∈ hits, ∀ b ∈ hits, a.plane = b.plane → planeWeight hits a = planeWeight hits b := by
  constructor
  · have hc : ∀ h ∈ hits.filter (fun h => decide (h.plane = p)), planeWeight hits h = 1 / ((hits.filter (fun h => decide (h.plane = p))).length : ℚ) ^ 3 := by
      intro h hh
      have := (List.mem_filter.1 hh).2
      simp only [decide_eq_true_eq] at this
      unfold planeWeight
      rw [this, List.countP_eq_length_filter]
    rw [sumOf_congr _ _ _ hc]
    have hn : (0 : ℚ) < (hits.filter (fun h => decide (h.plane = p))).length := by
      obtain ⟨h, h1, h2⟩ := hp
      have : 0 < (hits.filter (fun h => decide (h.plane = p))).length := List.length_pos_of_mem (List.mem_filter.2 ⟨h1, by simpa using h2⟩)
      exact_mod_cast this
    unfold sumOf
    rw [List.map_const', List.sum_replicate, nsmul_eq_mul]
    generalize ((hits.filter (fun h => decide (h.plane = p))).length : ℚ) = n at *
    field_simp
  · intro a _ b _ h
    unfold planeWeight
    rw [h]

/-- **C157 (the point).** The space point of hits with time errors in planes with a pitch, on wires that are not all parallel: its y and z minimise the
weighted distance from the wires, its chi square is the smallest weighted sum of squared time differences, attained at the drift time its x stands for. -/
theorem point_least (g : Geo) (cx : Bool) (hits : List Hit) (id : Int) (hne : hits ≠ []) (hs : ∀ h ∈ hits, h.sig ≠ 0)
    (hp : ∀ h ∈ hits, g.pitch h.tpc h.plane ≠ 0) (hpar : NotParallel g hits) :
    (∀ y z, wireChi g (wireW g cx hits) hits (point g cx hits id).y (point g cx hits id).z ≤ wireChi g (wireW g cx hits) hits y z) ∧
    (∃ τ, (point g cx hits id).x = τ * g.ticksToX ∧ (point g cx hits id).chisq = timeChi g (timeW cx hits) hits τ ∧
      ∀ τ', timeChi g (timeW cx hits) hits τ ≤ timeChi g (timeW cx hits) hits τ') := by
  have hw := weights_pos g cx hits hs hp
  refine ⟨fun y z => wire_least g _ hits (fun h hh => (hw h hh).2) hpar y z, (timeFit g cx (timeW cx hits) hits).1, rfl, ?_, ?_⟩
  · exact (time_least g cx _ hits hne (fun h hh => (hw h hh).1) 0).1
  · intro τ'
    exact (time_least g cx _ hits hne (fun h hh => (hw h hh).1) τ').2.1

/-- a geometry with a vertical and a horizontal plane -/
def exGeo : Geo where
  tpcs := [0]
  nplane := fun _ => 2
  coll := fun _ p => decide (p = 1)
  wire := fun _ p w => if p = 0 then ⟨-10, w, 10, w, 10⟩ else ⟨w, -10, w, 10, 10⟩
  pitch := fun _ _ => 1
  off := fun _ _ => 0
  ticksToX := 1

/-- wire 3 of the first plane (z = 3) and wire 5 of the second (y = 5) -/
example : (point exGeo false [⟨0, 0, 0, 0, 3, 10, 1⟩, ⟨1, 0, 1, 1, 5, 12, 1⟩] 0).y = 5 ∧
    (point exGeo false [⟨0, 0, 0, 0, 3, 10, 1⟩, ⟨1, 0, 1, 1, 5, 12, 1⟩] 0).z = 3 ∧
    (point exGeo false [⟨0, 0, 0, 0, 3, 10, 1⟩, ⟨1, 0, 1, 1, 5, 12, 1⟩] 0).x = 11 := by
  decide +kernel

example : NotParallel exGeo [⟨0, 0, 0, 0, 3, 10, 1⟩, ⟨1, 0, 1, 1, 5, 12, 1⟩] :=
  ⟨_, List.mem_cons_self, ⟨1, 0, 1, 1, 5, 12, 1⟩, by simp, by decide +kernel⟩

end Verif.SpAlg

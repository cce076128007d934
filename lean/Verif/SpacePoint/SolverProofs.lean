import Verif.SpacePoint.SolverModel
import Mathlib.Algebra.BigOperators.Group.Finset.Basic
import Mathlib.Algebra.BigOperators.Ring.Finset
import Mathlib.Algebra.BigOperators.Fin
import Mathlib.Tactic.FieldSimp
import Mathlib.Tactic.LinearCombination
import Mathlib.Tactic.Positivity
/-!
# Space point solver: proofs about single steps (C41, C42, C43, C69)
-/
namespace Verif.Solver
open Verif Finset

/-! ## Quadratic expressions -/

namespace Quad
theorem eval_add (e f : Quad) (x : ℚ) : (e.add f).eval x = e.eval x + f.eval x := by simp only [eval, add]; ring
theorem eval_sub (e f : Quad) (x : ℚ) : (e.sub f).eval x = e.eval x - f.eval x := by simp only [eval, sub]; ring
theorem eval_const (v x : ℚ) : (const v).eval x = v := by simp [eval, const]
theorem eval_X (x : ℚ) : X.eval x = x := by simp [eval, X]
theorem eval_mul {e f r : Quad} (h : e.mul f = .ok r) (x : ℚ) : r.eval x = e.eval x * f.eval x := by
  unfold mul at h
  by_cases hc : (e.b ≠ 0 ∧ f.a ≠ 0) ∨ (e.a ≠ 0 ∧ f.b ≠ 0) ∨ (e.a ≠ 0 ∧ f.a ≠ 0)
  · rw [if_pos hc] at h; cases h
  · rw [if_neg hc] at h
    injection h with h
    subst h
    have h1 : e.b * f.a = 0 := by
      by_contra hh; exact hc (Or.inl ⟨left_ne_zero_of_mul hh, right_ne_zero_of_mul hh⟩)
    have h2 : e.a * f.b = 0 := by
      by_contra hh; exact hc (Or.inr (Or.inl ⟨left_ne_zero_of_mul hh, right_ne_zero_of_mul hh⟩))
    have h3 : e.a * f.a = 0 := by
      by_contra hh; exact hc (Or.inr (Or.inr ⟨left_ne_zero_of_mul hh, right_ne_zero_of_mul hh⟩))
    simp only [eval]
    linear_combination -(x * x * x) * h1 - (x * x * x) * h2 - (x * x * x * x) * h3
/-- at most linear -/
def Lin (e : Quad) : Prop := e.a = 0
/-- constant -/
def Con (e : Quad) : Prop := e.a = 0 ∧ e.b = 0
theorem mul_lin {e f : Quad} (he : Lin e) (hf : Lin f) : ∃ r, e.mul f = .ok r := by
  unfold mul; unfold Lin at he hf
  rw [if_neg (by simp [he, hf])]
  exact ⟨_, rfl⟩
theorem mul_con (e : Quad) (v : ℚ) : ∃ r, e.mul (const v) = .ok r ∧ (Lin e → Lin r) := by
  unfold mul const
  rw [if_neg (by simp)]
  exact ⟨_, rfl, fun h => by unfold Lin at *; simp [h]⟩
end Quad

open Quad in
/-- square of a linear expression -/
theorem wireExpr_eval (q : ℚ) (p : Quad) (hp : Lin p) : ∃ e, wireExpr q p = .ok e ∧ ∀ x, e.eval x = (q - p.eval x) * (q - p.eval x) := by
  unfold wireExpr
  obtain ⟨r, hr⟩ := mul_lin (e := (const q).sub p) (f := (const q).sub p) (by unfold Lin at *; simp [sub, const, hp])
    (by unfold Lin at *; simp [sub, const, hp])
  exact ⟨r, hr, fun x => by rw [eval_mul hr, eval_sub, eval_const]⟩

/-- value of one wire term of the pair metric -/
def wireVal (cfg : Cfg) (s : State) (wi wj : Option Nat) (x : ℚ) : ℚ :=
  if wi = wj then wi.elim 0 (fun w => (cfg.q w - s.wpred w) ^ 2)
  else wi.elim 0 (fun w => (cfg.q w - (s.wpred w + x)) ^ 2) + wj.elim 0 (fun w => (cfg.q w - (s.wpred w - x)) ^ 2)

open Quad in
theorem wirePair_eval (cfg : Cfg) (s : State) (wi wj : Option Nat) (ret : Quad) :
    ∃ e, wirePair cfg s wi wj ret = .ok e ∧ ∀ x, e.eval x = ret.eval x + wireVal cfg s wi wj x := by
  unfold wirePair wireVal
  by_cases h : wi = wj
  · rw [if_pos h]
    simp only [if_pos h]
    cases wi with
    | none => exact ⟨ret, rfl, fun x => by simp⟩
    | some w => exact ⟨_, rfl, fun x => by rw [eval_add, eval_const]; simp; ring⟩
  · rw [if_neg h]
    simp only [if_neg h]
    have hl1 : ∀ v, Lin ((const v).add X) := fun v => by simp [Lin, const, add, X]
    have hl2 : ∀ v, Lin ((const v).sub X) := fun v => by simp [Lin, const, sub, X]
    cases wi with
    | none =>
      cases wj with
      | none => exact absurd rfl h
      | some v =>
        obtain ⟨e, he, hv⟩ := wireExpr_eval (cfg.q v) ((const (s.wpred v)).sub X) (hl2 _)
        refine ⟨ret.add e, by simp [he], fun x => ?_⟩
        rw [eval_add, hv, eval_sub, eval_const, eval_X]; simp; ring
    | some w =>
      obtain ⟨e, he, hw⟩ := wireExpr_eval (cfg.q w) ((const (s.wpred w)).add X) (hl1 _)
      cases wj with
      | none =>
        refine ⟨ret.add e, by simp [he], fun x => ?_⟩
        rw [eval_add, hw, eval_add, eval_const, eval_X]; simp; ring
      | some v =>
        obtain ⟨e2, he2, hv⟩ := wireExpr_eval (cfg.q v) ((const (s.wpred v)).sub X) (hl2 _)
        refine ⟨(ret.add e).add e2, by simp [he, he2], fun x => ?_⟩
        rw [eval_add, eval_add, hv, hw, eval_add, eval_sub, eval_const, eval_const, eval_X]; simp; ring

/-- value of the self energy and interaction terms -/
def alphaVal (cfg : Cfg) (α : ℚ) (s : State) (i j : Nat) (x : ℚ) : ℚ :=
  let c := (firstCoupling (cfg.nei i) j).getD 0;
  -(α * (s.pred i + x) ^ 2) - α * (s.pred j - x) ^ 2 - 2 * α * (s.pred i + x) * s.pot i - 2 * α * (s.pred j - x) * s.pot j
    + 2 * α * (s.pred i + x) * s.pred j * c + 2 * α * (s.pred j - x) * s.pred i * c
    - 2 * α * (s.pred i + x) * (s.pred j - x) * c

open Quad in
theorem alphaPair_eval (cfg : Cfg) (α : ℚ) (s : State) (i j : Nat) :
    ∃ e, alphaPair cfg α s i j = .ok e ∧ ∀ x, e.eval x = alphaVal cfg α s i j x := by
  unfold alphaPair alphaVal
  by_cases hα : α = 0
  · rw [if_neg (by simpa using hα)]
    exact ⟨_, rfl, fun x => by rw [eval_const, hα]; ring⟩
  rw [if_pos hα]
  have l1 : Lin ((const (s.pred i)).add X) := by simp [Lin, const, add, X]
  have l2 : Lin ((const (s.pred j)).sub X) := by simp [Lin, const, sub, X]
  have v1 : ∀ x, ((const (s.pred i)).add X).eval x = s.pred i + x := fun x => by rw [eval_add, eval_const, eval_X]
  have v2 : ∀ x, ((const (s.pred j)).sub X).eval x = s.pred j - x := fun x => by rw [eval_sub, eval_const, eval_X]
  generalize (const (s.pred i)).add X = pi at l1 v1 ⊢
  generalize (const (s.pred j)).sub X = pj at l2 v2 ⊢
  obtain ⟨r1, h1⟩ := mul_lin l1 l1
  obtain ⟨r2, h2, -⟩ := mul_con r1 α
  obtain ⟨r3, h3⟩ := mul_lin l2 l2
  obtain ⟨r4, h4, -⟩ := mul_con r3 α
  obtain ⟨r5, h5, g5⟩ := mul_con pi (2 * α)
  obtain ⟨r6, h6, -⟩ := mul_con r5 (s.pot i)
  obtain ⟨r7, h7, g7⟩ := mul_con pj (2 * α)
  obtain ⟨r8, h8, -⟩ := mul_con r7 (s.pot j)
  have e2 : ∀ x, r2.eval x = (s.pred i + x) * (s.pred i + x) * α := fun x => by
    rw [eval_mul h2, eval_mul h1, v1, eval_const]
  have e4 : ∀ x, r4.eval x = (s.pred j - x) * (s.pred j - x) * α := fun x => by
    rw [eval_mul h4, eval_mul h3, v2, eval_const]
  have e5 : ∀ x, r5.eval x = (s.pred i + x) * (2 * α) := fun x => by rw [eval_mul h5, v1, eval_const]
  have e7 : ∀ x, r7.eval x = (s.pred j - x) * (2 * α) := fun x => by rw [eval_mul h7, v2, eval_const]
  have e6 : ∀ x, r6.eval x = (s.pred i + x) * (2 * α) * s.pot i := fun x => by rw [eval_mul h6, e5, eval_const]
  have e8 : ∀ x, r8.eval x = (s.pred j - x) * (2 * α) * s.pot j := fun x => by rw [eval_mul h8, e7, eval_const]
  simp only [h1, Res.bind_ok, h2, h3, h4, h5, h6, h7, h8]
  cases hc : firstCoupling (cfg.nei i) j with
  | none =>
    refine ⟨_, rfl, fun x => ?_⟩
    simp only [eval_sub, eval_const, e2, e4, e6, e8, Option.getD_none]
    ring
  | some c =>
    obtain ⟨r9, h9, -⟩ := mul_con r5 (s.pred j)
    obtain ⟨r10, h10, -⟩ := mul_con r9 c
    obtain ⟨r11, h11, -⟩ := mul_con r7 (s.pred i)
    obtain ⟨r12, h12, -⟩ := mul_con r11 c
    obtain ⟨r13, h13⟩ := mul_lin (g5 l1) l2
    obtain ⟨r14, h14, -⟩ := mul_con r13 c
    simp only [h9, Res.bind_ok, h10, h11, h12, h13, h14]
    refine ⟨_, rfl, fun x => ?_⟩
    have e10 : r10.eval x = (s.pred i + x) * (2 * α) * s.pred j * c := by rw [eval_mul h10, eval_mul h9, e5, eval_const, eval_const]
    have e12 : r12.eval x = (s.pred j - x) * (2 * α) * s.pred i * c := by rw [eval_mul h12, eval_mul h11, e7, eval_const, eval_const]
    have e14 : r14.eval x = (s.pred i + x) * (2 * α) * (s.pred j - x) * c := by rw [eval_mul h14, eval_mul h13, e5, v2, eval_const]
    simp only [eval_sub, eval_add, eval_const, e2, e4, e6, e8, e10, e12, e14, Option.getD_some]
    ring

/-- value of the pair metric when `x` is moved from `j` to `i` -/
def pairVal (cfg : Cfg) (α : ℚ) (s : State) (i j : Nat) (x : ℚ) : ℚ :=
  alphaVal cfg α s i j x + wireVal cfg s (cfg.w1 i) (cfg.w1 j) x + wireVal cfg s (cfg.w2 i) (cfg.w2 j) x

theorem pairMetric_eval (cfg : Cfg) (α : ℚ) (s : State) (i j : Nat) :
    ∃ e, pairMetric cfg α s i j = .ok e ∧ ∀ x, e.eval x = pairVal cfg α s i j x := by
  obtain ⟨e1, h1, v1⟩ := alphaPair_eval cfg α s i j
  obtain ⟨e2, h2, v2⟩ := wirePair_eval cfg s (cfg.w1 i) (cfg.w1 j) e1
  obtain ⟨e3, h3, v3⟩ := wirePair_eval cfg s (cfg.w2 i) (cfg.w2 j) e2
  refine ⟨e3, ?_, fun x => by rw [v3, v2, v1]; rfl⟩
  unfold pairMetric
  rw [h1, Res.bind_ok, h2, Res.bind_ok, h3]

/-- value of the single metric when `x` is added -/
def oneVal (cfg : Cfg) (α : ℚ) (s : State) (k u v : Nat) (x : ℚ) : ℚ :=
  -(α * (s.pred k + x) ^ 2) - 2 * α * (s.pred k + x) * s.pot k + (cfg.q u - (s.wpred u + x)) ^ 2 + (cfg.q v - (s.wpred v + x)) ^ 2

open Quad in
theorem oneMetric_eval (cfg : Cfg) (α : ℚ) (s : State) (k u v : Nat) (hu : cfg.w1 k = some u) (hv : cfg.w2 k = some v) :
    ∃ e, oneMetric cfg α s k = .ok e ∧ (∀ x, e.eval x = oneVal cfg α s k u v x) ∧ e.a = 2 - α := by
  have hl1 : ∀ v, Lin ((const v).add X) := fun v => by simp [Lin, const, add, X]
  obtain ⟨e1, he1, hw1⟩ := wireExpr_eval (cfg.q u) ((const (s.wpred u)).add X) (hl1 _)
  obtain ⟨e2, he2, hw2⟩ := wireExpr_eval (cfg.q v) ((const (s.wpred v)).add X) (hl1 _)
  have main : ∃ e, oneMetric cfg α s k = .ok e ∧ (∀ x, e.eval x = oneVal cfg α s k u v x) := by
    unfold oneMetric oneAlpha
    rw [hu, hv]
    by_cases hα : α = 0
    · rw [if_neg (by simpa using hα)]
      simp only [Res.pure_eq, Res.bind_ok, oneWires, he1, he2]
      refine ⟨_, rfl, fun x => ?_⟩
      simp only [eval_add, hw1, hw2, eval_const, eval_X, oneVal, hα]
      ring
    · rw [if_pos hα]
      obtain ⟨r1, h1⟩ := mul_lin (hl1 (s.pred k)) (hl1 (s.pred k))
      obtain ⟨r2, h2, -⟩ := mul_con r1 α
      obtain ⟨r5, h5, -⟩ := mul_con ((const (s.pred k)).add X) (2 * α)
      obtain ⟨r6, h6, -⟩ := mul_con r5 (s.pot k)
      simp only [Res.pure_eq, Res.bind_ok, oneWires, he1, he2, h1, h2, h5, h6]
      refine ⟨_, rfl, fun x => ?_⟩
      simp only [eval_add, eval_sub, hw1, hw2, eval_const, eval_X, eval_mul h2, eval_mul h1, eval_mul h6, eval_mul h5, oneVal]
      ring
  obtain ⟨e, he, hev⟩ := main
  refine ⟨e, he, hev, ?_⟩
  have a0 := hev 0
  have a1 := hev 1
  have a2 := hev (-1)
  simp only [eval, oneVal] at a0 a1 a2
  linarith

/-! ## The pair solution -/

theorem quad_ends (e : Quad) (lo hi y : ℚ) (ha : e.a ≤ 0) (h1 : lo ≤ y) (h2 : y ≤ hi) : e.eval lo ≤ e.eval y ∨ e.eval hi ≤ e.eval y := by
  by_contra hc
  push Not at hc
  obtain ⟨c1, c2⟩ := hc
  have key : (hi - lo) * e.eval y - ((hi - y) * e.eval lo + (y - lo) * e.eval hi) = -e.a * ((y - lo) * (hi - y) * (hi - lo)) := by
    simp only [Quad.eval]; ring
  have hpos : 0 ≤ -e.a * ((y - lo) * (hi - y) * (hi - lo)) :=
    mul_nonneg (by linarith) (mul_nonneg (mul_nonneg (by linarith) (by linarith)) (by linarith))
  have hne : y ≠ lo := by rintro rfl; exact lt_irrefl _ c1
  have hpl : 0 < y - lo := lt_of_le_of_ne (by linarith) (fun h => hne (by linarith))
  have h3 : (hi - y) * e.eval y ≤ (hi - y) * e.eval lo := mul_le_mul_of_nonneg_left c1.le (by linarith)
  have h4 : (y - lo) * e.eval y < (y - lo) * e.eval hi := mul_lt_mul_of_pos_left c2 hpl
  linarith

theorem quad_vertex (e : Quad) (lo hi y : ℚ) (ha : 0 < e.a) (h1 : lo ≤ y) (h2 : y ≤ hi) :
    e.eval (max lo (min hi (-e.b / (2 * e.a)))) ≤ e.eval y := by
  have hv : e.a * (-e.b / (2 * e.a)) = -e.b / 2 := by field_simp
  generalize -e.b / (2 * e.a) = v at hv ⊢
  have hb : e.b = -2 * (e.a * v) := by linarith
  have key : ∀ z, e.eval y - e.eval z = e.a * ((y - z) * (y + z - 2 * v)) := by
    intro z; simp only [Quad.eval, hb]; ring
  have hz := key (max lo (min hi v))
  have : 0 ≤ (y - max lo (min hi v)) * (y + max lo (min hi v) - 2 * v) := by
    rcases le_total v hi with hvh | hvh
    · rw [min_eq_right hvh]
      rcases le_total lo v with hlv | hlv
      · rw [max_eq_right hlv]; nlinarith [sq_nonneg (y - v)]
      · rw [max_eq_left hlv]; exact mul_nonneg (by linarith) (by linarith)
    · rw [min_eq_left hvh, max_eq_right (by linarith)]
      exact mul_nonneg_of_nonpos_of_nonpos (by linarith) (by linarith)
  have := mul_nonneg ha.le this
  linarith

theorem clamp_range (z : Bool) (e : Quad) (lo hi : ℚ) (h : lo ≤ hi) :
    lo ≤ clampBoth lo hi (vertex z e) ∧ clampBoth lo hi (vertex z e) ≤ hi := by
  cases vertex z e with
  | num x => exact ⟨le_max_left _ _, max_le h (min_le_left _ _)⟩
  | posInf => exact ⟨le_max_left _ _, max_le h (le_refl _)⟩
  | negInf => exact ⟨le_refl _, h⟩
  | nan => exact ⟨le_max_left _ _, max_le h (le_refl _)⟩

theorem three_best (z : Bool) (e : Quad) (lo hi y : ℚ) (h1 : lo ≤ y) (h2 : y ≤ hi) :
    min (min (e.eval hi) (e.eval lo)) (e.eval (clampBoth lo hi (vertex z e))) ≤ e.eval y := by
  by_cases ha : 0 < e.a
  · have : clampBoth lo hi (vertex z e) = max lo (min hi (-e.b / (2 * e.a))) := by
      unfold vertex; rw [if_pos (ne_of_gt ha)]; rfl
    rw [this]
    exact (min_le_right _ _).trans (quad_vertex e lo hi y ha h1 h2)
  · rcases quad_ends e lo hi y (not_lt.1 ha) h1 h2 with h | h
    · exact ((min_le_left _ _).trans (min_le_right _ _)).trans h
    · exact ((min_le_left _ _).trans (min_le_left _ _)).trans h

theorem solvePair_spec (cfg : Cfg) (α : ℚ) (z : Bool) (s : State) (i j : Nat) (hi : 0 ≤ s.pred i) (hj : 0 ≤ s.pred j) :
    ∃ x, solvePair cfg α z s i j = .ok x ∧ -s.pred i ≤ x ∧ x ≤ s.pred j ∧
      ∀ y, -s.pred i ≤ y → y ≤ s.pred j → pairVal cfg α s i j x ≤ pairVal cfg α s i j y := by
  obtain ⟨e, he, hv⟩ := pairMetric_eval cfg α s i j
  unfold solvePair
  rw [he, Res.bind_ok]
  simp only [← hv]
  have hb := fun y => three_best z e (-s.pred i) (s.pred j) y
  obtain ⟨c1, c2⟩ := clamp_range z e (-s.pred i) (s.pred j) (by linarith)
  generalize clampBoth (-s.pred i) (s.pred j) (vertex z e) = x at hb c1 c2 ⊢
  rw [if_neg (by have := hb 0 (by linarith) hj; push Not; linarith)]
  by_cases hends : min (e.eval (-s.pred i)) (e.eval (s.pred j)) < e.eval x
  · rw [if_pos hends]
    have hb2 : ∀ y, -s.pred i ≤ y → y ≤ s.pred j → min (e.eval (-s.pred i)) (e.eval (s.pred j)) ≤ e.eval y := by
      intro y h1 h2
      have := hb y h1 h2
      rw [min_comm (e.eval (s.pred j)), min_eq_left hends.le] at this
      exact this
    by_cases hlt : e.eval (-s.pred i) < e.eval (s.pred j)
    · rw [if_pos hlt]
      refine ⟨_, rfl, le_refl _, by linarith, fun y h1 h2 => ?_⟩
      have := hb2 y h1 h2
      rwa [min_eq_left hlt.le] at this
    · rw [if_neg hlt]
      refine ⟨_, rfl, by linarith, le_refl _, fun y h1 h2 => ?_⟩
      have := hb2 y h1 h2
      rwa [min_eq_right (not_lt.1 hlt)] at this
  · rw [if_neg hends]
    refine ⟨x, rfl, c1, c2, fun y h1 h2 => ?_⟩
    have := hb y h1 h2
    rwa [min_comm (e.eval (s.pred j)), min_eq_right (not_lt.1 hends)] at this

/-! ## Adding charge -/

/-- total coupling from `j` to `k` -/
def coup (cfg : Cfg) (j k : Nat) : ℚ := (((cfg.nei j).filter (fun e => decide (e.1 = k))).map (·.2)).sum

/-- how many of the two induction wires of `k` are `w` -/
def onWire (cfg : Cfg) (k w : Nat) : ℚ := (if cfg.w1 k = some w then 1 else 0) + (if cfg.w2 k = some w then 1 else 0)

theorem add_pred (cfg : Cfg) (k : Nat) (d : ℚ) (s : State) (j : Nat) :
    (addCharge cfg k d s).pred j = if j = k then s.pred j + d else s.pred j := rfl

theorem bumpWire_eq (f : Nat → ℚ) (o : Option Nat) (d : ℚ) (w : Nat) :
    bumpWire f o d w = f w + d * (if o = some w then 1 else 0) := by
  cases o with
  | none => simp [bumpWire]
  | some v =>
    by_cases h : w = v
    · subst h; simp [bumpWire, bump]
    · have : v ≠ w := fun e => h e.symm
      simp [bumpWire, bump, h, this]

theorem add_wpred (cfg : Cfg) (k : Nat) (d : ℚ) (s : State) (w : Nat) :
    (addCharge cfg k d s).wpred w = s.wpred w + d * onWire cfg k w := by
  simp only [addCharge, bumpWire_eq, onWire]; ring

theorem add_pot (cfg : Cfg) (k : Nat) (d : ℚ) (s : State) (j : Nat) :
    (addCharge cfg k d s).pot j = s.pot j + d * coup cfg k j := by
  simp only [addCharge, coup]
  have : ∀ (l : List (Nat × ℚ)) (p : Nat → ℚ), l.foldl (fun p e => bump p e.1 (d * e.2)) p j =
      p j + d * (((l.filter (fun e => decide (e.1 = j))).map (·.2)).sum) := by
    intro l
    induction l with
    | nil => intro p; simp
    | cons e l ih =>
      intro p
      rw [List.foldl_cons, ih]
      by_cases h : e.1 = j
      · simp [h, bump]; ring
      · have : ¬ j = e.1 := fun hh => h hh.symm
        simp [h, bump, this]
  exact this _ _

/-- predictions and potentials agree with the charges of the `N` space charges -/
def Consistent (cfg : Cfg) (N : Nat) (s : State) : Prop :=
  (∀ w, s.wpred w = ∑ k ∈ range N, s.pred k * onWire cfg k w) ∧ (∀ k, s.pot k = ∑ j ∈ range N, s.pred j * coup cfg j k)

theorem sum_bump (N k : Nat) (hk : k < N) (p f : Nat → ℚ) (d : ℚ) :
    ∑ j ∈ range N, (if j = k then p j + d else p j) * f j = ∑ j ∈ range N, p j * f j + d * f k := by
  have : ∀ j ∈ range N, (if j = k then p j + d else p j) * f j = p j * f j + if j = k then d * f j else 0 := by
    intro j _
    by_cases h : j = k
    · rw [if_pos h, if_pos h]; ring
    · rw [if_neg h, if_neg h]; ring
  rw [sum_congr rfl this, sum_add_distrib, sum_ite_eq' (range N) k (fun j => d * f j), if_pos (mem_range.2 hk)]

theorem add_consistent (cfg : Cfg) (N k : Nat) (hk : k < N) (d : ℚ) (s : State) (h : Consistent cfg N s) :
    Consistent cfg N (addCharge cfg k d s) := by
  constructor
  · intro w
    rw [add_wpred, h.1 w]
    simp only [add_pred]
    rw [sum_bump N k hk]
  · intro j
    rw [add_pot, h.2 j]
    simp only [add_pred]
    rw [sum_bump N k hk s.pred (fun i => coup cfg i j)]

theorem zero_consistent (cfg : Cfg) (N : Nat) : Consistent cfg N State.zero := by
  constructor <;> intro _ <;> simp [State.zero]

end Verif.Solver

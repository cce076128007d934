import Verif.Geometry.PolyModel
import Mathlib.Algebra.BigOperators.Group.List.Basic
import Mathlib.Data.List.Rotate
import Mathlib.Data.List.GetD
import Mathlib.Tactic.FieldSimp
import Mathlib.Algebra.Order.Field.Basic
import Mathlib.Tactic.Linarith
import Mathlib.Tactic.Ring
/-!
# C52, C78, C80: area, perimeter, intersections of edges
-/
namespace Verif.Poly
open Verif

/-! ## Specification -/

/-- sum of `T` over the edges of an open chain -/
def chain {M : Type} [AddMonoid M] (T : P2 → P2 → M) : List P2 → M
  | a :: b :: l => T a b + chain T (b :: l)
  | _ => 0

/-- sum of `T` over the edges of a polygon, including the one from the last vertex to the first -/
def around {M : Type} [AddMonoid M] (T : P2 → P2 → M) : List P2 → M
  | [] => 0
  | a :: l => chain T (a :: l ++ [a])

/-- the area of a polygon by the shoelace formula -/
def shoelaceArea (v : List P2) : ℚ := |around (fun p q => p.1 * q.2 - q.1 * p.2) v| / 2

/-! ## Lemmas on sums over edges -/

theorem chain_range {M : Type} [AddMonoid M] (T : P2 → P2 → M) : ∀ w : List P2,
    chain T w = ((List.range (w.length - 1)).map (fun i => T (w.getD i (0, 0)) (w.getD (i + 1) (0, 0)))).sum := by
  intro w
  induction w with
  | nil => rfl
  | cons a w ih =>
    cases w with
    | nil => rfl
    | cons b l =>
      unfold chain
      rw [ih]
      have : (a :: b :: l).length - 1 = ((b :: l).length - 1) + 1 := by simp
      rw [this, List.range_succ_eq_map, List.map_cons, List.sum_cons, List.map_map]
      congr 1

theorem around_range {M : Type} [AddMonoid M] (T : P2 → P2 → M) (v : List P2) :
    around T v = ((List.range v.length).map (fun i => T (vtx v i) (vtx v (i + 1)))).sum := by
  cases v with
  | nil => rfl
  | cons a l =>
    show chain T (a :: l ++ [a]) = _
    rw [chain_range]
    have hl : ((a :: l) ++ [a]).length - 1 = (a :: l).length := by simp
    rw [hl]
    congr 1
    apply List.map_congr_left
    intro i hi
    rw [List.mem_range] at hi
    have h1 : ((a :: l) ++ [a]).getD i (0, 0) = vtx (a :: l) i := by
      unfold vtx
      rw [if_pos hi, List.getD_append _ _ _ _ hi]
    have h2 : ((a :: l) ++ [a]).getD (i + 1) (0, 0) = vtx (a :: l) (i + 1) := by
      unfold vtx
      by_cases h : i + 1 < (a :: l).length
      · rw [if_pos h, List.getD_append _ _ _ _ h]
      · rw [if_neg h, List.getD_append_right _ _ _ _ (by omega), show i + 1 - (a :: l).length = 0 by omega]; rfl
    rw [h1, h2]

theorem foldl_ifs (T : P2 → P2 → ℚ) (v : List P2) : (List.range v.length).foldl (fun s i =>
    if i < v.length - 1 then s + T (v.getD i (0, 0)) (v.getD (i + 1) (0, 0))
    else if i = v.length - 1 then s + T (v.getD i (0, 0)) (v.getD 0 (0, 0)) else s) 0 = around T v := by
  rw [around_range]
  have : ∀ (l : List Nat) (s : ℚ), (∀ i ∈ l, i < v.length) → l.foldl (fun s i =>
      if i < v.length - 1 then s + T (v.getD i (0, 0)) (v.getD (i + 1) (0, 0))
      else if i = v.length - 1 then s + T (v.getD i (0, 0)) (v.getD 0 (0, 0)) else s) s = s + (l.map (fun i => T (vtx v i) (vtx v (i + 1)))).sum := by
    intro l
    induction l with
    | nil => intro s _; simp
    | cons i l ih =>
      intro s h
      have hi : i < v.length := h i (by simp)
      rw [List.foldl_cons, ih _ (fun j hj => h j (List.mem_cons_of_mem _ hj)), List.map_cons, List.sum_cons, ← add_assoc]
      congr 1
      unfold vtx
      rw [if_pos hi]
      by_cases h1 : i < v.length - 1
      · rw [if_pos h1, if_pos (by omega)]
      · rw [if_neg h1, if_pos (by omega), if_neg (by omega)]
  rw [this _ _ (fun i hi => List.mem_range.1 hi)]; simp

/-- joining two chains at a vertex -/
theorem chain_join {M : Type} [AddMonoid M] (T : P2 → P2 → M) (m : P2) (r : List P2) : ∀ l : List P2, chain T (l ++ m :: r) = chain T (l ++ [m]) + chain T (m :: r) := by
  intro l
  induction l with
  | nil => simp [chain]
  | cons a l ih =>
    cases l with
    | nil => simp [chain]
    | cons b l =>
      have e1 : chain T (a :: b :: l ++ m :: r) = T a b + chain T (b :: l ++ m :: r) := rfl
      have e2 : chain T (a :: b :: l ++ [m]) = T a b + chain T (b :: l ++ [m]) := rfl
      rw [e1, e2, ih, add_assoc]

/-- starting at another vertex -/
theorem around_append {M : Type} [AddCommMonoid M] (T : P2 → P2 → M) (l1 l2 : List P2) : around T (l1 ++ l2) = around T (l2 ++ l1) := by
  cases l1 with
  | nil => simp
  | cons a l1 =>
    cases l2 with
    | nil => simp
    | cons b l2 =>
      have e1 : around T ((a :: l1) ++ (b :: l2)) = chain T ((a :: l1) ++ b :: (l2 ++ [a])) := by
        simp only [List.cons_append, around, List.append_assoc]
      have e2 : around T ((b :: l2) ++ (a :: l1)) = chain T ((b :: l2) ++ a :: (l1 ++ [b])) := by
        simp only [List.cons_append, around, List.append_assoc]
      rw [e1, e2, chain_join T b (l2 ++ [a]) (a :: l1), chain_join T a (l1 ++ [b]) (b :: l2), add_comm]
      rfl

theorem around_rotate {M : Type} [AddCommMonoid M] (T : P2 → P2 → M) (v : List P2) (k : Nat) : around T (v.rotate k) = around T v := by
  rw [List.rotate_eq_drop_append_take_mod, around_append, List.take_append_drop]

theorem chain_reverse (T : P2 → P2 → ℚ) (hT : ∀ p q, T q p = - T p q) : ∀ l : List P2, chain T l.reverse = - chain T l := by
  intro l
  induction l with
  | nil => simp [chain]
  | cons a l ih =>
    cases l with
    | nil => simp [chain]
    | cons b l =>
      rw [List.reverse_cons, List.reverse_cons, List.append_assoc, List.singleton_append, chain_join]
      rw [List.reverse_cons] at ih
      rw [ih]
      simp only [chain, hT a b]
      ring

theorem around_reverse (T : P2 → P2 → ℚ) (hT : ∀ p q, T q p = - T p q) (v : List P2) : around T v.reverse = - around T v := by
  cases v with
  | nil => simp [around]
  | cons a l =>
    rw [List.reverse_cons, around_append, List.singleton_append]
    have := chain_reverse T hT (a :: l ++ [a])
    simp only [List.cons_append, List.reverse_cons, List.reverse_append, List.reverse_nil, List.nil_append] at this
    unfold around
    simpa using this

theorem chain_add (T U : P2 → P2 → ℚ) : ∀ l : List P2, chain (fun p q => T p q + U p q) l = chain T l + chain U l := by
  intro l
  induction l with
  | nil => simp [chain]
  | cons a l ih =>
    cases l with
    | nil => simp [chain]
    | cons b l => simp only [chain, ih]; ring

theorem chain_diff (f : P2 → ℚ) : ∀ (l : List P2) (a z : P2), chain (fun p q => f p - f q) (a :: l ++ [z]) = f a - f z := by
  intro l
  induction l with
  | nil => intro a z; simp [chain]
  | cons b l ih =>
    intro a z
    have : chain (fun p q => f p - f q) (a :: (b :: l) ++ [z]) = (f a - f b) + chain (fun p q => f p - f q) (b :: l ++ [z]) := rfl
    rw [this, ih]; ring

/-- differences add up to zero around a polygon -/
theorem around_diff (f : P2 → ℚ) (v : List P2) : around (fun p q => f p - f q) v = 0 := by
  cases v with
  | nil => rfl
  | cons a l => show chain _ (a :: l ++ [a]) = _; rw [chain_diff]; ring

theorem around_add (T U : P2 → P2 → ℚ) (v : List P2) : around (fun p q => T p q + U p q) v = around T v + around U v := by
  cases v with
  | nil => simp [around]
  | cons a l => exact chain_add T U _

theorem chain_smul (c : ℚ) (T : P2 → P2 → ℚ) : ∀ l : List P2, chain (fun p q => c * T p q) l = c * chain T l := by
  intro l
  induction l with
  | nil => simp [chain]
  | cons a l ih =>
    cases l with
    | nil => simp [chain]
    | cons b l => simp only [chain, ih]; ring

theorem around_smul (c : ℚ) (T : P2 → P2 → ℚ) (v : List P2) : around (fun p q => c * T p q) v = c * around T v := by
  cases v with
  | nil => simp [around]
  | cons a l => exact chain_smul c T _

theorem chain_map (T : P2 → P2 → ℚ) (f : P2 → P2) : ∀ l : List P2, chain T (l.map f) = chain (fun p q => T (f p) (f q)) l := by
  intro l
  induction l with
  | nil => simp [chain]
  | cons a l ih =>
    cases l with
    | nil => simp [chain]
    | cons b l => simp only [List.map_cons, chain] at ih ⊢; rw [ih]

theorem around_map (T : P2 → P2 → ℚ) (f : P2 → P2) (v : List P2) : around T (v.map f) = around (fun p q => T (f p) (f q)) v := by
  cases v with
  | nil => rfl
  | cons a l =>
    show chain T (f a :: l.map f ++ [f a]) = chain _ (a :: l ++ [a])
    rw [← chain_map T f]
    simp only [List.map_cons, List.map_append, List.map_nil, List.cons_append]

/-! ## C52 -/

theorem areaSum_eq (v : List P2) : areaSum v = around (fun p q => p.1 * q.2 - q.1 * p.2) v / 2 := by
  unfold areaSum
  rw [foldl_ifs areaTerm v]
  have e : areaTerm = fun p q => (1 / 2 : ℚ) * (p.1 * q.2 - q.1 * p.2) + ((1 / 2) * (p.1 * p.2) - (1 / 2) * (q.1 * q.2)) := by
    funext p q; unfold areaTerm; ring
  rw [e, around_add, around_smul, around_diff (fun p => (1 / 2) * (p.1 * p.2))]; ring

/-- C52. `Area` is the shoelace area of the closed polygon, for every vertex list. -/
theorem C52_area (v : List P2) : area v = shoelaceArea v := by
  unfold area shoelaceArea
  rw [areaSum_eq]
  by_cases h : around (fun p q => p.1 * q.2 - q.1 * p.2) v / 2 < 0
  · rw [if_pos h, abs_of_neg (by linarith)]; ring
  · rw [if_neg h, abs_of_nonneg (by linarith)]

/-- C52. It is not negative and does not depend on the starting vertex, the orientation or the position of the polygon. -/
theorem C52_invariant (v : List P2) : 0 ≤ area v ∧ (∀ k, area (v.rotate k) = area v) ∧ area v.reverse = area v ∧
    (∀ t : P2, area (v.map (fun p => (p.1 + t.1, p.2 + t.2))) = area v) := by
  refine ⟨?_, fun k => ?_, ?_, fun t => ?_⟩
  · rw [C52_area]; unfold shoelaceArea; exact div_nonneg (abs_nonneg _) (by norm_num)
  · rw [C52_area, C52_area]; unfold shoelaceArea; rw [around_rotate]
  · rw [C52_area, C52_area]; unfold shoelaceArea; rw [around_reverse _ (fun p q => by ring), abs_neg]
  · rw [C52_area, C52_area]; unfold shoelaceArea
    rw [around_map]
    have e : (fun p q : P2 => (p.1 + t.1) * (q.2 + t.2) - (q.1 + t.1) * (p.2 + t.2)) =
        fun p q => (p.1 * q.2 - q.1 * p.2) + ((t.2 * p.1 - t.1 * p.2) - (t.2 * q.1 - t.1 * q.2)) := by
      funext p q; ring
    simp only [e]
    rw [around_add, around_diff (fun p => t.2 * p.1 - t.1 * p.2)]; simp

/-- C52. For a triangle it is half the absolute cross product of two sides; for a rectangle the product of the sides. -/
theorem C52_triangle (a b c : P2) : area [a, b, c] = |(b.1 - a.1) * (c.2 - a.2) - (b.2 - a.2) * (c.1 - a.1)| / 2 := by
  rw [C52_area]
  unfold shoelaceArea
  simp only [around, List.cons_append, List.nil_append, chain]
  congr 2
  ring

theorem C52_rectangle (x y w h : ℚ) (hw : 0 ≤ w) (hh : 0 ≤ h) : area [(x, y), (x + w, y), (x + w, y + h), (x, y + h)] = w * h := by
  rw [C52_area]
  unfold shoelaceArea
  simp only [around, List.cons_append, List.nil_append, chain]
  have : x * y - (x + w) * y + ((x + w) * (y + h) - (x + w) * y + ((x + w) * (y + h) - x * (y + h) + (x * y - x * (y + h) + 0))) = 2 * (w * h) := by ring
  rw [this, abs_of_nonneg (by positivity)]; ring

example : area [(0, 0), (4, 0), (4, 3)] = 6 := by decide +kernel

/-! ## C78 -/

/-- what `Perimeter` computes, before the square root: the sum of the *squared* edge lengths -/
theorem C78_perimeter_partial (v : List P2) : perimeterSum v = around (fun p q => (p.1 - q.1) ^ 2 + (p.2 - q.2) ^ 2) v ∧
    (∀ k, perimeterSum (v.rotate k) = perimeterSum v) := by
  have e : len2 = fun p q => (p.1 - q.1) ^ 2 + (p.2 - q.2) ^ 2 := by funext p q; unfold len2; ring
  have h : ∀ v, perimeterSum v = around (fun p q => (p.1 - q.1) ^ 2 + (p.2 - q.2) ^ 2) v := by
    intro v; unfold perimeterSum; rw [foldl_ifs len2 v, e]
  exact ⟨h v, fun k => by rw [h, h, around_rotate]⟩

/-- C78 is false: the unit square has perimeter 4, its square is 16, but the sum under the root is 4, so 2 is returned -/
theorem C78_refuted : perimeterSum [(0, 0), (1, 0), (1, 1), (0, 1)] = 4 ∧ (2 : ℚ) * 2 = 4 ∧ (1 + 1 + 1 + 1 : ℚ) ≠ 2 := by
  refine ⟨by decide +kernel, by norm_num, by norm_num⟩

/-! ## C80 -/

/-- signed double area of the triangle `a b c` -/
def orient (a b c : P2) : ℚ := (b.1 - a.1) * (c.2 - a.2) - (b.2 - a.2) * (c.1 - a.1)

theorem clockwise_eq (a b c : P2) : clockwise a b c = decide (0 < orient a b c) := by
  unfold clockwise orient
  congr 1
  apply propext
  constructor <;> intro h <;> linarith [mul_comm (c.2 - a.2) (b.1 - a.1)]

/-- the point a fraction `s` along the segment -/
def along (a b : P2) (s : ℚ) : P2 := (a.1 + s * (b.1 - a.1), a.2 + s * (b.2 - a.2))

/-- the segments meet -/
def Meet (a b c d : P2) : Prop := ∃ s t, 0 ≤ s ∧ s ≤ 1 ∧ 0 ≤ t ∧ t ≤ 1 ∧ along a b s = along c d t

theorem overlap_iff (a b c d : P2) : segmentOverlap a b c d = true ↔ ((0 < orient a c d ↔ ¬ 0 < orient b c d) ∧ (0 < orient a b c ↔ ¬ 0 < orient a b d)) := by
  unfold segmentOverlap
  rw [clockwise_eq, clockwise_eq, clockwise_eq, clockwise_eq]
  by_cases h1 : 0 < orient a c d <;> by_cases h2 : 0 < orient b c d <;> by_cases h3 : 0 < orient a b c <;> by_cases h4 : 0 < orient a b d <;>
    simp [h1, h2, h3, h4]

theorem frac_of_opposite {u w : ℚ} (h : 0 < u ↔ ¬ 0 < w) : u - w ≠ 0 ∧ 0 ≤ u / (u - w) ∧ u / (u - w) ≤ 1 := by
  by_cases hu : 0 < u
  · have hw : w ≤ 0 := not_lt.1 (h.1 hu)
    have hd : 0 < u - w := by linarith
    exact ⟨hd.ne', div_nonneg hu.le hd.le, by rw [div_le_one hd]; linarith⟩
  · have hw : 0 < w := by by_contra hc; exact hu (h.2 hc)
    have hu' : u ≤ 0 := not_lt.1 hu
    have hd : u - w < 0 := by linarith
    exact ⟨hd.ne, div_nonneg_of_nonpos hu' hd.le, by rw [div_le_one_of_neg hd]; linarith⟩

/-- C80. Segments found to overlap have a common point, always. -/
theorem C80_overlap_meets (a b c d : P2) (h : segmentOverlap a b c d = true) : Meet a b c d := by
  obtain ⟨h1, h2⟩ := (overlap_iff a b c d).1 h
  obtain ⟨hd1, hs0, hs1⟩ := frac_of_opposite h1
  obtain ⟨hd2, ht0, ht1⟩ := frac_of_opposite h2
  refine ⟨_, _, hs0, hs1, ht0, ht1, ?_⟩
  have hD : orient a b c - orient a b d = - (orient a c d - orient b c d) := by unfold orient; ring
  rw [hD] at *
  generalize hX : orient a c d - orient b c d = D at *
  have hDe : D = (b.1 - a.1) * (d.2 - c.2) - (b.2 - a.2) * (d.1 - c.1) := by rw [← hX]; unfold orient; ring
  unfold along
  have key : ∀ (u u' w w' : ℚ), D * u + orient a c d * w = D * u' - orient a b c * w' → u + orient a c d / D * w = u' + orient a b c / -D * w' := by
    intro u u' w w' hh
    field_simp
    linarith
  ext
  · apply key; rw [hDe]; unfold orient; ring
  · apply key; rw [hDe]; unfold orient; ring

/-- C80. In general position (no end point of one segment on the line of the other) the test is exact. -/
theorem C80_exact (a b c d : P2) (h1 : orient a c d ≠ 0) (h2 : orient b c d ≠ 0) (h3 : orient a b c ≠ 0) (h4 : orient a b d ≠ 0) :
    segmentOverlap a b c d = true ↔ Meet a b c d := by
  refine ⟨C80_overlap_meets a b c d, ?_⟩
  rintro ⟨s, t, hs0, hs1, ht0, ht1, e⟩
  unfold along at e
  simp only [Prod.mk.injEq] at e
  obtain ⟨ex, ey⟩ := e
  have e1 : (1 - s) * orient a c d + s * orient b c d = 0 := by
    have : (1 - s) * orient a c d + s * orient b c d =
        (c.1 - (a.1 + s * (b.1 - a.1))) * (d.2 - (a.2 + s * (b.2 - a.2))) - (c.2 - (a.2 + s * (b.2 - a.2))) * (d.1 - (a.1 + s * (b.1 - a.1))) := by
      unfold orient; ring
    rw [this, ex, ey]; ring
  have e2 : (1 - t) * orient a b c + t * orient a b d = 0 := by
    have : (1 - t) * orient a b c + t * orient a b d =
        (b.1 - a.1) * ((c.2 + t * (d.2 - c.2)) - a.2) - (b.2 - a.2) * ((c.1 + t * (d.1 - c.1)) - a.1) := by
      unfold orient; ring
    rw [this, ← ex, ← ey]; ring
  have sgn : ∀ {u w s : ℚ}, u ≠ 0 → w ≠ 0 → 0 ≤ s → s ≤ 1 → (1 - s) * u + s * w = 0 → (0 < u ↔ ¬ 0 < w) := by
    intro u w s hu hw h0 h1 h
    constructor
    · intro hu' hw'
      have a1 := mul_nonneg (show 0 ≤ 1 - s by linarith) hu'.le
      have a2 := mul_nonneg h0 hw'.le
      rcases eq_or_lt_of_le h0 with hs | hs
      · rw [← hs] at h; linarith
      · have := mul_pos hs hw'; linarith
    · intro hw'
      have hw'' : w < 0 := lt_of_le_of_ne (not_lt.1 hw') hw
      by_contra hu'
      have hu'' : u < 0 := lt_of_le_of_ne (not_lt.1 hu') hu
      have a1 := mul_nonpos_of_nonneg_of_nonpos (show 0 ≤ 1 - s by linarith) hu''.le
      rcases eq_or_lt_of_le h0 with hs | hs
      · rw [← hs] at h; linarith
      · have := mul_neg_of_pos_of_neg hs hw''; linarith
  exact (overlap_iff a b c d).2 ⟨sgn h1 h2 hs0 hs1 e1, sgn h3 h4 ht0 ht1 e2⟩

/-- C80. What `GetIntersection` returns: for the lines `y = s₁ x + c₁` and `y = s₂ x + c₂` through the two segments, meeting at `(x, y)`, it returns
`(-x, c₁ - s₁ x)`: the sign of the abscissa is wrong. It is the common point only if that has the abscissa 0. -/
theorem C80_intersection_partial (a b c d : P2) (h : segmentOverlap a b c d = true) (hab : a.1 ≠ b.1) (hcd : c.1 ≠ d.1) :
    ∃ s t, 0 ≤ s ∧ s ≤ 1 ∧ 0 ≤ t ∧ t ≤ 1 ∧ along a b s = along c d t ∧ ∃ q, getIntersection a b c d = some q ∧ q.1 = - (along a b s).1 ∧
      (q = along a b s ↔ (along a b s).1 = 0) := by
  obtain ⟨s, t, hs0, hs1, ht0, ht1, e⟩ := C80_overlap_meets a b c d h
  have hx1 : b.1 - a.1 ≠ 0 := fun hh => hab (by linarith)
  have hx2 : d.1 - c.1 ≠ 0 := fun hh => hcd (by linarith)
  have hD : (b.1 - a.1) * (d.2 - c.2) - (b.2 - a.2) * (d.1 - c.1) ≠ 0 := by
    have := (frac_of_opposite ((overlap_iff a b c d).1 h).1).1
    intro hz
    apply this
    rw [← hz]; unfold orient; ring
  have hss : (d.2 - c.2) / (d.1 - c.1) - (b.2 - a.2) / (b.1 - a.1) ≠ 0 := by
    intro hz
    apply hD
    rw [div_sub_div _ _ hx2 hx1, div_eq_zero_iff] at hz
    rcases hz with hz | hz
    · linarith
    · exact absurd hz (mul_ne_zero hx2 hx1)
  refine ⟨s, t, hs0, hs1, ht0, ht1, e, ?_⟩
  unfold getIntersection
  rw [if_neg (by rintro (h | h) <;> contradiction)]
  simp only []
  rw [if_neg hss]
  unfold along at e ⊢
  simp only [Prod.mk.injEq] at e
  obtain ⟨ex, ey⟩ := e
  generalize hs1' : (b.2 - a.2) / (b.1 - a.1) = s1 at *
  generalize hs2' : (d.2 - c.2) / (d.1 - c.1) = s2 at *
  have m1 : b.2 - a.2 = s1 * (b.1 - a.1) := by rw [← hs1']; field_simp
  have m2 : d.2 - c.2 = s2 * (d.1 - c.1) := by rw [← hs2']; field_simp
  have hX : (d.2 - s2 * d.1 - (b.2 - s1 * b.1)) / (s2 - s1) = -(a.1 + s * (b.1 - a.1)) := by
    rw [div_eq_iff hss]
    have hb : b.2 = a.2 + s1 * (b.1 - a.1) := by linarith
    have hd : d.2 = c.2 + s2 * (d.1 - c.1) := by linarith
    have ey' : a.2 + s * (s1 * (b.1 - a.1)) = c.2 + t * (s2 * (d.1 - c.1)) := by rw [← m1, ← m2]; exact ey
    have ex' : c.1 = a.1 + s * (b.1 - a.1) - t * (d.1 - c.1) := by linarith
    rw [hb, hd]
    have : s2 * c.1 = s2 * (a.1 + s * (b.1 - a.1)) - t * (s2 * (d.1 - c.1)) := by
      conv_lhs => rw [ex']
      ring
    linarith [this]
  rw [hX]
  refine ⟨_, rfl, rfl, ?_, ?_⟩
  · intro hq
    have := congrArg Prod.fst hq
    simp only at this ⊢
    linarith
  · intro h0
    simp only at h0
    have hb : b.2 = a.2 + s1 * (b.1 - a.1) := by linarith
    ext
    · simp only; linarith
    · simp only
      rw [h0, m1, hb]
      have : s1 * (a.1 + s * (b.1 - a.1)) = 0 := by rw [h0]; ring
      linarith

example : segmentOverlap (1, 0) (3, 2) (1, 2) (3, 0) = true := by decide +kernel

/-- C80 is false of `GetIntersection`: the diagonals of the square from (1, 0) to (3, 2) meet in (2, 1); it returns (-2, -3), which is on neither. -/
theorem C80_refuted : segmentOverlap (1, 0) (3, 2) (1, 2) (3, 0) = true ∧ along (1, 0) (3, 2) (1 / 2) = (2, 1) ∧ along (1, 2) (3, 0) (1 / 2) = (2, 1) ∧
    getIntersection (1, 0) (3, 2) (1, 2) (3, 0) = some (-2, -3) ∧ ∀ s, 0 ≤ s → along (1, 0) (3, 2) s ≠ (-2, -3) := by
  refine ⟨by decide +kernel, by decide +kernel, by decide +kernel, by decide +kernel, fun s hs h => ?_⟩
  have := congrArg Prod.fst h
  simp only [along] at this
  linarith

/-- C80: with a vertical edge there is no finite result, although the segments cross. -/
theorem C80_vertical_refuted : segmentOverlap (0, 0) (0, 2) (-1, 1) (1, 1) = true ∧ along (0, 0) (0, 2) (1 / 2) = along (-1, 1) (1, 1) (1 / 2) ∧
    getIntersection (0, 0) (0, 2) (-1, 1) (1, 1) = none := by
  refine ⟨by decide +kernel, by decide +kernel, by decide +kernel⟩

end Verif.Poly

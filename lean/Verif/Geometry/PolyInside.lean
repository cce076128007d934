import Verif.Geometry.PolyArea
import Mathlib.Data.ZMod.Basic
import Mathlib.Algebra.Ring.Parity
import Mathlib.Data.List.Chain
import Mathlib.Tactic.IntervalCases
/-!
# C82: `PointInside` is the even-odd rule

General position: the point is on none of the lines through the edges and the first vertex. Where the ray meets vertices does not matter.
-/
namespace Verif.Poly
open Verif

/-! ## Specification -/

/-- strictly inside the triangle: on the same side of the three sides -/
def InTri (a b c p : P2) : Prop :=
  (0 < orient a b p ∧ 0 < orient b c p ∧ 0 < orient c a p) ∨ (orient a b p < 0 ∧ orient b c p < 0 ∧ orient c a p < 0)

instance (a b c p : P2) : Decidable (InTri a b c p) := by unfold InTri; infer_instance

/-- the triangles `(a, b, c)`, with `b`, `c` consecutive in the list, that have `p` strictly inside -/
def fanCount (a : P2) : List P2 → P2 → Nat
  | b :: c :: l, p => (if InTri a b c p then 1 else 0) + fanCount a (c :: l) p
  | _, _ => 0

/-- general position: `p` is not on a line through two vertices of a fan triangle -/
def Generic (a : P2) (l : List P2) (p : P2) : Prop :=
  (∀ b ∈ l, orient a b p ≠ 0) ∧ l.IsChain (fun b c => orient b c p ≠ 0)

instance (a : P2) (l : List P2) (p : P2) : Decidable (Generic a l p) := by unfold Generic; infer_instance

/-- a strictly convex polygon, in counterclockwise order: every three vertices turn left -/
def Ccw : List P2 → Prop
  | [] => True
  | a :: l => l.Pairwise (fun b c => 0 < orient a b c) ∧ Ccw l

instance : (l : List P2) → Decidable (Ccw l)
  | [] => isTrue trivial
  | a :: l => by have := instDecidableCcw l; unfold Ccw; infer_instance

/-- strictly to the left of every edge of the polygon `a :: l` -/
def LeftOfAll (a : P2) (l : List P2) (p : P2) : Prop := (a :: l ++ [a]).IsChain (fun u w => 0 < orient u w p)

/-! ## A triangle -/

theorem sign_table : ∀ p1 p2 p3 q1 q2 q3 x y z : Bool, ¬ ((p1 = p2 ∧ p2 = p3) ∧ (q1 = q2 ∧ q2 = q3) ∧ p1 ≠ q1) →
    ¬ ((x == p2) = (y == p3) ∧ (y == p3) = (z == p1)) → ¬ ((x == q2) = (y == q3) ∧ (y == q3) = (z == q1)) →
    ((((x != y) && (q1 != p1)) ^^ ((y != z) && (q2 != p2))) ^^ ((z != x) && (q3 != p3))) = ((p1 == p2 && p2 == p3) ^^ (q1 == q2 && q2 == q3)) := by
  decide +kernel

/-- the sign of a nonzero number -/
def sg (u : ℚ) : Bool := decide (0 < u)

theorem sg_mul {u w : ℚ} (hu : u ≠ 0) (hw : w ≠ 0) : (0 < u * w ↔ (sg u == sg w) = true) ∧ (u * w < 0 ↔ (sg u == sg w) = false) := by
  unfold sg
  rcases lt_or_gt_of_ne hu with h1 | h1 <;> rcases lt_or_gt_of_ne hw with h2 | h2
  · have := mul_pos_of_neg_of_neg h1 h2; simp [this, this.le, not_lt.2 h1.le, not_lt.2 h2.le]
  · have := mul_neg_of_neg_of_pos h1 h2; simp [this, this.le, not_lt.2 h1.le, h2]
  · have := mul_neg_of_pos_of_neg h1 h2; simp [this, this.le, not_lt.2 h2.le, h1]
  · have := mul_pos h1 h2; simp [this, this.le, h1, h2]

/-- three products that add up to zero do not all have the same sign; the first factors may be zero, but not all -/
theorem not_same {u1 w1 u2 w2 u3 w3 : ℚ} (h2 : w1 ≠ 0) (h4 : w2 ≠ 0) (h6 : w3 ≠ 0) (hu : ¬ (u1 = 0 ∧ u2 = 0 ∧ u3 = 0))
    (h : u1 * w1 + u2 * w2 + u3 * w3 = 0) : ¬ ((sg u1 == sg w1) = (sg u2 == sg w2) ∧ (sg u2 == sg w2) = (sg u3 == sg w3)) := by
  have weak : ∀ u w : ℚ, w ≠ 0 → ((sg u == sg w) = true → 0 ≤ u * w) ∧ ((sg u == sg w) = false → u * w ≤ 0) := by
    intro u w hw
    by_cases hu : u = 0
    · subst hu; simp
    · exact ⟨fun hh => ((sg_mul hu hw).1.2 hh).le, fun hh => ((sg_mul hu hw).2.2 hh).le⟩
  have zero : u1 * w1 = 0 → u2 * w2 = 0 → u3 * w3 = 0 → False := by
    intro a1 a2 a3
    apply hu
    exact ⟨(mul_eq_zero.1 a1).resolve_right h2, (mul_eq_zero.1 a2).resolve_right h4, (mul_eq_zero.1 a3).resolve_right h6⟩
  rintro ⟨e1, e2⟩
  cases hh : (sg u1 == sg w1)
  · have a1 := (weak u1 w1 h2).2 hh
    have a2 := (weak u2 w2 h4).2 (by rw [← e1, hh])
    have a3 := (weak u3 w3 h6).2 (by rw [← e2, ← e1, hh])
    exact zero (by linarith) (by linarith) (by linarith)
  · have a1 := (weak u1 w1 h2).1 hh
    have a2 := (weak u2 w2 h4).1 (by rw [← e1, hh])
    have a3 := (weak u3 w3 h6).1 (by rw [← e2, ← e1, hh])
    exact zero (by linarith) (by linarith) (by linarith)

theorem sg_all {u1 u2 u3 : ℚ} (h1 : u1 ≠ 0) (h2 : u2 ≠ 0) (h3 : u3 ≠ 0) :
    (sg u1 = sg u2 ∧ sg u2 = sg u3) ↔ ((0 < u1 ∧ 0 < u2 ∧ 0 < u3) ∨ (u1 < 0 ∧ u2 < 0 ∧ u3 < 0)) := by
  unfold sg
  rcases lt_or_gt_of_ne h1 with a | a <;> rcases lt_or_gt_of_ne h2 with b | b <;> rcases lt_or_gt_of_ne h3 with c | c <;>
    simp [a, b, c, not_lt.2 a.le, not_lt.2 b.le, not_lt.2 c.le]

theorem overlap_sg (a b q p : P2) : segmentOverlap a b q p = ((sg (orient a q p) != sg (orient b q p)) && (sg (orient a b q) != sg (orient a b p))) := by
  unfold segmentOverlap sg
  rw [clockwise_eq, clockwise_eq, clockwise_eq, clockwise_eq]

/-- the far point on the line `a b`: it is beyond both, so the ends are on the same side of the ray -/
theorem far_on_line (a b p q : P2) (ha : a.1 < q.1) (hb : b.1 < q.1) (hp : orient a b p ≠ 0) (hq : orient a b q = 0) :
    sg (orient a q p) = sg (orient b q p) ∧ orient a q p ≠ 0 ∧ 0 < orient a q p * orient b q p := by
  have e : (q.1 - b.1) * orient a q p = (q.1 - a.1) * orient b q p := by
    have : (q.1 - b.1) * orient a q p = (q.1 - a.1) * orient b q p + (p.1 - q.1) * orient a b q := by unfold orient; ring
    rw [this, hq]; ring
  have e2 : (q.1 - a.1) * orient a b p = (b.1 - a.1) * orient a q p := by
    have : (q.1 - a.1) * orient a b p = (b.1 - a.1) * orient a q p + (p.1 - a.1) * orient a b q := by unfold orient; ring
    rw [this, hq]; ring
  have ha' : 0 < q.1 - a.1 := sub_pos.2 ha
  have hb' : 0 < q.1 - b.1 := sub_pos.2 hb
  have hx : orient a q p ≠ 0 := by
    intro h0
    rw [h0, mul_zero] at e2
    exact hp ((mul_eq_zero.1 e2).resolve_left ha'.ne')
  have key : (0 < orient a q p ∧ 0 < orient b q p) ∨ (orient a q p < 0 ∧ orient b q p < 0) := by
    rcases lt_or_gt_of_ne hx with h | h
    · right
      refine ⟨h, ?_⟩
      by_contra hc
      have := mul_neg_of_pos_of_neg hb' h
      have := mul_nonneg ha'.le (not_lt.1 hc)
      linarith
    · left
      refine ⟨h, ?_⟩
      by_contra hc
      have := mul_pos hb' h
      have := mul_nonpos_of_nonneg_of_nonpos ha'.le (not_lt.1 hc)
      linarith
  rcases key with ⟨h1, h2⟩ | ⟨h1, h2⟩
  · exact ⟨by unfold sg; simp [h1, h2], hx, mul_pos h1 h2⟩
  · exact ⟨by unfold sg; simp [not_lt.2 h1.le, not_lt.2 h2.le], hx, mul_pos_of_neg_of_neg h1 h2⟩

/-- a point right of the three vertices is not in the triangle -/
theorem far_not_inTri (a b c q : P2) (ha : a.1 < q.1) (hb : b.1 < q.1) (hc : c.1 < q.1) : ¬ InTri a b c q := by
  intro hin
  have e : orient b c q * (a.1 - q.1) + orient c a q * (b.1 - q.1) + orient a b q * (c.1 - q.1) = 0 := by unfold orient; ring
  rcases hin with ⟨h1, h2, h3⟩ | ⟨h1, h2, h3⟩
  · have := mul_neg_of_pos_of_neg h2 (sub_neg.2 ha)
    have := mul_neg_of_pos_of_neg h3 (sub_neg.2 hb)
    have := mul_neg_of_pos_of_neg h1 (sub_neg.2 hc)
    linarith
  · have := mul_pos_of_neg_of_neg h2 (sub_neg.2 ha)
    have := mul_pos_of_neg_of_neg h3 (sub_neg.2 hb)
    have := mul_pos_of_neg_of_neg h1 (sub_neg.2 hc)
    linarith

/-- one side through the far point, the others not all: signs -/
theorem zero_side {x y q2 q3 : ℚ} (hs : 0 < x * y) (h : x * q2 + y * q3 = 0) (hne : ¬ (q2 = 0 ∧ q3 = 0)) : sg q2 ≠ sg q3 := by
  have hx : x ≠ 0 := by rintro rfl; simp at hs
  have hy : y ≠ 0 := by rintro rfl; simp at hs
  have e : (x * y) * (q2 * q3) = - (x * q2) ^ 2 := by
    have : y * q3 = - (x * q2) := by linarith
    calc (x * y) * (q2 * q3) = (x * q2) * (y * q3) := by ring
      _ = _ := by rw [this]; ring
  have h2 : q2 ≠ 0 := by
    intro h0
    rw [h0, mul_zero, zero_add] at h
    exact hne ⟨h0, (mul_eq_zero.1 h).resolve_left hy⟩
  have h3 : q3 ≠ 0 := by
    intro h0
    rw [h0, mul_zero, add_zero] at h
    exact hne ⟨(mul_eq_zero.1 h).resolve_left hx, h0⟩
  have hneg : q2 * q3 < 0 := by
    by_contra hc
    have a1 := mul_nonneg hs.le (not_lt.1 hc)
    have a2 : 0 < (x * q2) ^ 2 := lt_of_le_of_ne (sq_nonneg _) (Ne.symm (pow_ne_zero 2 (mul_ne_zero hx h2)))
    linarith
  have := (sg_mul h2 h3).2.1 hneg
  intro he
  rw [he] at this
  simp at this

/-- crossings of the sides of a triangle by the segment from the point `q`, right of the triangle, to `p`: odd exactly if `p` is inside -/
theorem tri_parity (a b c p q : P2) (ha : a.1 < q.1) (hb : b.1 < q.1) (hc : c.1 < q.1)
    (hp1 : orient a b p ≠ 0) (hp2 : orient b c p ≠ 0) (hp3 : orient c a p ≠ 0) :
    ((segmentOverlap a b q p ^^ segmentOverlap b c q p) ^^ segmentOverlap c a q p) = decide (InTri a b c p) := by
  have hfar := far_not_inTri a b c q ha hb hc
  have hPiff : ((sg (orient a b p) == sg (orient b c p)) && (sg (orient b c p) == sg (orient c a p))) = decide (InTri a b c p) := by
    rw [Bool.eq_iff_iff, decide_eq_true_iff, Bool.and_eq_true, beq_iff_eq, beq_iff_eq]
    exact sg_all hp1 hp2 hp3
  by_cases hpq : p = q
  · subst hpq
    rw [overlap_sg, overlap_sg, overlap_sg]
    simp [hfar]
  have eP : orient a q p * orient b c p + orient b q p * orient c a p + orient c q p * orient a b p = 0 := by unfold orient; ring
  have eQ : orient a q p * orient b c q + orient b q p * orient c a q + orient c q p * orient a b q = 0 := by unfold orient; ring
  have hu : ¬ (orient a q p = 0 ∧ orient b q p = 0 ∧ orient c q p = 0) := by
    rintro ⟨h1, h2, _⟩
    have e1 : orient a b p * (q.1 - p.1) = orient b q p * (p.1 - a.1) - orient a q p * (p.1 - b.1) := by unfold orient; ring
    have e2 : orient a b p * (q.2 - p.2) = orient b q p * (p.2 - a.2) - orient a q p * (p.2 - b.2) := by unfold orient; ring
    rw [h1, h2] at e1 e2
    have z1 : q.1 - p.1 = 0 := by
      have : orient a b p * (q.1 - p.1) = 0 := by rw [e1]; ring
      exact (mul_eq_zero.1 this).resolve_left hp1
    have z2 : q.2 - p.2 = 0 := by
      have : orient a b p * (q.2 - p.2) = 0 := by rw [e2]; ring
      exact (mul_eq_zero.1 this).resolve_left hp1
    exact hpq (Prod.ext (by linarith) (by linarith))
  have hP := not_same hp2 hp3 hp1 hu eP
  rw [overlap_sg, overlap_sg, overlap_sg, ← hPiff]
  by_cases hsame : sg (orient a q p) = sg (orient b q p) ∧ sg (orient b q p) = sg (orient c q p)
  · -- all three vertices on one side of the ray
    obtain ⟨s1, s2⟩ := hsame
    rw [s1, s2] at hP ⊢
    revert hP
    cases sg (orient c q p) <;> cases sg (orient a b p) <;> cases sg (orient b c p) <;> cases sg (orient c a p) <;> simp
  · -- the sides are not all on lines through the far point
    have f1 := far_on_line a b p q ha hb hp1
    have f2 := far_on_line b c p q hb hc hp2
    have f3 := far_on_line c a p q hc ha hp3
    have hQ : ¬ (sg (orient a b q) = sg (orient b c q) ∧ sg (orient b c q) = sg (orient c a q)) ∧
        ¬ ((sg (orient a q p) == sg (orient b c q)) = (sg (orient b q p) == sg (orient c a q)) ∧
           (sg (orient b q p) == sg (orient c a q)) = (sg (orient c q p) == sg (orient a b q))) := by
      by_cases z1 : orient a b q = 0
      · obtain ⟨s1, _, m1⟩ := f1 z1
        have := zero_side m1 (by rw [z1, mul_zero, add_zero] at eQ; exact eQ)
          (fun hh => hsame ⟨s1, (f2 hh.1).1⟩)
        refine ⟨fun hh => this hh.2, fun hh => this ?_⟩
        have h1 := hh.1
        rw [s1] at h1
        revert h1
        cases sg (orient b q p) <;> cases sg (orient b c q) <;> cases sg (orient c a q) <;> simp
      · by_cases z2 : orient b c q = 0
        · obtain ⟨s2, _, m2⟩ := f2 z2
          have := zero_side m2 (q2 := orient c a q) (q3 := orient a b q) (by rw [z2, mul_zero, zero_add] at eQ; exact eQ)
            (fun hh => z1 hh.2)
          refine ⟨fun hh => this ?_, fun hh => this ?_⟩
          · rw [← hh.2, ← hh.1]
          have h1 := hh.2
          rw [s2] at h1
          revert h1
          cases sg (orient c q p) <;> cases sg (orient a b q) <;> cases sg (orient c a q) <;> simp
        · by_cases z3 : orient c a q = 0
          · obtain ⟨s3, _, m3⟩ := f3 z3
            have := zero_side m3 (q2 := orient a b q) (q3 := orient b c q) (by rw [z3, mul_zero, add_zero] at eQ; linarith)
              (fun hh => z1 hh.1)
            refine ⟨fun hh => this hh.1, fun hh => this ?_⟩
            have h1 := hh.1.trans hh.2
            rw [s3] at h1
            revert h1
            cases sg (orient a q p) <;> cases sg (orient a b q) <;> cases sg (orient b c q) <;> simp
          · exact ⟨fun hh => hfar ((sg_all z1 z2 z3).1 hh), not_same z2 z3 z1 hu eQ⟩
    have t := sign_table (sg (orient a b p)) (sg (orient b c p)) (sg (orient c a p)) (sg (orient a b q)) (sg (orient b c q)) (sg (orient c a q))
      (sg (orient a q p)) (sg (orient b q p)) (sg (orient c q p)) (fun hh => hQ.1 hh.2.1) hP hQ.2
    rw [t]
    have : (sg (orient a b q) == sg (orient b c q) && sg (orient b c q) == sg (orient c a q)) = false := by
      rw [Bool.eq_false_iff, Ne, Bool.and_eq_true, beq_iff_eq, beq_iff_eq]; exact hQ.1
    rw [this, Bool.xor_false]

/-! ## A fan of triangles -/

/-- crossing of one edge, as a parity -/
def cr (q p : P2) (a b : P2) : ZMod 2 := if segmentOverlap a b q p then 1 else 0

theorem two_zero (z : ZMod 2) : z + z = 0 := by revert z; decide

theorem crossings_cast (v : List P2) (p : P2) : ((crossings v p : Nat) : ZMod 2) = around (cr farPoint p) v := by
  rw [around_range]
  unfold crossings
  generalize List.range v.length = l
  induction l with
  | nil => simp
  | cons i l ih =>
    rw [List.map_cons, List.sum_cons, ← ih, List.filter_cons]
    unfold cr
    by_cases h : segmentOverlap (vtx v i) (vtx v (i + 1)) farPoint p = true
    · rw [if_pos h, if_pos h]; push_cast [List.length_cons]; ring
    · rw [if_neg h, if_neg h]; simp

theorem orient_swap (a b p : P2) : orient b a p = - orient a b p := by unfold orient; ring

theorem cr_symm (a b q p : P2) (ha : a.1 < q.1) (hb : b.1 < q.1) (h1 : orient a b p ≠ 0) : cr q p b a = cr q p a b := by
  have : segmentOverlap b a q p = segmentOverlap a b q p := by
    rw [overlap_sg, overlap_sg]
    by_cases h2 : orient a b q = 0
    · rw [(far_on_line a b p q ha hb h1 h2).1]; simp
    rw [orient_swap a b q, orient_swap a b p]
    have hs : ∀ u : ℚ, u ≠ 0 → sg (-u) = !sg u := by
      intro u hu
      unfold sg
      rcases lt_or_gt_of_ne hu with h | h
      · simp [h, not_lt.2 h.le]
      · simp [h, h.le]
    rw [hs _ h1, hs _ h2]
    cases sg (orient a q p) <;> cases sg (orient b q p) <;> cases sg (orient a b q) <;> cases sg (orient a b p) <;> rfl
  unfold cr; rw [this]

theorem cr_xor (b1 b2 : Bool) : ((if b1 then 1 else 0 : ZMod 2)) + (if b2 then 1 else 0) = if (b1 ^^ b2) then 1 else 0 := by
  cases b1 <;> cases b2 <;> decide

theorem fan_parity (q p a : P2) : ∀ (l : List P2) (b : P2), (∀ w ∈ a :: b :: l, w.1 < q.1) → Generic a (b :: l) p →
    cr q p a b + chain (cr q p) (b :: l ++ [a]) = ((fanCount a (b :: l) p : Nat) : ZMod 2) := by
  intro l
  induction l with
  | nil =>
    intro b hx hg
    obtain ⟨h2, _⟩ := hg
    simp only [chain, List.cons_append, List.nil_append, fanCount, add_zero]
    rw [cr_symm a b q p (hx a (by simp)) (hx b (by simp)) (h2 b (by simp)), two_zero]; rfl
  | cons c l ih =>
    intro b hx hg
    obtain ⟨h2, h3⟩ := hg
    have hb := h2 b (by simp)
    have hc := h2 c (by simp)
    rw [List.isChain_cons_cons] at h3
    have ih' := ih c (fun w hw => hx w (by simp only [List.mem_cons] at hw ⊢; tauto)) ⟨fun w hw => h2 w (List.mem_cons_of_mem _ hw), h3.2⟩
    have hch : chain (cr q p) (b :: c :: l ++ [a]) = cr q p b c + chain (cr q p) (c :: l ++ [a]) := rfl
    have hca : orient c a p ≠ 0 := by rw [orient_swap]; exact neg_ne_zero.2 hc
    have ht := tri_parity a b c p q (hx a (by simp)) (hx b (by simp)) (hx c (by simp)) hb h3.1 hca
    have hsum : cr q p a b + cr q p b c + cr q p c a = (if InTri a b c p then 1 else 0) := by
      unfold cr
      rw [cr_xor, cr_xor, ht]
      by_cases hP : InTri a b c p <;> simp [hP]
    have hself : cr q p c a + cr q p a c = 0 := by rw [cr_symm a c q p (hx a (by simp)) (hx c (by simp)) hc, two_zero]
    have e : cr q p a b + chain (cr q p) (b :: c :: l ++ [a]) =
        (cr q p a b + cr q p b c + cr q p c a) + (cr q p a c + chain (cr q p) (c :: l ++ [a])) := by
      rw [hch]
      calc _ = cr q p a b + cr q p b c + chain (cr q p) (c :: l ++ [a]) + 0 := by ring
        _ = cr q p a b + cr q p b c + chain (cr q p) (c :: l ++ [a]) + (cr q p c a + cr q p a c) := by rw [hself]
        _ = _ := by ring
    rw [e, hsum, ih']
    simp only [fanCount]
    push_cast
    ring

theorem pointInside_iff (v : List P2) (p : P2) : pointInside v p = true ↔ Odd (crossings v p) := by
  unfold pointInside
  by_cases h : crossings v p % 2 = 0
  · rw [if_pos h]; simp only [Bool.false_eq_true, false_iff, Nat.not_odd_iff_even, Nat.even_iff]; exact h
  · rw [if_neg h]; simp only [true_iff, Nat.odd_iff]; omega

/-- C82. For every polygon with all abscissae below 10000 and every point in general position, `PointInside` is true exactly if the number of triangles
of the fan from the first vertex that contain the point is odd: the even-odd rule. -/
theorem C82_even_odd_partial (a b : P2) (l : List P2) (p : P2) (hg : Generic a (b :: l) p) (hx : ∀ w ∈ a :: b :: l, w.1 < 10000) :
    pointInside (a :: b :: l) p = true ↔ Odd (fanCount a (b :: l) p) := by
  rw [pointInside_iff]
  have h1 := crossings_cast (a :: b :: l) p
  have h2 : around (cr farPoint p) (a :: b :: l) = cr farPoint p a b + chain (cr farPoint p) (b :: l ++ [a]) := rfl
  rw [h2, fan_parity farPoint p a l b hx hg, ZMod.natCast_eq_natCast_iff'] at h1
  rw [Nat.odd_iff, Nat.odd_iff, h1]

/-- C82. For a triangle: strictly inside. -/
theorem C82_triangle_partial (a b c : P2) (p : P2) (hg : Generic a [b, c] p) (hx : ∀ w ∈ [a, b, c], w.1 < 10000) :
    pointInside [a, b, c] p = true ↔ InTri a b c p := by
  rw [C82_even_odd_partial a b [c] p hg hx]
  simp only [fanCount, add_zero]
  by_cases h : InTri a b c p <;> simp [h]

/-! ## Convex polygons -/

theorem inTri_iff_pos (a b c p : P2) (hT : 0 < orient a b c) : InTri a b c p ↔ (0 < orient a b p ∧ 0 < orient b c p ∧ orient a c p < 0) := by
  have hs : orient a b p + orient b c p + orient c a p = orient a b c := by unfold orient; ring
  have hc : orient c a p = - orient a c p := orient_swap a c p
  unfold InTri
  constructor
  · rintro (⟨h1, h2, h3⟩ | ⟨h1, h2, h3⟩)
    · exact ⟨h1, h2, by linarith⟩
    · linarith
  · rintro ⟨h1, h2, h3⟩
    exact Or.inl ⟨h1, h2, by linarith⟩

/-- behind the last `+` there are no more triangles -/
theorem fan_neg (a p : P2) (l : List P2) (b : P2) (hcc : (b :: l).Pairwise (fun b c => 0 < orient a b c)) (hneg : ∀ w ∈ b :: l, orient a w p < 0) :
    fanCount a (b :: l) p = 0 := by
  induction l generalizing b with
  | nil => rfl
  | cons c l ih =>
    simp only [fanCount]
    rw [List.pairwise_cons] at hcc
    rw [ih c hcc.2 (fun w hw => hneg w (List.mem_cons_of_mem _ hw)), if_neg]
    rw [inTri_iff_pos a b c p (hcc.1 c (by simp))]
    rintro ⟨h1, _, _⟩
    have := hneg b (by simp)
    linarith

/-- once right of `a → w`, right of `a → w'` for all later `w'` -/
theorem later_neg (a p v1 : P2) (h1 : 0 < orient a v1 p) : ∀ (l : List P2) (b : P2), (b :: l).Pairwise (fun b c => 0 < orient a b c) →
    (∀ w ∈ b :: l, 0 ≤ orient a v1 w) → (∀ w ∈ b :: l, orient a w p ≠ 0) → orient a b p < 0 → ∀ w ∈ b :: l, orient a w p < 0 := by
  intro l b hcc h0 hne hb w hw
  rw [List.mem_cons] at hw
  rcases hw with rfl | hw
  · exact hb
  · by_contra hc
    have hpos : 0 < orient a w p := lt_of_le_of_ne (not_lt.1 hc) (Ne.symm (hne w (List.mem_cons_of_mem _ hw)))
    have hT := (List.pairwise_cons.1 hcc).1 w hw
    have hb0 := h0 b (by simp)
    have hw0 := h0 w (List.mem_cons_of_mem _ hw)
    -- orient a b w * orient a v1 p = orient a b p * orient a v1 w - orient a w p * orient a v1 b
    have e : orient a b w * orient a v1 p = orient a b p * orient a v1 w - orient a w p * orient a v1 b := by unfold orient; ring
    have := mul_pos hT h1
    have := mul_nonpos_of_nonpos_of_nonneg hb.le hw0
    have := mul_nonneg hpos.le hb0
    linarith

/-- the point is in exactly one triangle of the fan -/
theorem fan_one (a p v1 z : P2) (h1 : 0 < orient a v1 p) (hz : orient a z p < 0) : ∀ (l : List P2) (b : P2),
    (b :: l ++ [z]).Pairwise (fun b c => 0 < orient a b c) → (∀ w ∈ b :: l ++ [z], 0 ≤ orient a v1 w) → (∀ w ∈ b :: l ++ [z], orient a w p ≠ 0) →
    (b :: l ++ [z]).IsChain (fun u w => 0 < orient u w p) → 0 < orient a b p → fanCount a (b :: l ++ [z]) p = 1 := by
  intro l
  induction l with
  | nil =>
    intro b hcc h0 hne hch hb
    simp only [List.cons_append, List.nil_append, fanCount, add_zero] at *
    rw [if_pos]
    rw [inTri_iff_pos a b z p ((List.pairwise_cons.1 hcc).1 z (by simp))]
    exact ⟨hb, (List.isChain_cons_cons.1 hch).1, hz⟩
  | cons c l ih =>
    intro b hcc h0 hne hch hb
    simp only [List.cons_append] at *
    simp only [fanCount]
    have hT := (List.pairwise_cons.1 hcc).1 c (by simp)
    have hcc' := (List.pairwise_cons.1 hcc).2
    have h0' : ∀ w ∈ c :: (l ++ [z]), 0 ≤ orient a v1 w := fun w hw => h0 w (List.mem_cons_of_mem _ hw)
    have hne' : ∀ w ∈ c :: (l ++ [z]), orient a w p ≠ 0 := fun w hw => hne w (List.mem_cons_of_mem _ hw)
    obtain ⟨he, hch'⟩ := List.isChain_cons_cons.1 hch
    rcases lt_or_gt_of_ne (hne' c (by simp)) with hc | hc
    · rw [if_pos ((inTri_iff_pos a b c p hT).2 ⟨hb, he, hc⟩)]
      rw [fan_neg a p (l ++ [z]) c hcc' (later_neg a p v1 h1 _ c hcc' h0' hne' hc)]
    · rw [if_neg (fun hin => by have := ((inTri_iff_pos a b c p hT).1 hin).2.2; linarith)]
      rw [ih c hcc' h0' hne' hch' hc]

/-- vertices of a convex polygon are on the left of each edge -/
theorem ccw_left : ∀ (v : List P2), Ccw v → ∀ (s t : List P2) (x y : P2), v = s ++ x :: y :: t → ∀ w ∈ v, 0 ≤ orient x y w := by
  intro v
  induction v with
  | nil => intro _ s t x y h; simp at h
  | cons a v ih =>
    intro hc s t x y h w hw
    obtain ⟨hp, hc'⟩ := hc
    cases s with
    | nil =>
      simp only [List.nil_append, List.cons.injEq] at h
      obtain ⟨rfl, rfl⟩ := h
      simp only [List.mem_cons] at hw
      rcases hw with rfl | rfl | hw
      · unfold orient; apply le_of_eq; ring
      · unfold orient; apply le_of_eq; ring
      · exact ((List.pairwise_cons.1 hp).1 w hw).le
    | cons a' s =>
      simp only [List.cons_append, List.cons.injEq] at h
      obtain ⟨rfl, rfl⟩ := h
      rw [List.mem_cons] at hw
      rcases hw with rfl | hw
      · have : 0 < orient w x y := by
          rw [List.pairwise_append] at hp
          exact (List.pairwise_cons.1 hp.2.1).1 y (by simp)
        have e : orient x y w = orient w x y := by unfold orient; ring
        rw [e]; exact this.le
      · exact ih hc' s t x y rfl w hw

/-- inside a triangle of points on the left of a line -/
theorem inTri_left (a b c p x y : P2) (ha : 0 ≤ orient x y a) (hb : 0 ≤ orient x y b) (hc : 0 ≤ orient x y c) (hT : 0 < orient a b c) (h : InTri a b c p) :
    0 ≤ orient x y p := by
  obtain ⟨h1, h2, h3⟩ := (inTri_iff_pos a b c p hT).1 h
  have e : orient a b c * orient x y p = orient b c p * orient x y a + (- orient a c p) * orient x y b + orient a b p * orient x y c := by unfold orient; ring
  have := mul_nonneg h2.le ha
  have := mul_nonneg (show 0 ≤ - orient a c p by linarith) hb
  have := mul_nonneg h1.le hc
  by_contra hn
  have := mul_neg_of_pos_of_neg hT (not_le.1 hn)
  linarith

theorem fan_zero (a p x y : P2) (hp : orient x y p < 0) : ∀ (l : List P2), l.Pairwise (fun b c => 0 < orient a b c) → (∀ w ∈ a :: l, 0 ≤ orient x y w) →
    fanCount a l p = 0 := by
  intro l
  induction l with
  | nil => intro _ _; rfl
  | cons b l ih =>
    intro hcc h
    cases l with
    | nil => rfl
    | cons c l =>
      simp only [fanCount]
      rw [List.pairwise_cons] at hcc
      rw [ih hcc.2 (fun w hw => h w (by simp only [List.mem_cons] at hw ⊢; tauto)), if_neg]
      intro hin
      have := inTri_left a b c p x y (h a (by simp)) (h b (by simp)) (h c (by simp)) (hcc.1 c (by simp)) hin
      linarith

theorem not_isChain_split {R : P2 → P2 → Prop} : ∀ l : List P2, ¬ l.IsChain R → ∃ (s t : List P2) (x y : P2), l = s ++ x :: y :: t ∧ ¬ R x y := by
  intro l
  induction l with
  | nil => intro h; exact absurd List.IsChain.nil h
  | cons a l ih =>
    intro h
    cases l with
    | nil => exact absurd (List.isChain_singleton a) h
    | cons b l =>
      rw [List.isChain_cons_cons] at h
      by_cases hr : R a b
      · obtain ⟨s, t, x, y, e, hn⟩ := ih (fun hh => h ⟨hr, hh⟩)
        exact ⟨a :: s, t, x, y, by rw [e]; rfl, hn⟩
      · exact ⟨[], l, a, b, rfl, hr⟩

/-- C82. For a strictly convex polygon with at least three vertices and abscissae below 10000, and a point in general position, `PointInside` is true
exactly if the point is strictly to the left of every edge, i.e. strictly inside. -/
theorem C82_convex_partial (a b : P2) (m : List P2) (z : P2) (p : P2) (hcc : Ccw (a :: b :: m ++ [z])) (hx : ∀ w ∈ a :: b :: m ++ [z], w.1 < 10000)
    (hg : Generic a (b :: m ++ [z]) p) : pointInside (a :: b :: m ++ [z]) p = true ↔ LeftOfAll a (b :: m ++ [z]) p := by
  have hpo := C82_even_odd_partial a b (m ++ [z]) p hg hx
  simp only [List.cons_append] at hpo ⊢
  rw [hpo]
  have hpw : (b :: (m ++ [z])).Pairwise (fun b c => 0 < orient a b c) := hcc.1
  constructor
  · intro hodd
    by_contra hn
    unfold LeftOfAll at hn
    obtain ⟨s, t, x, y, e, hr⟩ := not_isChain_split _ hn
    have key : ∀ w ∈ a :: (b :: (m ++ [z])), 0 ≤ orient x y w := by
      rcases List.eq_nil_or_concat t with rfl | ⟨t', u, rfl⟩
      · -- the closing edge
        have e' : a :: b :: (m ++ [z]) ++ [a] = (s ++ [x]) ++ [y] := by simpa using e
        obtain ⟨e1, e2⟩ := List.append_inj' e' rfl
        have hy : a = y := by simpa using e2
        have e3 : (a :: b :: m) ++ [z] = s ++ [x] := by simpa using e1
        obtain ⟨_, e4⟩ := List.append_inj' e3 rfl
        have hxz : z = x := by simpa using e4
        subst hy hxz
        intro w hw
        rw [List.mem_cons] at hw
        rcases hw with rfl | hw
        · unfold orient; apply le_of_eq; ring
        · have hw' : w = z ∨ 0 < orient a w z := by
            have hpw' : ((b :: m) ++ [z]).Pairwise (fun b c => 0 < orient a b c) := hpw
            rw [List.pairwise_append] at hpw'
            have hw2 : w ∈ (b :: m) ++ [z] := hw
            rw [List.mem_append] at hw2
            rcases hw2 with hw2 | hw2
            · exact Or.inr (hpw'.2.2 w hw2 z (by simp))
            · exact Or.inl (by simpa using hw2)
          rcases hw' with rfl | hw'
          · unfold orient; apply le_of_eq; ring
          · have e : orient z a w = orient a w z := by unfold orient; ring
            rw [e]; exact hw'.le
      · have e' : (a :: b :: (m ++ [z])) ++ [a] = (s ++ x :: y :: t') ++ [u] := by simpa using e
        obtain ⟨e1, _⟩ := List.append_inj' e' rfl
        exact ccw_left _ hcc s t' x y e1
    have hxy : orient x y p ≠ 0 := by
      obtain ⟨g2, g3⟩ := hg
      have hz' := g2 z (by simp)
      have hb' := g2 b (by simp)
      have hchain : (a :: (b :: (m ++ [z])) ++ [a]).IsChain (fun u w => orient u w p ≠ 0) := by
        have g3' : (b :: (m ++ [z])).IsChain (fun u w => orient u w p ≠ 0) := g3
        have : (a :: ((b :: m) ++ [z])).IsChain (fun u w => orient u w p ≠ 0) := List.isChain_cons_cons.2 ⟨hb', g3'⟩
        have h2 : ((a :: b :: m) ++ ([z] ++ [a])).IsChain (fun u w => orient u w p ≠ 0) := by
          show ((a :: b :: m) ++ z :: [a]).IsChain (fun u w => orient u w p ≠ 0)
          rw [List.isChain_split]
          refine ⟨this, ?_⟩
          rw [List.isChain_cons_cons]
          refine ⟨?_, List.isChain_singleton _⟩
          rw [orient_swap]; exact neg_ne_zero.2 hz'
        simpa using h2
      rw [e] at hchain
      have := (List.isChain_append.1 hchain).2.1
      exact (List.isChain_cons_cons.1 this).1
    have hneg : orient x y p < 0 := lt_of_le_of_ne (not_lt.1 hr) hxy
    rw [fan_zero a p x y hneg _ hpw key] at hodd
    exact absurd hodd (by decide)
  · intro hl
    unfold LeftOfAll at hl
    have hab : 0 < orient a b p := (List.isChain_cons_cons.1 hl).1
    have hl2 : (b :: (m ++ [z]) ++ [a]).IsChain (fun u w => 0 < orient u w p) := (List.isChain_cons_cons.1 hl).2
    have hza : 0 < orient z a p := by
      have h3 : ((b :: m) ++ z :: [a]).IsChain (fun u w => 0 < orient u w p) := by simpa using hl2
      exact (List.isChain_cons_cons.1 (List.isChain_append.1 h3).2.1).1
    have hz : orient a z p < 0 := by rw [orient_swap] at hza; linarith
    have hch : (b :: m ++ [z]).IsChain (fun u w => 0 < orient u w p) := (List.isChain_append.1 hl2).1
    have h0 : ∀ w ∈ b :: m ++ [z], 0 ≤ orient a b w := by
      intro w hw
      have := ccw_left _ hcc [] (m ++ [z]) a b rfl w (List.mem_cons_of_mem _ hw)
      exact this
    have := fan_one a p b z hab hz m b hpw h0 (fun w hw => hg.1 w hw) hch hab
    simp only [List.cons_append] at this
    rw [this]; decide

/-! ### cases that meet the hypotheses -/

example : Generic (0, 0) [(4, 1), (5, 5), (1, 4)] (2, 3) ∧ Ccw [(0, 0), (4, 1), (5, 5), (1, 4)] ∧
    pointInside [(0, 0), (4, 1), (5, 5), (1, 4)] (2, 3) = true := by decide +kernel
example : Generic (0, 0) [(4, 1), (5, 5), (1, 4)] (2, -3) ∧ pointInside [(0, 0), (4, 1), (5, 5), (1, 4)] (2, -3) = false := by decide +kernel

/-- C82 fails if the polygon reaches beyond (10000, 10000), which is taken to be outside: a point strictly inside a triangle is said to be outside. -/
theorem C82_far_refuted : InTri (0, 0) (40000, 0) (0, 40000) (1, 2) ∧ Generic (0, 0) [(40000, 0), (0, 40000)] (1, 2) ∧
    pointInside [(0, 0), (40000, 0), (0, 40000)] (1, 2) = false := by decide +kernel

end Verif.Poly

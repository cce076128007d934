import Verif.Geometry.PolyInside
import Mathlib.Data.List.Perm.Basic
/-!
# C79 and C81: overlap of polygons by projections, and untangling
-/
namespace Verif.Poly
open Verif

/-! ## Specification for C79 -/

/-- the convex hull of the vertices -/
inductive InHull (v : List P2) : P2 → Prop
  | vertex (p : P2) : p ∈ v → InHull v p
  | mix (p q : P2) (t : ℚ) : InHull v p → InHull v q → 0 ≤ t → t ≤ 1 → InHull v (along p q t)

/-- no edge of the closed polygon is vertical or of zero length -/
def NoVertical (v : List P2) : Prop := ∀ i < v.length, (vtx v i).1 ≠ (vtx v (i + 1)).1

/-! ## Proofs for C79 -/

theorem projStep_mono (p cs r w : P2) : (projStep p cs r w).1 ≤ r.1 ∧ r.2 ≤ (projStep p cs r w).2 ∧
    (projStep p cs r w).1 ≤ (w.1 - p.1) * cs.1 + (w.2 - p.2) * cs.2 ∧ (w.1 - p.1) * cs.1 + (w.2 - p.2) * cs.2 ≤ (projStep p cs r w).2 := by
  unfold projStep
  generalize (w.1 - p.1) * cs.1 + (w.2 - p.2) * cs.2 = x
  simp only []
  by_cases h1 : x < r.1
  · rw [if_pos h1]
    by_cases h2 : x > r.2
    · rw [if_pos h2]; exact ⟨h1.le, le_of_lt h2, le_refl _, le_refl _⟩
    · rw [if_neg h2]; exact ⟨h1.le, le_refl _, le_refl _, not_lt.1 h2⟩
  · rw [if_neg h1]
    by_cases h2 : x > r.2
    · rw [if_pos h2]; exact ⟨le_refl _, le_of_lt h2, not_lt.1 h1, le_refl _⟩
    · rw [if_neg h2]; exact ⟨le_refl _, le_refl _, not_lt.1 h1, not_lt.1 h2⟩

theorem project_foldl (p cs : P2) : ∀ (l : List P2) (r : P2), (l.foldl (projStep p cs) r).1 ≤ r.1 ∧ r.2 ≤ (l.foldl (projStep p cs) r).2 ∧
    ∀ w ∈ l, (l.foldl (projStep p cs) r).1 ≤ (w.1 - p.1) * cs.1 + (w.2 - p.2) * cs.2 ∧
      (w.1 - p.1) * cs.1 + (w.2 - p.2) * cs.2 ≤ (l.foldl (projStep p cs) r).2 := by
  intro l
  induction l with
  | nil => intro r; exact ⟨le_refl _, le_refl _, fun w hw => by simp at hw⟩
  | cons a l ih =>
    intro r
    rw [List.foldl_cons]
    obtain ⟨i1, i2, i3⟩ := ih (projStep p cs r a)
    obtain ⟨s1, s2, s3, s4⟩ := projStep_mono p cs r a
    refine ⟨i1.trans s1, s2.trans i2, fun w hw => ?_⟩
    rw [List.mem_cons] at hw
    rcases hw with rfl | hw
    · exact ⟨i1.trans s3, s4.trans i2⟩
    · exact i3 w hw

/-- the range of the projection contains the projections of all points of the hull -/
theorem project_hull (v : List P2) (p cs z : P2) (hz : InHull v z) : (project v p (some cs)).1 ≤ (z.1 - p.1) * cs.1 + (z.2 - p.2) * cs.2 ∧
    (z.1 - p.1) * cs.1 + (z.2 - p.2) * cs.2 ≤ (project v p (some cs)).2 := by
  unfold project
  simp only []
  induction hz with
  | vertex w hw => exact (project_foldl p cs v (10000, 0)).2.2 w hw
  | mix a b t _ _ h0 h1 iha ihb =>
    have e : ((along a b t).1 - p.1) * cs.1 + ((along a b t).2 - p.2) * cs.2 =
        (1 - t) * ((a.1 - p.1) * cs.1 + (a.2 - p.2) * cs.2) + t * ((b.1 - p.1) * cs.1 + (b.2 - p.2) * cs.2) := by unfold along; ring
    rw [e]
    generalize (a.1 - p.1) * cs.1 + (a.2 - p.2) * cs.2 = x at *
    generalize (b.1 - p.1) * cs.1 + (b.2 - p.2) * cs.2 = y at *
    generalize List.foldl (projStep p cs) (10000, 0) v = r at *
    have h1' : 0 ≤ 1 - t := by linarith
    constructor
    · have := mul_le_mul_of_nonneg_left iha.1 h1'
      have := mul_le_mul_of_nonneg_left ihb.1 h0
      linarith
    · have := mul_le_mul_of_nonneg_left iha.2 h1'
      have := mul_le_mul_of_nonneg_left ihb.2 h0
      linarith

theorem rangesMeet_of (r1 r2 : P2) (x : ℚ) (h1 : r1.1 ≤ x) (h2 : x ≤ r1.2) (h3 : r2.1 ≤ x) (h4 : x ≤ r2.2) : rangesMeet r1 r2 = true := by
  unfold rangesMeet
  by_cases h : r2.1 ≤ r1.1
  · have : r1.1 ≤ r2.2 := h1.trans h4
    simp [h, this]
  · have a1 : r1.1 ≤ r2.1 := le_of_lt (not_le.1 h)
    have a2 : r2.1 ≤ r1.2 := h3.trans h2
    simp [a1, a2]

theorem overlap_of_common (ang : ℚ → P2) (v1 v2 : List P2) (s : ℚ) (o z : P2) (h1 : InHull v1 z) (h2 : InHull v2 z) : overlap ang v1 (some s) v2 o = true := by
  unfold overlap
  obtain ⟨a1, a2⟩ := project_hull v1 o (ang s) z h1
  obtain ⟨b1, b2⟩ := project_hull v2 o (ang s) z h2
  exact rangesMeet_of _ _ _ a1 a2 b1 b2

/-- C79, one direction. If the convex hulls of two polygons without vertical edges have a common point, `PolyOverlap` is true, whatever the projection
axes are. Missing: vertical edges, for which it is false, and the converse (`C79_vertical_refuted`, `C79_disjoint_refuted`). -/
theorem C79_overlap_partial (ang : ℚ → P2) (v1 v2 : List P2) (hv1 : NoVertical v1) (hv2 : NoVertical v2) (z : P2) (h1 : InHull v1 z) (h2 : InHull v2 z) :
    polyOverlap ang v1 v2 = true := by
  unfold polyOverlap
  rw [Bool.and_eq_true, List.all_eq_true, List.all_eq_true]
  refine ⟨fun i hi => ?_, fun i hi => ?_⟩
  · rw [List.mem_range] at hi
    unfold findSlope
    rw [if_neg (fun h => hv1 i hi (by linarith))]
    exact overlap_of_common ang v1 v2 _ _ z h1 h2
  · rw [List.mem_range] at hi
    unfold findSlope
    rw [if_neg (fun h => hv2 i hi (by linarith))]
    exact overlap_of_common ang v2 v1 _ _ z h2 h1

example : ∃ z, InHull [(0, 0), (4, 1), (1, 5)] z ∧ InHull [(2, 2), (6, 3), (5, 7)] z ∧ NoVertical [(0, 0), (4, 1), (1, 5)] :=
  ⟨(2, 2), by
    refine ⟨?_, InHull.vertex _ (by simp), ?_⟩
    · have h1 : InHull [(0, 0), (4, 1), (1, 5)] (along (4, 1) (1, 5) (1 / 2)) := InHull.mix _ _ _ (InHull.vertex _ (by simp)) (InHull.vertex _ (by simp)) (by norm_num) (by norm_num)
      have h2 : InHull [(0, 0), (4, 1), (1, 5)] (along (0, 0) (4, 1) (8 / 19)) := InHull.mix _ _ _ (InHull.vertex _ (by simp)) (InHull.vertex _ (by simp)) (by norm_num) (by norm_num)
      have h3 : InHull [(0, 0), (4, 1), (1, 5)] (along (along (0, 0) (4, 1) (8 / 13)) (1, 5) (6 / 19)) :=
        InHull.mix _ _ _ (InHull.mix _ _ _ (InHull.vertex _ (by simp)) (InHull.vertex _ (by simp)) (by norm_num) (by norm_num)) (InHull.vertex _ (by simp)) (by norm_num) (by norm_num)
      have : along (along ((0 : ℚ), (0 : ℚ)) (4, 1) (8 / 13)) (1, 5) (6 / 19) = (2, 2) := by decide +kernel
      rw [← this]; exact h3
    · unfold NoVertical; decide +kernel⟩

/-- C79 is false with vertical edges: if a polygon has one, `PolyOverlap` is false, even of the polygon with itself. -/
theorem C79_vertical_refuted (ang : ℚ → P2) (v1 v2 : List P2) (h : ¬ NoVertical v1 ∨ ¬ NoVertical v2) : polyOverlap ang v1 v2 = false := by
  have no : ∀ (u1 u2 : List P2) (o : P2), overlap ang u1 none u2 o = false := by
    intro u1 u2 o
    unfold overlap project rangesMeet
    simp
  unfold polyOverlap
  rw [Bool.and_eq_false_iff]
  have key : ∀ u1 u2 : List P2, ¬ NoVertical u1 → (List.range u1.length).all (fun i => overlap ang u1 (findSlope (vtx u1 i) (vtx u1 (i + 1))) u2 (vtx u1 i)) = false := by
    intro u1 u2 hn
    unfold NoVertical at hn
    rw [not_forall] at hn
    obtain ⟨i, hi⟩ := hn
    rw [Classical.not_imp, not_not] at hi
    rw [List.all_eq_false]
    refine ⟨i, List.mem_range.2 hi.1, ?_⟩
    have : findSlope (vtx u1 i) (vtx u1 (i + 1)) = none := by unfold findSlope; rw [if_pos (by linarith [hi.2])]
    rw [this, no]; simp
  rcases h with h | h
  · exact Or.inl (key v1 v2 h)
  · exact Or.inr (key v2 v1 h)

example : ¬ NoVertical [(0, 0), (1, 0), (1, 1), (0, 1)] := by unfold NoVertical; decide +kernel
example (ang : ℚ → P2) : polyOverlap ang [(0, 0), (1, 0), (1, 1), (0, 1)] [(0, 0), (1, 0), (1, 1), (0, 1)] = false :=
  C79_vertical_refuted ang _ _ (Or.inl (by unfold NoVertical; decide +kernel))

/-- C79: two parallel segments far apart are said to overlap (the polygons are projected on the edges, not on their normals; for slope 0 the axis is
`(cos (tan 0), sin (tan 0)) = (1, 0)`). -/
theorem C79_disjoint_refuted (ang : ℚ → P2) (h0 : ang 0 = (1, 0)) : polyOverlap ang [(0, 0), (1, 0)] [(0, 5), (1, 5)] = true ∧
    ∀ z, ¬ (InHull [(0, 0), (1, 0)] z ∧ InHull [(0, 5), (1, 5)] z) := by
  constructor
  · have hs : ∀ a b : ℚ, a ≠ b → ∀ y, findSlope (a, y) (b, y) = some 0 := by
      intro a b hab y
      unfold findSlope
      rw [if_neg (fun h => hab (by simp only at h; linarith))]; simp
    have e : polyOverlap ang [(0, 0), (1, 0)] [(0, 5), (1, 5)] = polyOverlap (fun _ => (1, 0)) [(0, 0), (1, 0)] [(0, 5), (1, 5)] := by
      have e1 := hs 0 1 (by norm_num)
      have e2 := hs 1 0 (by norm_num)
      have v1 : vtx [((0 : ℚ), (0 : ℚ)), (1, 0)] 0 = (0, 0) := rfl
      have v2 : vtx [((0 : ℚ), (0 : ℚ)), (1, 0)] 1 = (1, 0) := rfl
      have v3 : vtx [((0 : ℚ), (0 : ℚ)), (1, 0)] 2 = (0, 0) := rfl
      have w1 : vtx [((0 : ℚ), (5 : ℚ)), (1, 5)] 0 = (0, 5) := rfl
      have w2 : vtx [((0 : ℚ), (5 : ℚ)), (1, 5)] 1 = (1, 5) := rfl
      have w3 : vtx [((0 : ℚ), (5 : ℚ)), (1, 5)] 2 = (0, 5) := rfl
      simp only [polyOverlap, List.length_cons, List.length_nil, Nat.zero_add, Nat.reduceAdd, List.range_succ, List.range_zero, List.nil_append, List.cons_append,
        List.all_cons, List.all_nil, v1, v2, v3, w1, w2, w3, e1, e2, overlap, Option.map_some, h0]
    rw [e]; decide +kernel
  · rintro z ⟨h1, h2⟩
    have a1 : ∀ z, InHull [(0, 0), (1, 0)] z → z.2 = 0 := by
      intro z hz
      induction hz with
      | vertex p hp => simp only [List.mem_cons, List.not_mem_nil, or_false] at hp; rcases hp with rfl | rfl <;> rfl
      | mix p q t _ _ _ _ ihp ihq => unfold along; simp only [ihp, ihq]; ring
    have a2 : ∀ z, InHull [(0, 5), (1, 5)] z → z.2 = 5 := by
      intro z hz
      induction hz with
      | vertex p hp => simp only [List.mem_cons, List.not_mem_nil, or_false] at hp; rcases hp with rfl | rfl <;> rfl
      | mix p q t _ _ _ _ ihp ihq => unfold along; simp only [ihp, ihq]; ring
    have := (a1 z h1).symm.trans (a2 z h2)
    norm_num at this

/-! ## C81: `UntanglePolygon` -/

/-- no two edges of the open chain, more than one apart, cross (edges from the same point excepted) -/
def Clean (v : List P2) : Prop := ∀ i j, i + 2 ≤ j → j + 1 < v.length → v.getD i (0, 0) ≠ v.getD (j + 1) (0, 0) →
  segmentOverlap (v.getD i (0, 0)) (v.getD (i + 1) (0, 0)) (v.getD j (0, 0)) (v.getD (j + 1) (0, 0)) = false

theorem swap_perm (v : List P2) (i j : Nat) (hi : i < v.length) (hj : j < v.length) : (swap v i j).Perm v := by
  unfold swap
  rw [List.getD_eq_getElem _ _ hi, List.getD_eq_getElem _ _ hj]
  exact List.set_set_perm hi hj

/-- invariant of the loops: either everything checked so far is clean and the values read before the loop are current, or the polygon is clean -/
theorem untInner_spec (rec : List P2 → Option (List P2)) (hrec : ∀ v w, rec v = some w → w.Perm v ∧ Clean w) (n i : Nat) (A B : P2) (hi : i + 1 < n) :
    ∀ (m k : Nat) (v w : List P2), v.length = n → (k + m = n - 1 ∨ (m = 0 ∧ n - 1 ≤ k)) → i + 2 ≤ k ∨ m = 0 →
      (Clean v ∨ (A = v.getD i (0, 0) ∧ B = v.getD (i + 1) (0, 0) ∧
        (∀ i' j, i' < i → i' + 2 ≤ j → j + 1 < n → v.getD i' (0, 0) ≠ v.getD (j + 1) (0, 0) →
          segmentOverlap (v.getD i' (0, 0)) (v.getD (i' + 1) (0, 0)) (v.getD j (0, 0)) (v.getD (j + 1) (0, 0)) = false) ∧
        (∀ j, i + 2 ≤ j → j < k → v.getD i (0, 0) ≠ v.getD (j + 1) (0, 0) →
          segmentOverlap (v.getD i (0, 0)) (v.getD (i + 1) (0, 0)) (v.getD j (0, 0)) (v.getD (j + 1) (0, 0)) = false))) →
      untInner rec A B i (List.range' k m) v = some w →
      w.Perm v ∧ (Clean w ∨ (∀ i' j, i' < i + 1 → i' + 2 ≤ j → j + 1 < n → w.getD i' (0, 0) ≠ w.getD (j + 1) (0, 0) →
          segmentOverlap (w.getD i' (0, 0)) (w.getD (i' + 1) (0, 0)) (w.getD j (0, 0)) (w.getD (j + 1) (0, 0)) = false)) := by
  intro m
  induction m with
  | zero =>
    intro k v w hv hk _ hinv h
    simp only [List.range'_zero, untInner, Option.some.injEq] at h
    subst h
    refine ⟨List.Perm.refl _, ?_⟩
    rcases hinv with hc | ⟨_, _, h1, h2⟩
    · exact Or.inl hc
    · right
      intro i' j hi' hj hjn hne
      rcases Nat.lt_or_ge i' i with hlt | hge
      · exact h1 i' j hlt hj hjn hne
      · have : i' = i := by omega
        subst this
        exact h2 j hj (by omega) hne
  | succ m ih =>
    intro k v w hv hk hik hinv h
    have hik' : i + 2 ≤ k := by omega
    rw [List.range'_succ] at h
    have hk1 : k + 1 + m = n - 1 ∨ (m = 0 ∧ n - 1 ≤ k + 1) := by omega
    simp only [untInner] at h
    by_cases heq : v.getD i (0, 0) = v.getD (k + 1) (0, 0)
    · rw [if_pos heq] at h
      refine ih (k + 1) v w hv hk1 (by omega) ?_ h
      rcases hinv with hc | ⟨hA, hB, h1, h2⟩
      · exact Or.inl hc
      · refine Or.inr ⟨hA, hB, h1, fun j hj hjk hne => ?_⟩
        rcases Nat.lt_or_ge j k with hlt | hge
        · exact h2 j hj hlt hne
        · have : j = k := by omega
          subst this
          exact absurd heq hne
    · rw [if_neg heq] at h
      by_cases hov : segmentOverlap A B (v.getD k (0, 0)) (v.getD (k + 1) (0, 0)) = true
      · rw [if_pos hov] at h
        cases hr : rec (swap v (i + 1) k) with
        | none => rw [hr] at h; simp at h
        | some v' =>
          rw [hr] at h
          simp only at h
          obtain ⟨hp, hc⟩ := hrec _ _ hr
          have hp' : v'.Perm v := hp.trans (swap_perm v (i + 1) k (by omega) (by omega))
          obtain ⟨r1, r2⟩ := ih (k + 1) v' w (hp'.length_eq.trans hv) hk1 (by omega) (Or.inl hc) h
          exact ⟨r1.trans hp', r2⟩
      · rw [if_neg hov] at h
        refine ih (k + 1) v w hv hk1 (by omega) ?_ h
        rcases hinv with hc | ⟨hA, hB, h1, h2⟩
        · exact Or.inl hc
        · refine Or.inr ⟨hA, hB, h1, fun j hj hjk hne => ?_⟩
          rcases Nat.lt_or_ge j k with hlt | hge
          · exact h2 j hj hlt hne
          · have : j = k := by omega
            subst this
            rw [← hA, ← hB]
            simpa using hov

theorem untOuter_spec (rec : List P2 → Option (List P2)) (hrec : ∀ v w, rec v = some w → w.Perm v ∧ Clean w) (n : Nat) :
    ∀ (m k : Nat) (v w : List P2), v.length = n → k = n - 1 - m →
      (Clean v ∨ (∀ i' j, i' < k → i' + 2 ≤ j → j + 1 < n → v.getD i' (0, 0) ≠ v.getD (j + 1) (0, 0) →
          segmentOverlap (v.getD i' (0, 0)) (v.getD (i' + 1) (0, 0)) (v.getD j (0, 0)) (v.getD (j + 1) (0, 0)) = false)) →
      k + m = n - 1 →
      untOuter rec n (List.range' k m) v = some w → w.Perm v ∧ Clean w := by
  intro m
  induction m with
  | zero =>
    intro k v w hv hk hinv _ h
    simp only [List.range'_zero, untOuter, Option.some.injEq] at h
    subst h
    refine ⟨List.Perm.refl _, ?_⟩
    rcases hinv with hc | h1
    · exact hc
    · intro i j hij hj hne
      exact h1 i j (by omega) hij (by omega) hne
  | succ m ih =>
    intro k v w hv hk hinv hkm h
    rw [List.range'_succ] at h
    simp only [untOuter] at h
    cases hin : untInner rec (v.getD k (0, 0)) (v.getD (k + 1) (0, 0)) k (List.range' (k + 2) (n - 1 - (k + 2))) v with
    | none => rw [hin] at h; simp at h
    | some v' =>
      rw [hin] at h
      simp only at h
      obtain ⟨p1, c1⟩ := untInner_spec rec hrec n k _ _ (by omega) (n - 1 - (k + 2)) (k + 2) v v' hv (by omega) (by omega)
        (by
          rcases hinv with hc | h1
          · exact Or.inl hc
          · exact Or.inr ⟨rfl, rfl, h1, fun j hj hjk _ => by omega⟩) hin
      obtain ⟨p2, c2⟩ := ih (k + 1) v' w (p1.length_eq.trans hv) (by omega) c1 (by omega) h
      exact ⟨p2.trans p1, c2⟩

/-- C81. Whenever `UntanglePolygon` returns, the vertices are the same ones in another order, and no two edges of the open chain that are not
consecutive cross. -/
theorem C81_untangled_partial : ∀ (fuel : Nat) (v w : List P2), untangle fuel v = some w → w.Perm v ∧ Clean w := by
  intro fuel
  induction fuel with
  | zero => intro v w h; simp [untangle] at h
  | succ fuel ih =>
    intro v w h
    simp only [untangle, List.range_eq_range'] at h
    exact untOuter_spec (untangle fuel) ih v.length (v.length - 1) 0 v w rfl (by omega) (Or.inr (fun i' j hi' => by omega)) (by omega) h

example : untangle 5 [(0, 0), (2, 2), (0, 2), (2, 0), (1, -1)] = some [(0, 0), (0, 2), (2, 2), (2, 0), (1, -1)] := by decide +kernel

/-- C81 is false for the closing edge: a bow tie stays a bow tie. -/
theorem C81_closing_refuted : untangle 1 [(0, 2), (0, 0), (3, 2), (2, 0)] = some [(0, 2), (0, 0), (3, 2), (2, 0)] ∧
    segmentOverlap (0, 0) (3, 2) (2, 0) (0, 2) = true := by decide +kernel

/-- C81: an empty polygon throws -/
theorem C81_empty_refuted (fuel : Nat) : untanglePolygon fuel [] = .throw := rfl

/-! ### a polygon for which it never returns -/

def t0 : List P2 := [(2, 5), (0, 2), (6, 5), (1, 3), (0, 4), (5, 3)]
def t1 : List P2 := [(2, 5), (1, 3), (6, 5), (0, 2), (0, 4), (5, 3)]
def t2 : List P2 := [(2, 5), (0, 4), (6, 5), (0, 2), (1, 3), (5, 3)]
def t3 : List P2 := [(2, 5), (0, 4), (6, 5), (1, 3), (0, 2), (5, 3)]

/-- no crossing found by the inner loop -/
def quiet (A B : P2) (i : Nat) (js : List Nat) (v : List P2) : Bool := js.all (fun j =>
  decide (v.getD i (0, 0) = v.getD (j + 1) (0, 0)) || !segmentOverlap A B (v.getD j (0, 0)) (v.getD (j + 1) (0, 0)))

theorem untInner_quiet (rec : List P2 → Option (List P2)) (A B : P2) (i : Nat) (v : List P2) (post : List Nat) : ∀ js : List Nat, quiet A B i js v = true →
    untInner rec A B i (js ++ post) v = untInner rec A B i post v := by
  intro js
  induction js with
  | nil => intro _; rfl
  | cons j js ih =>
    intro h
    unfold quiet at h ih
    rw [List.all_cons, Bool.and_eq_true, Bool.or_eq_true, decide_eq_true_iff, Bool.not_eq_true'] at h
    rw [List.cons_append]
    simp only [untInner]
    by_cases he : v.getD i (0, 0) = v.getD (j + 1) (0, 0)
    · rw [if_pos he]; exact ih h.2
    · rw [if_neg he, if_neg (by rw [h.1.resolve_left he]; simp)]; exact ih h.2

theorem untInner_hit (rec : List P2 → Option (List P2)) (A B : P2) (i : Nat) (v w : List P2) (j : Nat) (post : List Nat)
    (h : (decide (v.getD i (0, 0) ≠ v.getD (j + 1) (0, 0)) && segmentOverlap A B (v.getD j (0, 0)) (v.getD (j + 1) (0, 0)) && decide (swap v (i + 1) j = w)) = true) :
    (rec w = none → untInner rec A B i (j :: post) v = none) ∧ (∀ v', rec w = some v' → untInner rec A B i (j :: post) v = untInner rec A B i post v') := by
  rw [Bool.and_eq_true, Bool.and_eq_true, decide_eq_true_iff, decide_eq_true_iff] at h
  obtain ⟨⟨h1, h2⟩, rfl⟩ := h
  refine ⟨fun hr => ?_, fun v' hr => ?_⟩
  · simp only [untInner]
    rw [if_neg h1, if_pos h2, hr]
  · simp only [untInner]
    rw [if_neg h1, if_pos h2, hr]

theorem untOuter_quiet (rec : List P2 → Option (List P2)) (n : Nat) (v : List P2) (post : List Nat) : ∀ is : List Nat,
    is.all (fun i => quiet (v.getD i (0, 0)) (v.getD (i + 1) (0, 0)) i (List.range' (i + 2) (n - 1 - (i + 2))) v) = true →
    untOuter rec n (is ++ post) v = untOuter rec n post v := by
  intro is
  induction is with
  | nil => intro _; rfl
  | cons i is ih =>
    intro h
    rw [List.all_cons, Bool.and_eq_true] at h
    rw [List.cons_append]
    simp only [untOuter]
    have := untInner_quiet rec (v.getD i (0, 0)) (v.getD (i + 1) (0, 0)) i v [] _ h.1
    rw [List.append_nil] at this
    rw [this]
    exact ih h.2

theorem outer_none (rec : List P2 → Option (List P2)) (v : List P2) (i : Nat) (is : List Nat)
    (h : untInner rec (v.getD i (0, 0)) (v.getD (i + 1) (0, 0)) i (List.range' (i + 2) (6 - 1 - (i + 2))) v = none) : untOuter rec 6 (i :: is) v = none := by
  simp only [untOuter]; rw [h]

theorem outer_some (rec : List P2 → Option (List P2)) (v w : List P2) (i : Nat) (is : List Nat)
    (h : untInner rec (v.getD i (0, 0)) (v.getD (i + 1) (0, 0)) i (List.range' (i + 2) (6 - 1 - (i + 2))) v = some w) :
    untOuter rec 6 (i :: is) v = untOuter rec 6 is w := by
  simp only [untOuter]; rw [h]

theorem t3_step (rec : List P2 → Option (List P2)) : untOuter rec 6 (List.range 5) t3 = some t3 :=
  untOuter_quiet rec 6 t3 [] [0, 1, 2, 3, 4] (by decide +kernel)

theorem t2_step (rec : List P2 → Option (List P2)) (h : rec t3 = none ∨ rec t3 = some t3) :
    untOuter rec 6 (List.range 5) t2 = none ∨ untOuter rec 6 (List.range 5) t2 = some t3 := by
  have e : untOuter rec 6 (List.range 5) t2 = untOuter rec 6 [2, 3, 4] t2 := untOuter_quiet rec 6 t2 [2, 3, 4] [0, 1] (by decide +kernel)
  rw [e]
  have hh := untInner_hit rec (t2.getD 2 (0, 0)) (t2.getD 3 (0, 0)) 2 t2 t3 4 [] (by decide +kernel)
  rcases h with h | h
  · exact Or.inl (outer_none rec t2 2 [3, 4] (hh.1 h))
  · right
    rw [outer_some rec t2 t3 2 [3, 4] (hh.2 t3 h)]
    exact untOuter_quiet rec 6 t3 [] [3, 4] (by decide +kernel)

theorem t1_step (rec : List P2 → Option (List P2)) (h : rec t2 = none ∨ rec t2 = some t3) :
    untOuter rec 6 (List.range 5) t1 = none ∨ untOuter rec 6 (List.range 5) t1 = some t3 := by
  have hq : untInner rec (t1.getD 0 (0, 0)) (t1.getD 1 (0, 0)) 0 (List.range' 2 3) t1 = untInner rec (t1.getD 0 (0, 0)) (t1.getD 1 (0, 0)) 0 [4] t1 :=
    untInner_quiet rec _ _ 0 t1 [4] [2, 3] (by decide +kernel)
  have hh := untInner_hit rec (t1.getD 0 (0, 0)) (t1.getD 1 (0, 0)) 0 t1 t2 4 [] (by decide +kernel)
  rcases h with h | h
  · exact Or.inl (outer_none rec t1 0 [1, 2, 3, 4] (hq.trans (hh.1 h)))
  · right
    refine (outer_some rec t1 t3 0 [1, 2, 3, 4] (hq.trans (hh.2 t3 h))).trans ?_
    exact untOuter_quiet rec 6 t3 [] [1, 2, 3, 4] (by decide +kernel)

theorem t0_step (rec : List P2 → Option (List P2)) (h : rec t1 = none ∨ rec t1 = some t3) (h0 : rec t0 = none) :
    untOuter rec 6 (List.range 5) t0 = none := by
  have hq : untInner rec (t0.getD 0 (0, 0)) (t0.getD 1 (0, 0)) 0 (List.range' 2 3) t0 = untInner rec (t0.getD 0 (0, 0)) (t0.getD 1 (0, 0)) 0 [3, 4] t0 :=
    untInner_quiet rec _ _ 0 t0 [3, 4] [2] (by decide +kernel)
  have hh := untInner_hit rec (t0.getD 0 (0, 0)) (t0.getD 1 (0, 0)) 0 t0 t1 3 [4] (by decide +kernel)
  apply outer_none rec t0 0 [1, 2, 3, 4]
  rcases h with h | h
  · exact hq.trans (hh.1 h)
  · refine (hq.trans (hh.2 t3 h)).trans ?_
    exact (untInner_hit rec (t0.getD 0 (0, 0)) (t0.getD 1 (0, 0)) 0 t3 t0 4 [] (by decide +kernel)).1 h0

/-- C81 is false as regards termination: for this hexagon the recursion calls itself with the same polygon (after the recursive call the loop goes on
with the end points it read before), so no number of nested calls is enough. -/
theorem C81_refuted (fuel : Nat) : untangle fuel t0 = none := by
  have h3 : ∀ f, untangle f t3 = none ∨ untangle f t3 = some t3 := by
    intro f; cases f with
    | zero => exact Or.inl rfl
    | succ f => exact Or.inr (t3_step (untangle f))
  have h2 : ∀ f, untangle f t2 = none ∨ untangle f t2 = some t3 := by
    intro f; cases f with
    | zero => exact Or.inl rfl
    | succ f => exact t2_step (untangle f) (h3 f)
  have h1 : ∀ f, untangle f t1 = none ∨ untangle f t1 = some t3 := by
    intro f; cases f with
    | zero => exact Or.inl rfl
    | succ f => exact t1_step (untangle f) (h2 f)
  induction fuel with
  | zero => rfl
  | succ f ih => exact t0_step (untangle f) (h1 f) ih

end Verif.Poly

import Verif.Track.VtxFitModel
import Mathlib.Tactic.Linarith
import Mathlib.Tactic.LinearCombination
import Mathlib.Tactic.Ring
import Mathlib.Tactic.FieldSimp
import Mathlib.Tactic.Positivity

/-! Properties C196-C201: `Geometric3DVertexFitter`. -/

namespace Verif.VtxFit

/-! ### The order of the tracks -/

theorem foldl_nested {α β σ : Type} (l : List α) (g : α → List β) (f : α → σ → β → σ) (s : σ) :
    l.foldl (fun s i => (g i).foldl (f i) s) s =
      (l.flatMap fun i => (g i).map fun j => (i, j)).foldl (fun s p => f p.1 s p.2) s := by
  induction l generalizing s with
  | nil => rfl
  | cons a l ih => simp only [List.foldl_cons, List.flatMap_cons, List.foldl_append, List.foldl_map, ih]

/-- the step of the search on a pair of positions -/
def stepPair (ts : List Trk) (s : ℚ × Nat × Nat) (p : Nat × Nat) : ℚ × Nat × Nat :=
  match ts[p.1]?, ts[p.2]? with
  | some a, some b => if dist a b < s.1 then (dist a b, p.1, p.2) else s
  | _, _ => s

/-- the pairs of positions in the order of the loops -/
def pairs (n : Nat) : List (Nat × Nat) :=
  (List.range (n - 1)).flatMap fun i => ((List.range n).filter (fun j => decide (i < j))).map fun j => (i, j)

theorem mem_pairs (n i j : Nat) : (i, j) ∈ pairs n ↔ i < j ∧ j < n := by
  unfold pairs
  simp only [List.mem_flatMap, List.mem_range, List.mem_map, List.mem_filter, decide_eq_true_eq, Prod.mk.injEq]
  constructor
  · rintro ⟨a, _, b, ⟨h1, h2⟩, rfl, rfl⟩
    exact ⟨h2, h1⟩
  · rintro ⟨h1, h2⟩
    exact ⟨i, by omega, j, ⟨h2, h1⟩, rfl, rfl⟩

theorem closest_eq (big : ℚ) (ts : List Trk) :
    closest big ts = (pairs ts.length).foldl (stepPair ts) (big, ts.length, ts.length) := by
  unfold closest pairs stepPair
  exact foldl_nested _ _ _ _

theorem closest_fold (ts : List Trk) (l : List (Nat × Nat)) (s : ℚ × Nat × Nat)
    (hl : ∀ p ∈ l, p.1 < p.2 ∧ p.2 < ts.length) :
    ((l.foldl (stepPair ts) s) = s ∨ ((l.foldl (stepPair ts) s).2 ∈ l ∧
      ∃ a b, ts[(l.foldl (stepPair ts) s).2.1]? = some a ∧ ts[(l.foldl (stepPair ts) s).2.2]? = some b ∧
        (l.foldl (stepPair ts) s).1 = dist a b)) ∧
    (l.foldl (stepPair ts) s).1 ≤ s.1 ∧
    ∀ p ∈ l, ∀ a b, ts[p.1]? = some a → ts[p.2]? = some b → (l.foldl (stepPair ts) s).1 ≤ dist a b := by
  induction l generalizing s with
  | nil => exact ⟨Or.inl rfl, le_refl _, by simp⟩
  | cons p l ih =>
    simp only [List.foldl_cons]
    have hp := hl p (by simp)
    obtain ⟨a, ha⟩ : ∃ a, ts[p.1]? = some a := ⟨ts[p.1]'(by omega), List.getElem?_eq_getElem (by omega)⟩
    obtain ⟨b, hb⟩ : ∃ b, ts[p.2]? = some b := ⟨ts[p.2]'(by omega), List.getElem?_eq_getElem (by omega)⟩
    obtain ⟨h1, h2, h3⟩ := ih (stepPair ts s p) (fun q hq => hl q (by simp [hq]))
    have hstep : stepPair ts s p = if dist a b < s.1 then (dist a b, p.1, p.2) else s := by
      unfold stepPair; rw [ha, hb]
    have hle : (stepPair ts s p).1 ≤ s.1 ∧ (stepPair ts s p).1 ≤ dist a b := by
      rw [hstep]
      split
      · rename_i h; exact ⟨h.le, le_refl _⟩
      · rename_i h; exact ⟨le_refl _, not_lt.1 h⟩
    refine ⟨?_, h2.trans hle.1, ?_⟩
    · rcases h1 with h1 | h1
      · rw [h1, hstep]
        split
        · right
          exact ⟨by simp, a, b, ha, hb, rfl⟩
        · left; rfl
      · right
        exact ⟨List.mem_cons_of_mem _ h1.1, h1.2⟩
    · intro q hq c d hc hd
      rcases List.mem_cons.1 hq with rfl | hq
      · rw [ha] at hc; rw [hb] at hd
        cases hc; cases hd
        exact h2.trans hle.2
      · exact h3 q hq c d hc hd

theorem swap_perm (ts : List Trk) (i j : Nat) : (swap ts i j).Perm ts := by
  unfold swap
  split
  · rename_i a b ha hb
    obtain ⟨hi, rfl⟩ := List.getElem?_eq_some_iff.1 ha
    obtain ⟨hj, rfl⟩ := List.getElem?_eq_some_iff.1 hb
    exact List.set_set_perm hi hj
  · exact List.Perm.refl _

theorem promote_perm (ts : List Trk) (i j : Nat) : (promote ts i j).Perm ts := by
  unfold promote
  have base : ∀ us : List Trk, us.Perm ts → ∀ (c : Prop) [Decidable c] (k l : Nat),
      (if c then swap us k l else us).Perm ts := by
    intro us h c _ k l
    split
    · exact (swap_perm us k l).trans h
    · exact h
  split
  · dsimp only
    apply base
    apply base
    apply base
    apply base
    split
    · exact ((swap_perm _ _ _).trans (swap_perm _ _ _))
    · exact List.Perm.refl _
  · exact List.Perm.refl _

theorem swap_get (ts : List Trk) (i j k : Nat) (hi : i < ts.length) (hj : j < ts.length) :
    (swap ts i j)[k]? = if k = j then ts[i]? else if k = i then ts[j]? else ts[k]? := by
  unfold swap
  rw [List.getElem?_eq_getElem hi, List.getElem?_eq_getElem hj]
  dsimp only
  simp only [List.getElem?_set, List.length_set]
  by_cases h1 : j = k
  · subst h1
    simp [hj]
  · have h1' : k ≠ j := fun h => h1 h.symm
    simp only [h1, h1', if_false]
    by_cases h2 : i = k
    · subst h2
      simp [hi]
    · have h2' : k ≠ i := fun h => h2 h.symm
      simp [h2, h2']

theorem promote_first (ts : List Trk) (i j : Nat) (hij : i < j) (hj : j < ts.length) :
    ((promote ts i j)[0]? = ts[i]? ∧ (promote ts i j)[1]? = ts[j]?) ∨
    ((promote ts i j)[0]? = ts[j]? ∧ (promote ts i j)[1]? = ts[i]?) := by
  unfold promote
  rcases Nat.lt_or_ge 1 j with h1 | h1
  · rw [if_pos (Or.inr h1)]
    dsimp only
    have hj0 : j ≠ 0 := by omega
    have hj1 : j ≠ 1 := by omega
    rw [if_neg hj1, if_neg hj0]
    rcases Nat.lt_or_ge 1 i with hi | hi
    · have e0 : i ≠ 0 := by omega
      have e1 : i ≠ 1 := by omega
      rw [if_neg e1, if_neg e0, if_pos ⟨hi, h1⟩]
      left
      have hlen : (swap ts 0 i).length = ts.length := (swap_perm ts 0 i).length_eq
      rw [swap_get _ 1 j 0 (by omega) (by omega), swap_get _ 1 j 1 (by omega) (by omega),
        swap_get ts 0 i _ (by omega) (by omega), swap_get ts 0 i _ (by omega) (by omega)]
      have a1 : (0 : Nat) ≠ j := by omega
      have a2 : (0 : Nat) ≠ i := by omega
      have a3 : (1 : Nat) ≠ j := by omega
      have a4 : j ≠ i := by omega
      simp only [a1, a2, a3, if_false, if_true, zero_ne_one]
      rw [swap_get ts 0 i _ (by omega) (by omega)]
      simp [a2, a4, hj0]
    · rw [if_neg (by omega : ¬(1 < i ∧ 1 < j))]
      have : i = 0 ∨ i = 1 := by omega
      rcases this with rfl | rfl
      · left
        rw [if_neg (by decide), if_pos rfl, swap_get _ 1 j 0 (by omega) (by omega),
          swap_get _ 1 j 1 (by omega) (by omega)]
        have a1 : (0 : Nat) ≠ j := by omega
        have a3 : (1 : Nat) ≠ j := by omega
        simp [a1, a3]
      · right
        rw [if_pos rfl, if_neg (by decide), swap_get _ 0 j 0 (by omega) (by omega),
          swap_get _ 0 j 1 (by omega) (by omega)]
        have a1 : (0 : Nat) ≠ j := by omega
        have a3 : (1 : Nat) ≠ j := by omega
        simp [a1, a3]
  · have : j = 1 := by omega
    have : i = 0 := by omega
    subst_vars
    rw [if_neg (by decide)]
    left
    exact ⟨rfl, rfl⟩

theorem dist_symm (a b : Trk) : dist a b = dist b a := by
  unfold dist V3.mag2 V3.dot V3.sub
  ring

/-- C196: the order of the fit is a rearrangement of the input tracks whose first two tracks are the pair of
tracks with the closest start points. -/
theorem C196_closest_pair_first (big : ℚ) (ts : List Trk) (h2 : 2 ≤ ts.length)
    (hbig : ∀ a ∈ ts, ∀ b ∈ ts, dist a b < big) :
    (order big ts).Perm ts ∧
      ∃ a b rest, order big ts = a :: b :: rest ∧ ts.Pairwise fun c d => dist a b ≤ dist c d := by
  unfold order
  dsimp only
  have hperm : (ts.insertionSort fun a b => b.npts ≤ a.npts).Perm ts := List.perm_insertionSort _ _
  generalize ts.insertionSort (fun a b => b.npts ≤ a.npts) = us at hperm ⊢
  have hlen := hperm.length_eq
  refine ⟨(promote_perm _ _ _).trans hperm, ?_⟩
  have hbig' : ∀ a ∈ us, ∀ b ∈ us, dist a b < big := fun a ha b hb =>
    hbig a (hperm.mem_iff.1 ha) b (hperm.mem_iff.1 hb)
  have key := closest_fold us (pairs us.length) (big, us.length, us.length)
    (fun p hp => (mem_pairs _ p.1 p.2).1 hp)
  rw [← closest_eq] at key
  obtain ⟨k1, k2, k3⟩ := key
  have hlt : (closest big us).1 < big := by
    have h0 : us[0]? = some (us[0]'(by omega)) := List.getElem?_eq_getElem (by omega)
    have h1 : us[1]? = some (us[1]'(by omega)) := List.getElem?_eq_getElem (by omega)
    have := k3 (0, 1) ((mem_pairs _ _ _).2 ⟨by omega, by omega⟩) _ _ h0 h1
    exact lt_of_le_of_lt this (hbig' _ (List.getElem_mem _) _ (List.getElem_mem _))
  rcases k1 with k1 | ⟨kin, a, b, ha, hb, hd⟩
  · rw [k1] at hlt; exact absurd hlt (lt_irrefl _)
  obtain ⟨hij, hj⟩ := (mem_pairs _ _ _).1 kin
  have hmin : us.Pairwise fun c d => dist a b ≤ dist c d := by
    rw [List.pairwise_iff_getElem]
    intro p q hp hq hpq
    rw [← hd]
    exact k3 (p, q) ((mem_pairs _ _ _).2 ⟨hpq, hq⟩) _ _ (List.getElem?_eq_getElem hp) (List.getElem?_eq_getElem hq)
  have hmin' : ts.Pairwise fun c d => dist a b ≤ dist c d :=
    (hperm.pairwise_iff (fun {x y} h => by rw [dist_symm y x]; exact h)).1 hmin
  have hpl : (promote us (closest big us).2.1 (closest big us).2.2).length = us.length :=
    (promote_perm _ _ _).length_eq
  generalize hP : promote us (closest big us).2.1 (closest big us).2.2 = ps at hpl
  have hpf := promote_first us _ _ hij hj
  rw [hP, ha, hb] at hpf
  match ps, hpl with
  | [], hpl => simp at hpl; omega
  | [x], hpl => simp at hpl; omega
  | x :: y :: rest, _ =>
    simp at hpf
    rcases hpf with ⟨rfl, rfl⟩ | ⟨rfl, rfl⟩
    · exact ⟨x, y, rest, rfl, hmin'⟩
    · refine ⟨x, y, rest, rfl, ?_⟩
      rw [dist_symm x y]
      exact hmin'

/-- three tracks, the closest pair are the two short ones -/
def exTracks : List Trk :=
  [⟨1, ⟨0, 0, 0⟩, ⟨1, 0, 0⟩, 50⟩, ⟨2, ⟨10, 0, 0⟩, ⟨0, 1, 0⟩, 5⟩, ⟨3, ⟨10, 1, 0⟩, ⟨0, 0, 1⟩, 7⟩]

example : (order 1000 exTracks).map Trk.id = [2, 3, 1] := by decide +kernel

/-! ### Closest approach -/

/-- C197: for unit directions that are not parallel, the two points are the closest points of the two lines: their
distance is no larger than that of any two points on the lines, their difference is perpendicular to both
directions, and so both lie in the plane through the first perpendicular to its direction. -/
theorem C197_closest_approach (s1 d1 s2 d2 : V3) (h1 : d1.mag2 = 1) (h2 : d2.mag2 = 1)
    (hp : d1.dot d2 * d1.dot d2 ≠ 1) :
    let q1 := s1.along (pca1 s1 d1 s2 d2) d1
    let q2 := s2.along (pca2 s1 d1 s2 d2) d2
    (q2.sub q1).dot d1 = 0 ∧ (q2.sub q1).dot d2 = 0 ∧
      ∀ t u, (q2.sub q1).mag2 ≤ ((s2.along u d2).sub (s1.along t d1)).mag2 := by
  intro q1 q2
  have hD : d1.dot d2 * d1.dot d2 - 1 ≠ 0 := sub_ne_zero.2 hp
  have e2 : pca2 s1 d1 s2 d2 * (d1.dot d2 * d1.dot d2 - 1) = d1.dot d2 * (s1.sub s2).dot d1 - (s1.sub s2).dot d2 := by
    unfold pca2
    dsimp only
    exact div_mul_cancel₀ _ hD
  have p1 : (q2.sub q1).dot d1 = 0 := by
    show ((s2.along (pca2 s1 d1 s2 d2) d2).sub (s1.along (pca1 s1 d1 s2 d2) d1)).dot d1 = 0
    unfold pca1
    generalize pca2 s1 d1 s2 d2 = B
    unfold V3.mag2 at h1
    unfold V3.dot V3.sub V3.along at *
    dsimp only at *
    linear_combination (- (((d1.x * d2.x + d1.y * d2.y + d1.z * d2.z) * B -
      ((s1.x - s2.x) * d1.x + (s1.y - s2.y) * d1.y + (s1.z - s2.z) * d1.z)))) * h1
  have p2 : (q2.sub q1).dot d2 = 0 := by
    show ((s2.along (pca2 s1 d1 s2 d2) d2).sub (s1.along (pca1 s1 d1 s2 d2) d1)).dot d2 = 0
    unfold pca1
    generalize pca2 s1 d1 s2 d2 = B at e2 ⊢
    unfold V3.mag2 at h2
    unfold V3.dot V3.sub V3.along at *
    dsimp only at *
    linear_combination B * h2 - e2
  refine ⟨p1, p2, ?_⟩
  intro t u
  have key : ((s2.along u d2).sub (s1.along t d1)).mag2 = (q2.sub q1).mag2 +
      (⟨(u - pca2 s1 d1 s2 d2) * d2.x - (t - pca1 s1 d1 s2 d2) * d1.x,
        (u - pca2 s1 d1 s2 d2) * d2.y - (t - pca1 s1 d1 s2 d2) * d1.y,
        (u - pca2 s1 d1 s2 d2) * d2.z - (t - pca1 s1 d1 s2 d2) * d1.z⟩ : V3).mag2 := by
    have p1' : ((s2.along (pca2 s1 d1 s2 d2) d2).sub (s1.along (pca1 s1 d1 s2 d2) d1)).dot d1 = 0 := p1
    have p2' : ((s2.along (pca2 s1 d1 s2 d2) d2).sub (s1.along (pca1 s1 d1 s2 d2) d1)).dot d2 = 0 := p2
    show _ = ((s2.along (pca2 s1 d1 s2 d2) d2).sub (s1.along (pca1 s1 d1 s2 d2) d1)).mag2 + _
    generalize pca2 s1 d1 s2 d2 = B at *
    generalize pca1 s1 d1 s2 d2 = A at *
    unfold V3.mag2 V3.dot V3.sub V3.along at *
    dsimp only at *
    linear_combination (2 * (u - B)) * p2' - (2 * (t - A)) * p1'
  rw [key]
  have : 0 ≤ (⟨(u - pca2 s1 d1 s2 d2) * d2.x - (t - pca1 s1 d1 s2 d2) * d1.x,
        (u - pca2 s1 d1 s2 d2) * d2.y - (t - pca1 s1 d1 s2 d2) * d1.y,
        (u - pca2 s1 d1 s2 d2) * d2.z - (t - pca1 s1 d1 s2 d2) * d1.z⟩ : V3).mag2 := by
    unfold V3.mag2 V3.dot
    dsimp only
    have := mul_self_nonneg ((u - pca2 s1 d1 s2 d2) * d2.x - (t - pca1 s1 d1 s2 d2) * d1.x)
    have := mul_self_nonneg ((u - pca2 s1 d1 s2 d2) * d2.y - (t - pca1 s1 d1 s2 d2) * d1.y)
    have := mul_self_nonneg ((u - pca2 s1 d1 s2 d2) * d2.z - (t - pca1 s1 d1 s2 d2) * d1.z)
    linarith
  linarith

example : (⟨3/5, 4/5, 0⟩ : V3).mag2 = 1 ∧ (⟨1, 0, 0⟩ : V3).dot ⟨3/5, 4/5, 0⟩ * (⟨1, 0, 0⟩ : V3).dot ⟨3/5, 4/5, 0⟩ ≠ 1 := by
  decide +kernel

/-- C197: the foot on the second line of the closest point of the first is the closest point of the second: the
impact parameters of the two tracks of a vertex of two tracks, each relative to the closest point of the
other, are the same distance. -/
theorem C197_two_track_impact (s1 d1 s2 d2 : V3) (h1 : d1.mag2 = 1) (h2 : d2.mag2 = 1)
    (hp : d1.dot d2 * d1.dot d2 ≠ 1) :
    footDist (s1.along (pca1 s1 d1 s2 d2) d1) s2 d2 = pca2 s1 d1 s2 d2 ∧
    footDist (s2.along (pca1 s2 d2 s1 d1) d2) s1 d1 = pca2 s2 d2 s1 d1 ∧
    pca1 s2 d2 s1 d1 = pca2 s1 d1 s2 d2 ∧ pca1 s1 d1 s2 d2 = pca2 s2 d2 s1 d1 := by
  have foot : ∀ s1 d1 s2 d2 : V3, d1.mag2 = 1 → d2.mag2 = 1 → d1.dot d2 * d1.dot d2 ≠ 1 →
      footDist (s1.along (pca1 s1 d1 s2 d2) d1) s2 d2 = pca2 s1 d1 s2 d2 := by
    intro s1 d1 s2 d2 h1 h2 hp
    have : ((s2.along (pca2 s1 d1 s2 d2) d2).sub (s1.along (pca1 s1 d1 s2 d2) d1)).dot d2 = 0 :=
      (C197_closest_approach s1 d1 s2 d2 h1 h2 hp).2.1
    unfold footDist
    generalize pca2 s1 d1 s2 d2 = B at *
    generalize pca1 s1 d1 s2 d2 = A at *
    unfold V3.mag2 at h2
    unfold V3.dot V3.sub V3.along at *
    dsimp only at *
    linear_combination B * h2 - this
  have sw : ∀ s1 d1 s2 d2 : V3, d1.mag2 = 1 → d2.mag2 = 1 → d1.dot d2 * d1.dot d2 ≠ 1 →
      pca1 s2 d2 s1 d1 = pca2 s1 d1 s2 d2 := by
    intro s1 d1 s2 d2 h1 h2 hp
    have hD : d1.dot d2 * d1.dot d2 - 1 ≠ 0 := sub_ne_zero.2 hp
    have hc : d2.dot d1 = d1.dot d2 := by unfold V3.dot; ring
    have hs1 : (s2.sub s1).dot d1 = -(s1.sub s2).dot d1 := by unfold V3.dot V3.sub; ring
    have hs2 : (s2.sub s1).dot d2 = -(s1.sub s2).dot d2 := by unfold V3.dot V3.sub; ring
    unfold pca1 pca2
    dsimp only
    rw [hc, hs1, hs2, eq_div_iff hD, sub_mul, mul_assoc, div_mul_cancel₀ _ hD]
    ring
  have hp' : d2.dot d1 * d2.dot d1 ≠ 1 := by
    have hc : d2.dot d1 = d1.dot d2 := by unfold V3.dot; ring
    rw [hc]; exact hp
  exact ⟨foot s1 d1 s2 d2 h1 h2 hp, foot s2 d2 s1 d1 h2 h1 hp', sw s1 d1 s2 d2 h1 h2 hp, sw s2 d2 s1 d1 h2 h1 hp'⟩

/-- C197: parallel directions make the denominator zero. -/
theorem C197_parallel_refuted (s1 s2 d : V3) (h : d.mag2 = 1) : d.dot d * d.dot d - 1 = 0 := by
  unfold V3.mag2 at h
  rw [h]; norm_num

/-! ### The weighted average -/

/-- positive definite -/
def PosDef (c : Sym2) : Prop := 0 < c.xx ∧ 0 < c.det

theorem posDef_yy {c : Sym2} (h : PosDef c) : 0 < c.yy := by
  obtain ⟨h1, h2⟩ := h
  unfold Sym2.det at h2
  by_contra hc
  have := mul_self_nonneg c.xy
  nlinarith

theorem posDef_quad {c : Sym2} (h : PosDef c) (v : ℚ × ℚ) : 0 ≤ c.quad v := by
  obtain ⟨h1, h2⟩ := h
  have e : c.xx * c.quad v = (c.xx * v.1 + c.xy * v.2) ^ 2 + c.det * v.2 ^ 2 := by
    unfold Sym2.quad Sym2.det; ring
  have : 0 ≤ c.xx * c.quad v := by
    rw [e]
    have := sq_nonneg (c.xx * v.1 + c.xy * v.2)
    have := mul_nonneg h2.le (sq_nonneg v.2)
    linarith
  by_contra hc
  have := mul_neg_of_pos_of_neg h1 (not_le.1 hc)
  linarith

theorem posDef_add {a b : Sym2} (ha : PosDef a) (hb : PosDef b) : PosDef (a.add b) := by
  have ya := posDef_yy ha
  have yb := posDef_yy hb
  obtain ⟨a1, a2⟩ := ha
  obtain ⟨b1, b2⟩ := hb
  refine ⟨by show 0 < a.xx + b.xx; linarith, ?_⟩
  unfold Sym2.det Sym2.add at *
  dsimp only
  -- cross terms: a.xx b.yy + a.yy b.xx - 2 a.xy b.xy > 0
  have key : 0 < a.xx * b.yy + a.yy * b.xx - 2 * (a.xy * b.xy) := by
    have e : a.xx * b.xx * (a.xx * b.yy + a.yy * b.xx - 2 * (a.xy * b.xy)) =
        (a.xx * b.xy - b.xx * a.xy) ^ 2 + a.xx ^ 2 * (b.xx * b.yy - b.xy * b.xy) +
          b.xx ^ 2 * (a.xx * a.yy - a.xy * a.xy) := by ring
    have hpos : 0 < a.xx * b.xx * (a.xx * b.yy + a.yy * b.xx - 2 * (a.xy * b.xy)) := by
      rw [e]
      have := sq_nonneg (a.xx * b.xy - b.xx * a.xy)
      have := mul_pos (pow_pos a1 2) b2
      have := mul_pos (pow_pos b1 2) a2
      linarith
    exact pos_of_mul_pos_right hpos (mul_pos a1 b1).le
  nlinarith

/-- the inverse of a matrix that is not singular -/
def invOf (c : Sym2) : Sym2 := ⟨c.yy / c.det, -c.xy / c.det, c.xx / c.det⟩

theorem average_eq (bogus : ℚ) (p1 p2 : ℚ × ℚ) (c1 c2 : Sym2) (h : (c1.add c2).det ≠ 0) :
    (average bogus p1 p2 c1 c2).2.1 =
      ⟨(c2.det * c1.xx + c1.det * c2.xx) / (c1.add c2).det, (c2.det * c1.xy + c1.det * c2.xy) / (c1.add c2).det,
        (c2.det * c1.yy + c1.det * c2.yy) / (c1.add c2).det⟩ ∧
    (average bogus p1 p2 c1 c2).2.2 = (invOf (c1.add c2)).quad (p2.1 - p1.1, p2.2 - p1.2) ∧
    (average bogus p1 p2 c1 c2).1 =
      (p1.1 + ((c1.xx * (c1.yy + c2.yy) - c1.xy * (c1.xy + c2.xy)) * (p2.1 - p1.1) +
        (c1.xy * (c1.xx + c2.xx) - c1.xx * (c1.xy + c2.xy)) * (p2.2 - p1.2)) / (c1.add c2).det,
      p1.2 + ((c1.xy * (c1.yy + c2.yy) - c1.yy * (c1.xy + c2.xy)) * (p2.1 - p1.1) +
        (c1.yy * (c1.xx + c2.xx) - c1.xy * (c1.xy + c2.xy)) * (p2.2 - p1.2)) / (c1.add c2).det) := by
  have hc : c2.add c1 = c1.add c2 := by unfold Sym2.add; simp only [add_comm]
  unfold average
  rw [hc]
  unfold Sym2.inv
  rw [if_neg h]
  dsimp only
  have hD : (c1.add c2).det = (c1.xx + c2.xx) * (c1.yy + c2.yy) - (c1.xy + c2.xy) * (c1.xy + c2.xy) := rfl
  have hx : (c1.add c2).xx = c1.xx + c2.xx := rfl
  have hxy : (c1.add c2).xy = c1.xy + c2.xy := rfl
  have hyy : (c1.add c2).yy = c1.yy + c2.yy := rfl
  refine ⟨?_, rfl, ?_⟩
  · rw [hx, hxy, hyy]
    unfold Sym2.det at *
    generalize hdd : (c1.add c2).xx * (c1.add c2).yy - (c1.add c2).xy * (c1.add c2).xy = D at *
    rw [Sym2.mk.injEq]
    refine ⟨?_, ?_, ?_⟩ <;> field_simp <;> rw [hD] <;> ring
  · rw [hx, hxy, hyy]
    generalize (c1.add c2).det = D at *
    rw [Prod.mk.injEq]
    constructor <;> field_simp <;> ring

/-- C198: the average does not depend on which of the two comes first: the same position, covariance and
chi-square, singular or not. -/
theorem C198_symmetric (bogus : ℚ) (p1 p2 : ℚ × ℚ) (c1 c2 : Sym2) :
    average bogus p1 p2 c1 c2 = average bogus p2 p1 c2 c1 := by
  have hc : c2.add c1 = c1.add c2 := by unfold Sym2.add; simp only [add_comm]
  by_cases h : (c1.add c2).det = 0
  · unfold average Sym2.inv
    rw [hc, if_pos h]
  · have h' : (c2.add c1).det ≠ 0 := by rw [hc]; exact h
    obtain ⟨a1, a2, a3⟩ := average_eq bogus p1 p2 c1 c2 h
    obtain ⟨b1, b2, b3⟩ := average_eq bogus p2 p1 c2 c1 h'
    have hD : (c1.add c2).det = (c1.xx + c2.xx) * (c1.yy + c2.yy) - (c1.xy + c2.xy) * (c1.xy + c2.xy) := rfl
    refine Prod.ext ?_ (Prod.ext ?_ ?_)
    · rw [a3, b3, hc]
      generalize (c1.add c2).det = D at *
      rw [Prod.mk.injEq]
      constructor <;> field_simp <;> rw [hD] <;> ring
    · rw [a1, b1, hc]
      rw [Sym2.mk.injEq]
      refine ⟨?_, ?_, ?_⟩ <;> ring
    · rw [a2, b2, hc]
      unfold Sym2.quad
      dsimp only
      ring

/-- C198: for positive definite covariances the position minimises the sum of the two squared normalised
distances, and the chi-square is the minimum; it is not negative. -/
theorem C198_minimum (bogus : ℚ) (p1 p2 : ℚ × ℚ) (c1 c2 : Sym2) (h1 : PosDef c1) (h2 : PosDef c2) :
    let r := average bogus p1 p2 c1 c2
    let S := fun p : ℚ × ℚ => (invOf c1).quad (p.1 - p1.1, p.2 - p1.2) + (invOf c2).quad (p.1 - p2.1, p.2 - p2.2)
    0 ≤ r.2.2 ∧ S r.1 = r.2.2 ∧ ∀ p, r.2.2 ≤ S p := by
  intro r S
  have hS := posDef_add h1 h2
  have hne : (c1.add c2).det ≠ 0 := hS.2.ne'
  obtain ⟨a1, a2, a3⟩ := average_eq bogus p1 p2 c1 c2 hne
  have inv_pd : ∀ {c : Sym2}, PosDef c → PosDef (invOf c) := by
    intro c h
    have hy := posDef_yy h
    refine ⟨div_pos hy h.2, ?_⟩
    have : (invOf c).det = 1 / c.det := by
      have := h.2.ne'
      unfold invOf Sym2.det at *
      dsimp only
      field_simp
    rw [this]
    exact div_pos one_pos h.2
  have hD : (c1.add c2).det = (c1.xx + c2.xx) * (c1.yy + c2.yy) - (c1.xy + c2.xy) * (c1.xy + c2.xy) := rfl
  have hchi : 0 ≤ r.2.2 := by
    show 0 ≤ (average bogus p1 p2 c1 c2).2.2
    rw [a2]
    exact posDef_quad (inv_pd hS) _
  have key : ∀ p, S p = r.2.2 + ((invOf c1).add (invOf c2)).quad (p.1 - r.1.1, p.2 - r.1.2) := by
    intro p
    show (invOf c1).quad (p.1 - p1.1, p.2 - p1.2) + (invOf c2).quad (p.1 - p2.1, p.2 - p2.2) =
      (average bogus p1 p2 c1 c2).2.2 + ((invOf c1).add (invOf c2)).quad
        (p.1 - (average bogus p1 p2 c1 c2).1.1, p.2 - (average bogus p1 p2 c1 c2).1.2)
    rw [a2, a3]
    have d1 := h1.2.ne'
    have d2 := h2.2.ne'
    have e1 : c1.det = c1.xx * c1.yy - c1.xy * c1.xy := rfl
    have e2 : c2.det = c2.xx * c2.yy - c2.xy * c2.xy := rfl
    unfold Sym2.quad invOf Sym2.add
    dsimp only
    have hD' : Sym2.det ⟨c1.xx + c2.xx, c1.xy + c2.xy, c1.yy + c2.yy⟩ = (c1.add c2).det := rfl
    rw [hD']
    generalize (c1.add c2).det = D at *
    generalize c1.det = D1 at *
    generalize c2.det = D2 at *
    field_simp
    subst hD e1 e2
    ring
  refine ⟨hchi, ?_, ?_⟩
  · rw [key]
    have : ((invOf c1).add (invOf c2)).quad (r.1.1 - r.1.1, r.1.2 - r.1.2) = 0 := by
      unfold Sym2.quad; simp
    rw [this, add_zero]
  · intro p
    rw [key]
    have := posDef_quad (posDef_add (inv_pd h1) (inv_pd h2)) (p.1 - r.1.1, p.2 - r.1.2)
    linarith

/-- C198: adding a measurement never makes the position worse: for positive definite covariances the variance of
the average along any direction is between zero and that of either input; equal positions are returned
unchanged with a chi-square of zero. -/
theorem C198_covariance (bogus : ℚ) (p1 p2 : ℚ × ℚ) (c1 c2 : Sym2) (h1 : PosDef c1) (h2 : PosDef c2) :
    (∀ v, 0 ≤ (average bogus p1 p2 c1 c2).2.1.quad v ∧
      (average bogus p1 p2 c1 c2).2.1.quad v ≤ c1.quad v ∧ (average bogus p1 p2 c1 c2).2.1.quad v ≤ c2.quad v) ∧
    (p1 = p2 → (average bogus p1 p2 c1 c2).1 = p1 ∧ (average bogus p1 p2 c1 c2).2.2 = 0) := by
  have hS := posDef_add h1 h2
  have hne : (c1.add c2).det ≠ 0 := hS.2.ne'
  obtain ⟨a1, a2, a3⟩ := average_eq bogus p1 p2 c1 c2 hne
  constructor
  · intro v
    rw [a1]
    have q1 := posDef_quad h1 v
    have q2 := posDef_quad h2 v
    have e : (⟨(c2.det * c1.xx + c1.det * c2.xx) / (c1.add c2).det, (c2.det * c1.xy + c1.det * c2.xy) / (c1.add c2).det,
        (c2.det * c1.yy + c1.det * c2.yy) / (c1.add c2).det⟩ : Sym2).quad v =
        (c2.det * c1.quad v + c1.det * c2.quad v) / (c1.add c2).det := by
      unfold Sym2.quad
      dsimp only
      generalize (c1.add c2).det = D at *
      field_simp
      ring
    rw [e]
    have up : ∀ {c1 c2 : Sym2}, PosDef c1 → PosDef c2 → (c2.det * c1.quad v + c1.det * c2.quad v) ≤
        c1.quad v * (c1.add c2).det := by
      intro c1 c2 h1 h2
      -- c1.quad * det S - ... = quad of S^{-1}-like in w = c1 v
      have e : c1.quad v * (c1.add c2).det - (c2.det * c1.quad v + c1.det * c2.quad v) =
          (⟨(c1.add c2).yy, -(c1.add c2).xy, (c1.add c2).xx⟩ : Sym2).quad
            (c1.xx * v.1 + c1.xy * v.2, c1.xy * v.1 + c1.yy * v.2) := by
        unfold Sym2.quad Sym2.det Sym2.add
        dsimp only
        ring
      have hS := posDef_add h1 h2
      have hpd : PosDef ⟨(c1.add c2).yy, -(c1.add c2).xy, (c1.add c2).xx⟩ := by
        refine ⟨posDef_yy hS, ?_⟩
        have := hS.2
        unfold Sym2.det at *
        dsimp only at *
        nlinarith
      have := posDef_quad hpd (c1.xx * v.1 + c1.xy * v.2, c1.xy * v.1 + c1.yy * v.2)
      linarith
    refine ⟨?_, ?_, ?_⟩
    · apply div_nonneg _ hS.2.le
      have := mul_nonneg h2.2.le q1
      have := mul_nonneg h1.2.le q2
      linarith
    · rw [div_le_iff₀ hS.2]
      exact up h1 h2
    · rw [div_le_iff₀ hS.2]
      have hc : c1.add c2 = c2.add c1 := by unfold Sym2.add; simp only [add_comm]
      rw [hc]
      have := up h2 h1
      linarith
  · rintro rfl
    rw [a3, a2]
    simp [Sym2.quad]

example : PosDef ⟨2, 1, 3⟩ := by unfold PosDef Sym2.det; norm_num

example : average 0 (0, 0) (1, 0) ⟨1, 0, 1⟩ ⟨3, 0, 1⟩ = ((1/4, 0), ⟨3/4, 0, 1/2⟩, 1/4) := by decide +kernel

/-! ### A failed average -/

/-- C199: a failed average should leave the vertex alone. The test compares the marker with the marker minus one:
whatever its value, it is never recognised. -/
theorem C199_failure_unseen_refuted (bogus : ℚ) : failed bogus bogus = false := by
  unfold failed
  exact decide_eq_false (by linarith)

/-- C199: two tracks whose summed covariance is singular give a "valid" vertex of two tracks, with the marker as
chi-square, at the origin of the plane, whatever the measured positions. -/
theorem C199_two_tracks_refuted (E : Env) (a b : Trk) (p1 p2 : ℚ × ℚ) (c1 c2 : Sym2)
    (h : E.two a b = some (p1, p2, c1, c2)) (hs : (c1.add c2).det = 0) :
    fitTwo E a b = ⟨true, E.twoPos a b (0, 0), ⟨0, 0, 0⟩, E.bogus, 1, [a, b]⟩ := by
  have hc : c2.add c1 = c1.add c2 := by unfold Sym2.add; simp only [add_comm]
  have ha : average E.bogus p1 p2 c1 c2 = ((0, 0), ⟨0, 0, 0⟩, E.bogus) := by
    unfold average Sym2.inv
    rw [hc, if_pos hs]
  unfold fitTwo
  rw [h]
  dsimp only
  rw [ha]
  dsimp only
  rw [C199_failure_unseen_refuted]
  rfl

/-- C199: and a track that cannot be averaged with a vertex is added to it, moving the vertex to the origin of the
plane of the track and adding the marker to the chi-square. -/
theorem C199_add_refuted (E : Env) (v : Vtx) (t : Trk) (p1 p2 : ℚ × ℚ) (c1 c2 : Sym2)
    (h : E.onPlane v t = (p1, p2, c1, c2)) (hs : (c1.add c2).det = 0) :
    addTrack E v t = ⟨true, E.planePos v t (0, 0), ⟨0, 0, 0⟩, v.chi2 + E.bogus, v.ndof + 2, v.tracks ++ [t]⟩ := by
  have hc : c2.add c1 = c1.add c2 := by unfold Sym2.add; simp only [add_comm]
  have ha : average E.bogus p1 p2 c1 c2 = ((0, 0), ⟨0, 0, 0⟩, E.bogus) := by
    unfold average Sym2.inv
    rw [hc, if_pos hs]
  unfold addTrack
  rw [h]
  dsimp only
  rw [ha]
  dsimp only
  rw [C199_failure_unseen_refuted]
  rfl

example : ((⟨1, 1, 1⟩ : Sym2).add ⟨0, 0, 0⟩).det = 0 := by decide +kernel

/-! ### The fit -/

theorem fitTwo_shape (E : Env) (a b : Trk) :
    (fitTwo E a b).tracks = [a] ∨
      ((fitTwo E a b).tracks = [a, b] ∧ (fitTwo E a b).ndof = 1 ∧ (fitTwo E a b).valid = true) := by
  unfold fitTwo
  dsimp only
  split
  · exact Or.inl rfl
  · split
    · exact Or.inl rfl
    · exact Or.inr ⟨rfl, rfl, rfl⟩

theorem addTrack_shape (E : Env) (v : Vtx) (t : Trk) :
    addTrack E v t = v ∨
      ((addTrack E v t).tracks = v.tracks ++ [t] ∧ (addTrack E v t).ndof = v.ndof + 2 ∧
        (addTrack E v t).valid = true) := by
  unfold addTrack
  dsimp only
  split
  · exact Or.inl rfl
  · exact Or.inr ⟨rfl, rfl, rfl⟩

theorem addOthers_shape (E : Env) (ts : List Trk) (v : Vtx) (hv : v.valid = true)
    (hn : v.ndof = 2 * (v.tracks.length : ℤ) - 3) :
    (addOthers E v ts).valid = true ∧
      (addOthers E v ts).ndof = 2 * ((addOthers E v ts).tracks.length : ℤ) - 3 ∧
      ∃ l, l.Sublist ts ∧ (addOthers E v ts).tracks = v.tracks ++ l := by
  unfold addOthers
  induction ts generalizing v with
  | nil => exact ⟨hv, hn, [], List.Sublist.refl _, by simp⟩
  | cons t ts ih =>
    simp only [List.foldl_cons]
    by_cases hc : E.sip v t > E.sipCut
    · rw [if_pos hc]
      obtain ⟨h1, h2, l, hl, h3⟩ := ih v hv hn
      exact ⟨h1, h2, l, hl.cons _, h3⟩
    · rw [if_neg hc]
      rcases addTrack_shape E v t with h | ⟨ht, hnd, hvd⟩
      · rw [h]
        obtain ⟨h1, h2, l, hl, h3⟩ := ih v hv hn
        exact ⟨h1, h2, l, hl.cons _, h3⟩
      · obtain ⟨h1, h2, l, hl, h3⟩ := ih (addTrack E v t) hvd (by rw [hnd, ht, hn]; simp; ring)
        refine ⟨h1, h2, t :: l, hl.cons₂ _, ?_⟩
        rw [h3, ht]; simp

theorem order_two (big : ℚ) (ts : List Trk) (h : 2 ≤ ts.length) :
    ∃ a b rest, order big ts = a :: b :: rest ∧ (a :: b :: rest).Perm ts := by
  have hp : (order big ts).Perm ts := by
    unfold order
    exact (promote_perm _ _ _).trans (List.perm_insertionSort _ _)
  have hl := hp.length_eq
  match ho : order big ts, hl with
  | [], hl => simp at hl; omega
  | [x], hl => simp at hl; omega
  | a :: b :: rest, _ => exact ⟨a, b, rest, rfl, by rw [← ho]; exact hp⟩

/-- C200: the fit of fewer than two tracks is the default vertex; otherwise the vertex uses input tracks, each
at most as often as it is given; a vertex of two or more tracks contains the two closest ones, and has
`2 n - 3` degrees of freedom for its `n` tracks. -/
theorem C200_fit (E : Env) (ts : List Trk) :
    (ts.length < 2 → fitTracks E ts = E.none) ∧
    (2 ≤ ts.length → (fitTracks E ts).valid = true ∧ (fitTracks E ts).tracks ≠ [] ∧
      (fitTracks E ts).tracks.Subperm ts ∧
      (2 ≤ (fitTracks E ts).tracks.length →
        (fitTracks E ts).ndof = 2 * ((fitTracks E ts).tracks.length : ℤ) - 3 ∧
        ∀ a b rest, order E.big ts = a :: b :: rest → ∃ l, (fitTracks E ts).tracks = a :: b :: l)) := by
  constructor
  · intro h
    unfold fitTracks
    rw [if_pos h]
  · intro h
    obtain ⟨a, b, rest, ho, hp⟩ := order_two E.big ts h
    have hf : fitTracks E ts = fitOrdered E (a :: b :: rest) := by
      unfold fitTracks
      rw [if_neg (by omega), ho]
    rw [hf, ho]
    unfold fitOrdered
    dsimp only
    have hval : (fitTwo E a b).valid = true := by
      unfold fitTwo
      dsimp only
      split
      · rfl
      · split <;> rfl
    rcases fitTwo_shape E a b with h1 | ⟨h1, h2, h3⟩
    · rw [if_pos (Or.inr (by rw [h1]; simp))]
      rw [h1]
      refine ⟨hval, by simp, ?_, by simp⟩
      exact ((List.nil_sublist _).cons₂ a).subperm.trans hp.subperm
    · rw [if_neg (by rw [h1, h3]; simp)]
      obtain ⟨g1, g2, l, hl, g3⟩ := addOthers_shape E rest (fitTwo E a b) h3 (by rw [h2, h1]; norm_num)
      rw [g3, h1]
      refine ⟨g1, by simp, ?_, ?_⟩
      · exact ((hl.cons₂ b).cons₂ a).subperm.trans hp.subperm
      · intro _
        rw [g3, h1] at g2
        refine ⟨g2, ?_⟩
        intro a' b' rest' he
        injection he with e1 e2
        injection e2 with e2 e3
        subst e1 e2
        exact ⟨l, rfl⟩

/-- C200: a further track is used exactly if its impact parameter significance with the vertex of the tracks
before it does not exceed the cut (for a marker below one and positive definite covariances). -/
theorem C200_significance_cut (E : Env) (v : Vtx) (l : List Trk) (t : Trk) (hb : E.bogus < 1)
    (hpd : PosDef (E.onPlane (addOthers E v l) t).2.2.1 ∧ PosDef (E.onPlane (addOthers E v l) t).2.2.2) :
    (E.sip (addOthers E v l) t ≤ E.sipCut → (addOthers E v (l ++ [t])).tracks = (addOthers E v l).tracks ++ [t]) ∧
    (E.sipCut < E.sip (addOthers E v l) t → addOthers E v (l ++ [t]) = addOthers E v l) := by
  have e : addOthers E v (l ++ [t]) =
      if E.sip (addOthers E v l) t > E.sipCut then addOthers E v l else addTrack E (addOthers E v l) t := by
    unfold addOthers
    rw [List.foldl_append]
    rfl
  rw [e]
  constructor
  · intro h
    rw [if_neg (not_lt.2 h)]
    unfold addTrack
    dsimp only
    have := (C198_minimum E.bogus (E.onPlane (addOthers E v l) t).1 (E.onPlane (addOthers E v l) t).2.1 _ _ hpd.1 hpd.2).1
    rw [if_neg]
    unfold failed
    simp only [decide_eq_true_eq]
    linarith
  · intro h
    rw [if_pos h]

/-- a fitter whose covariances are the identity -/
def exEnv : Env :=
  { big := 100000, bogus := -999, sipCut := 3, chi0 := -1, ndof0 := 0
    two := fun _ _ => some ((0, 0), (1, 0), ⟨1, 0, 1⟩, ⟨1, 0, 1⟩)
    twoPos := fun _ _ p => ⟨p.1, p.2, 0⟩
    onPlane := fun _ _ => ((0, 0), (1, 0), ⟨1, 0, 1⟩, ⟨1, 0, 1⟩)
    planePos := fun _ _ p => ⟨p.1, p.2, 1⟩
    sip := fun v _ => v.chi2 }

example : (fitTracks exEnv exTracks).tracks.map Trk.id = [2, 3, 1] ∧ (fitTracks exEnv exTracks).ndof = 3 := by
  decide +kernel

/-- C200: with a given position the two tracks that start nearest to it are fitted first; the vertex holds the
nearest one, in any case, and, with two or more, also the second nearest; if the two cannot be brought to a common plane
the vertex is the start of the nearest track. -/
theorem C200_given_position (E : Env) (p : V3) (ts : List Trk) (h : 2 ≤ ts.length) :
    ∃ a b rest, (a :: b :: rest).Perm ts ∧ (a.start.sub p).mag2 ≤ (b.start.sub p).mag2 ∧
      (∀ c ∈ rest, (b.start.sub p).mag2 ≤ (c.start.sub p).mag2) ∧
      (rest.Pairwise fun c d => (c.start.sub p).mag2 ≤ (d.start.sub p).mag2) ∧
      (E.two a b = .none → fitTracksWithVtx E p ts =
        ⟨true, a.start, ⟨0, 0, 0⟩, E.chi0, E.ndof0, [a]⟩) ∧
      ((fitTracksWithVtx E p ts).tracks = [a] ∨
        ∃ l, l.Sublist rest ∧ (fitTracksWithVtx E p ts).tracks = a :: b :: l) := by
  have hp : (orderVtx p ts).Perm ts := List.perm_insertionSort _ _
  have hs : (orderVtx p ts).Pairwise fun a b => (a.start.sub p).mag2 ≤ (b.start.sub p).mag2 := by
    unfold orderVtx
    haveI : Std.Total (fun a b : Trk => (a.start.sub p).mag2 ≤ (b.start.sub p).mag2) := ⟨fun a b => le_total _ _⟩
    haveI : IsTrans Trk (fun a b : Trk => (a.start.sub p).mag2 ≤ (b.start.sub p).mag2) := ⟨fun a b c => le_trans⟩
    exact List.pairwise_insertionSort _ _
  have hl := hp.length_eq
  match ho : orderVtx p ts, hl with
  | [], hl => simp at hl; omega
  | [x], hl => simp at hl; omega
  | a :: b :: rest, _ =>
    rw [ho] at hs hp
    rw [List.pairwise_cons, List.pairwise_cons] at hs
    have hf : fitTracksWithVtx E p ts = fitOrdered E (a :: b :: rest) := by
      unfold fitTracksWithVtx
      rw [if_neg (by omega), ho]
    refine ⟨a, b, rest, hp, hs.1 b (by simp), hs.2.1, hs.2.2, ?_, ?_⟩
    · intro h2
      rw [hf]
      have e : fitTwo E a b = ⟨true, a.start, ⟨0, 0, 0⟩, E.chi0, E.ndof0, [a]⟩ := by
        unfold fitTwo
        rw [h2]
        simp
      unfold fitOrdered
      dsimp only
      rw [e, if_pos (by simp)]
    · rw [hf]
      unfold fitOrdered
      dsimp only
      rcases fitTwo_shape E a b with h1 | ⟨h1, h2, h3⟩
      · rw [if_pos (Or.inr (by rw [h1]; simp)), h1]
        exact Or.inl rfl
      · rw [if_neg (by rw [h1, h3]; simp)]
        obtain ⟨_, _, l, hl, g3⟩ := addOthers_shape E rest (fitTwo E a b) h3 (by rw [h2, h1]; norm_num)
        rw [g3, h1]
        exact Or.inr ⟨l, hl, rfl⟩

example : (fitTracksWithVtx exEnv ⟨10, 2, 0⟩ exTracks).tracks.map Trk.id = [3, 2, 1] ∧ 2 ≤ exTracks.length := by
  decide +kernel

/-! ### Quality of a track -/

theorem findTrack_lt (v : Vtx) (t : Trk) :
    findTrack v t ≠ v.tracks.length ↔ ∃ u ∈ v.tracks, u.id = t.id := by
  unfold findTrack
  have := List.findIdx_le_length (p := fun u : Trk => decide (u.id = t.id)) (xs := v.tracks)
  rw [show (List.findIdx (fun u => decide (u.id = t.id)) v.tracks ≠ v.tracks.length ↔
    List.findIdx (fun u => decide (u.id = t.id)) v.tracks < v.tracks.length) from by omega]
  rw [List.findIdx_lt_length]
  simp

theorem erase_find (l : List Trk) (k : Nat) (hnd : (l.map Trk.id).Nodup) :
    l.eraseIdx (l.findIdx fun u => u.id = k) = l.filter fun u => u.id ≠ k := by
  induction l with
  | nil => rfl
  | cons a l ih =>
    have hnd' := List.nodup_cons.1 (by simpa using hnd : (a.id :: l.map Trk.id).Nodup)
    rw [List.findIdx_cons]
    by_cases h : a.id = k
    · simp only [h, decide_true, cond_true, List.eraseIdx_cons_zero, ne_eq]
      rw [List.filter_cons_of_neg (by simp [h])]
      symm
      apply List.filter_eq_self.2
      intro u hu
      have : u.id ≠ k := by
        intro e
        apply hnd'.1
        rw [h, ← e]
        exact List.mem_map_of_mem hu
      simpa using this
    · simp only [h, decide_false, cond_false, List.eraseIdx_cons_succ, ne_eq]
      rw [List.filter_cons_of_pos (by simp [h]), ih hnd'.2]

/-- C201: the qualities are one per track, in order; a track is flagged as included exactly if it is one of the
tracks of the vertex; its numbers refer to a vertex fitted without it, or, in a vertex of two tracks, to the
closest point of the other track; a track that is not in a valid vertex is compared with the vertex
itself. -/
theorem C201_meta (E : Env) (alone : Trk → Trk → Vtx) (v : Vtx) (ts : List Trk)
    (hnd : (v.tracks.map Trk.id).Nodup) (hE : E.none.valid = false) :
    (computeMeta E alone v ts).length = ts.length ∧
    ∀ (i : Nat) t, ts[i]? = some t → ∃ m : Meta, (computeMeta E alone v ts)[i]? = some m ∧
      (m.included = true ↔ ∃ u ∈ v.tracks, u.id = t.id) ∧
      (m.included = false → v.valid = true → m.ref = some v) ∧
      (m.included = true → 3 ≤ v.tracks.length →
        m.ref = some (fitTracks E (v.tracks.filter fun u => u.id ≠ t.id))) ∧
      (m.included = true → v.tracks.length = 2 →
        ∃ o ∈ v.tracks, o.id ≠ t.id ∧ m.ref = some (alone o t)) := by
  constructor
  · unfold computeMeta; simp
  · intro i t ht
    unfold computeMeta
    rw [List.getElem?_map, ht]
    refine ⟨_, rfl, ?_, ?_, ?_, ?_⟩
    · simp only [decide_eq_true_eq]
      exact findTrack_lt v t
    · intro hinc hv
      simp only [decide_eq_false_iff_not, not_not] at hinc
      have hu : unbiased E v t = v := by
        unfold unbiased
        dsimp only
        rw [if_pos hinc]
      dsimp only
      rw [hu, hv]
      rfl
    · intro hinc h3
      simp only [decide_eq_true_eq] at hinc
      have hu : unbiased E v t = fitTracks E (v.tracks.filter fun u => u.id ≠ t.id) := by
        unfold unbiased
        dsimp only
        rw [if_neg hinc]
        unfold findTrack
        rw [erase_find v.tracks t.id hnd]
      have hlen : 2 ≤ (v.tracks.filter fun u => u.id ≠ t.id).length := by
        rw [← erase_find v.tracks t.id hnd, List.length_eraseIdx]
        have : v.tracks.findIdx (fun u => decide (u.id = t.id)) < v.tracks.length := by
          have := List.findIdx_le_length (p := fun u : Trk => decide (u.id = t.id)) (xs := v.tracks)
          unfold findTrack at hinc
          omega
        rw [if_pos this]
        omega
      have hval := ((C200_fit E (v.tracks.filter fun u => u.id ≠ t.id)).2 hlen).1
      dsimp only
      rw [hu, hval]
      rfl
    · intro hinc h2
      simp only [decide_eq_true_eq] at hinc
      have hk : v.tracks.findIdx (fun u => decide (u.id = t.id)) < v.tracks.length := by
        have := List.findIdx_le_length (p := fun u : Trk => decide (u.id = t.id)) (xs := v.tracks)
        unfold findTrack at hinc
        omega
      have hlen : (v.tracks.eraseIdx (findTrack v t)).length = 1 := by
        rw [List.length_eraseIdx]
        unfold findTrack
        rw [if_pos hk, h2]
      have hu : unbiased E v t = E.none := by
        unfold unbiased
        dsimp only
        rw [if_neg hinc, (C200_fit E _).1 (by rw [hlen]; decide)]
      dsimp only
      rw [hu, hE]
      simp only [Bool.false_eq_true, if_false]
      rw [if_pos ⟨h2, hinc⟩]
      have hf : v.tracks.eraseIdx (findTrack v t) = v.tracks.filter fun u => u.id ≠ t.id := by
        unfold findTrack
        rw [erase_find v.tracks t.id hnd]
      rw [hf] at hlen ⊢
      obtain ⟨o, ho⟩ := List.length_eq_one_iff.1 hlen
      have hmem : o ∈ v.tracks.filter fun u => u.id ≠ t.id := by rw [ho]; simp
      have := List.mem_filter.1 hmem
      refine ⟨o, this.1, by simpa using this.2, ?_⟩
      rw [ho]; rfl

example : ((fitTracks exEnv exTracks).tracks.map Trk.id).Nodup ∧ exEnv.none.valid = false := by decide +kernel

/-! ### The significance -/

/-- C202: the chi-square reported for a track is the one the vertex would gain from it. -/
theorem C202_chi2_is_gain (bogus : ℚ) (p1 p2 : ℚ × ℚ) (c1 c2 : Sym2) (h : (c1.add c2).det ≠ 0) :
    chi2Of p1 p2 c1 c2 = (average bogus p1 p2 c1 c2).2.2 := by
  have hc : c2.add c1 = c1.add c2 := by unfold Sym2.add; simp only [add_comm]
  unfold chi2Of average Sym2.inv
  rw [hc, if_neg h]

/-- C202: a singular sum is reported as -1, a value no other chi-square of positive matrices has. -/
theorem C202_singular (p1 p2 : ℚ × ℚ) (c1 c2 : Sym2) (h : (c1.add c2).det = 0) :
    chi2Of p1 p2 c1 c2 = -1 := by
  have hc : c2.add c1 = c1.add c2 := by unfold Sym2.add; simp only [add_comm]
  unfold chi2Of Sym2.inv
  rw [hc, if_pos h]

/-- C202: for positive definite covariances and different points the squared error of the impact parameter is
positive, and the squared significance `ip²/ipErr²` does not exceed the chi-square, with equality exactly if
the difference of the points is a principal direction of the summed covariance. -/
theorem C202_significance_le_chi2 (p1 p2 : ℚ × ℚ) (c1 c2 : Sym2) (h1 : PosDef c1) (h2 : PosDef c2)
    (hp : p1 ≠ p2) :
    0 < ip2 p1 p2 ∧ 0 < ipErr2 p1 p2 c1 c2 ∧ ip2 p1 p2 / ipErr2 p1 p2 c1 c2 ≤ chi2Of p1 p2 c1 c2 ∧
      (ip2 p1 p2 / ipErr2 p1 p2 c1 c2 = chi2Of p1 p2 c1 c2 ↔
        ((c1.xx + c2.xx) * (p2.1 - p1.1) + (c1.xy + c2.xy) * (p2.2 - p1.2)) * (p2.2 - p1.2) =
        ((c1.xy + c2.xy) * (p2.1 - p1.1) + (c1.yy + c2.yy) * (p2.2 - p1.2)) * (p2.1 - p1.1)) := by
  have hc := posDef_add h2 h1
  unfold chi2Of ipErr2 Sym2.inv
  rw [if_neg hc.2.ne']
  dsimp only
  have ex : (c2.add c1).xx = c2.xx + c1.xx := rfl
  have exy : (c2.add c1).xy = c2.xy + c1.xy := rfl
  have eyy : (c2.add c1).yy = c2.yy + c1.yy := rfl
  rw [show c1.xx + c2.xx = (c2.add c1).xx by rw [ex]; ring, show c1.xy + c2.xy = (c2.add c1).xy by rw [exy]; ring,
    show c1.yy + c2.yy = (c2.add c1).yy by rw [eyy]; ring]
  generalize c2.add c1 = c at hc
  unfold ip2
  have hd : p2.1 - p1.1 ≠ 0 ∨ p2.2 - p1.2 ≠ 0 := by
    by_contra hcon
    push Not at hcon
    exact hp (Prod.ext (by linarith [hcon.1]) (by linarith [hcon.2]))
  generalize p2.1 - p1.1 = x at *
  generalize p2.2 - p1.2 = y at *
  obtain ⟨hxx, hdet⟩ := hc
  have hip : 0 < x * x + y * y := by
    rcases hd with h | h
    · have := mul_self_pos.2 h; have := mul_self_nonneg y; linarith
    · have := mul_self_pos.2 h; have := mul_self_nonneg x; linarith
  have hq : 0 < c.quad (x, y) := by
    have e : c.xx * c.quad (x, y) = (c.xx * x + c.xy * y) * (c.xx * x + c.xy * y) + c.det * (y * y) := by
      unfold Sym2.quad Sym2.det; ring
    have hpos : 0 < c.xx * c.quad (x, y) := by
      rw [e]
      by_cases hy : y = 0
      · subst hy
        have hx : x ≠ 0 := by rcases hd with h | h; exacts [h, absurd rfl h]
        have := mul_self_pos.2 (mul_ne_zero hxx.ne' hx)
        nlinarith
      · have := mul_pos hdet (mul_self_pos.2 hy)
        have := mul_self_nonneg (c.xx * x + c.xy * y)
        linarith
    exact pos_of_mul_pos_right hpos hxx.le
  have hgap : (Sym2.mk (c.yy / c.det) (-c.xy / c.det) (c.xx / c.det)).quad (x, y) -
      (x * x + y * y) / (c.quad (x, y) / (x * x + y * y)) =
      ((c.xx * x + c.xy * y) * y - (c.xy * x + c.yy * y) * x) ^ 2 / (c.det * c.quad (x, y)) := by
    have hD := hdet.ne'
    have hQ := hq.ne'
    have hI := hip.ne'
    have e1 : (Sym2.mk (c.yy / c.det) (-c.xy / c.det) (c.xx / c.det)).quad (x, y) =
        (c.yy * x * x - 2 * c.xy * x * y + c.xx * y * y) / c.det := by
      unfold Sym2.quad; dsimp only; field_simp; ring
    rw [e1]
    have key : (c.yy * x * x - 2 * c.xy * x * y + c.xx * y * y) * c.quad (x, y) -
        c.det * ((x * x + y * y) * (x * x + y * y)) =
        ((c.xx * x + c.xy * y) * y - (c.xy * x + c.yy * y) * x) ^ 2 := by
      unfold Sym2.quad Sym2.det; ring
    rw [← key]
    generalize c.quad (x, y) = Q at *
    generalize c.det = D at *
    field_simp
  refine ⟨hip, div_pos hq hip, ?_, ?_⟩
  · have : 0 ≤ ((c.xx * x + c.xy * y) * y - (c.xy * x + c.yy * y) * x) ^ 2 / (c.det * c.quad (x, y)) :=
      div_nonneg (sq_nonneg _) (mul_pos hdet hq).le
    linarith
  · constructor
    · intro he
      have h0 : ((c.xx * x + c.xy * y) * y - (c.xy * x + c.yy * y) * x) ^ 2 / (c.det * c.quad (x, y)) = 0 := by
        rw [← hgap, he, sub_self]
      rcases div_eq_zero_iff.1 h0 with h | h
      · have := pow_eq_zero_iff (two_ne_zero) |>.1 h
        linarith
      · exact absurd h (mul_pos hdet hq).ne'
    · intro he
      rw [he, sub_self] at hgap
      have : (0 : ℚ) ^ 2 / (c.det * c.quad (x, y)) = 0 := by simp
      linarith

example : PosDef ⟨2, 1, 3⟩ ∧ PosDef ⟨1, 0, 1⟩ ∧ ip2 (0, 0) (1, 2) = 5 ∧
    ipErr2 (0, 0) (1, 2) ⟨2, 1, 3⟩ ⟨1, 0, 1⟩ = 23 / 5 ∧ chi2Of (0, 0) (1, 2) ⟨2, 1, 3⟩ ⟨1, 0, 1⟩ = 12 / 11 := by
  refine ⟨⟨by norm_num, by unfold Sym2.det; norm_num⟩, ⟨by norm_num, by unfold Sym2.det; norm_num⟩, ?_⟩
  decide +kernel

/-- C202: the three numbers do not depend on which of the track and the vertex comes first. -/
theorem C202_symmetric (p1 p2 : ℚ × ℚ) (c1 c2 : Sym2) :
    chi2Of p1 p2 c1 c2 = chi2Of p2 p1 c2 c1 ∧ ip2 p1 p2 = ip2 p2 p1 ∧
      ipErr2 p1 p2 c1 c2 = ipErr2 p2 p1 c2 c1 := by
  have hc : c2.add c1 = c1.add c2 := by unfold Sym2.add; simp only [add_comm]
  refine ⟨?_, ?_, ?_⟩
  · unfold chi2Of
    rw [hc]
    cases (c1.add c2).inv with
    | none => rfl
    | some s => dsimp only; unfold Sym2.quad; dsimp only; ring
  · unfold ip2; ring
  · unfold ipErr2
    rw [hc]
    congr 1
    · unfold Sym2.quad; dsimp only; ring
    · unfold ip2; ring

example : chi2Of (0, 0) (1, 2) ⟨2, 1, 3⟩ ⟨1, 0, 1⟩ = chi2Of (1, 2) (0, 0) ⟨1, 0, 1⟩ ⟨2, 1, 3⟩ :=
  (C202_symmetric _ _ _ _).1

end Verif.VtxFit

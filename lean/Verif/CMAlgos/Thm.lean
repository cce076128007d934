import Verif.CMAlgos.Model
import Mathlib.Data.List.Perm.Basic
import Mathlib.Algebra.Order.AbsoluteValue.Basic
import Mathlib.Tactic.Linarith
import Mathlib.Tactic.FieldSimp
import Mathlib.Tactic.Positivity
import Mathlib.Tactic.NormNum
import Mathlib.Tactic.Ring

/-!
# Theorems about the algorithms of CMTool
-/

namespace Verif.CMAlgos

/-! ## Specifications -/

/-- The decision does not depend on which of two clusters is named first. -/
def Sym (f : Cl → Cl → Bool) : Prop := ∀ a b, f a b = f b a

/-- Two angles agree to `cut`, or, if asked for, up to half a turn. -/
def Agree (ambig : Bool) (cut x y : ℚ) : Prop :=
  |x - y| < cut ∨ ambig = true ∧ ∃ k : ℚ, (k = 180 ∨ k = -180) ∧ |x - y - k| < cut

/-- Some corner of `p` and some corner of `q` have a squared distance less than the cut. -/
def Close (cut : ℚ) (p q : List (ℚ × ℚ)) : Prop := ∃ x ∈ p, ∃ y ∈ q, (y.1 - x.1) ^ 2 + (y.2 - x.2) ^ 2 < cut

/-- Squared distance of two points. -/
def d2 (x y x' y' : ℚ) : ℚ := (x - x') ^ 2 + (y - y') ^ 2

/-- `d` is the least squared distance of the point from the points of the segment. -/
def IsLeast2 (d px py sx sy ex ey : ℚ) : Prop :=
  (∃ t, 0 ≤ t ∧ t ≤ 1 ∧ d = d2 px py (sx + t * (ex - sx)) (sy + t * (ey - sy))) ∧
  ∀ t, 0 ≤ t → t ≤ 1 → d ≤ d2 px py (sx + t * (ex - sx)) (sy + t * (ey - sy))

/-! ## C336: symmetry -/

theorem angles_comm (am : Bool) (cut x y : ℚ) : angles am cut x y = angles am cut y x := by
  unfold angles
  have h1 : |y - x| = |x - y| := abs_sub_comm _ _
  have h2 : |y - x - 180| = |x - y + 180| := by rw [← abs_neg]; congr 1; ring
  have h3 : |y - x + 180| = |x - y - 180| := by rw [← abs_neg]; congr 1; ring
  rw [h1, h2, h3]
  cases am
  · rfl
  · simp only [if_true]
    congr 1
    exact propext ⟨fun h => by tauto, fun h => by tauto⟩

theorem polysNear_iff (cut : ℚ) (p q : List (ℚ × ℚ)) : polysNear cut p q = true ↔ Close cut p q := by
  unfold polysNear Close
  simp [List.any_eq_true]

theorem Close_comm (cut : ℚ) (p q : List (ℚ × ℚ)) : Close cut p q ↔ Close cut q p := by
  constructor
  · rintro ⟨x, hx, y, hy, h⟩
    exact ⟨y, hy, x, hx, by have e : (x.1 - y.1) ^ 2 + (x.2 - y.2) ^ 2 = (y.1 - x.1) ^ 2 + (y.2 - x.2) ^ 2 := by ring
                            rw [e]; exact h⟩
  · rintro ⟨x, hx, y, hy, h⟩
    exact ⟨y, hy, x, hx, by have e : (x.1 - y.1) ^ 2 + (x.2 - y.2) ^ 2 = (y.1 - x.1) ^ 2 + (y.2 - x.2) ^ 2 := by ring
                            rw [e]; exact h⟩

theorem polysNear_comm (cut : ℚ) (p q : List (ℚ × ℚ)) : polysNear cut p q = polysNear cut q p := by
  rw [Bool.eq_iff_iff, polysNear_iff, polysNear_iff, Close_comm]

theorem theCut_comm (c : ACfg) (a b : Cl) : theCut c a b = theCut c b a := by
  unfold theCut; rw [min_comm]

/-- **C336.** For every setting, these merging and prohibiting algorithms give the same answer in either order of the two clusters: merge all, big
clusters, tracks, polygon in polygon, polygon overlap (for a symmetric overlap of polygons), start near end, angle alignment, compatibility and incompatibility, tiny
with big, shortest distance of polygons, start of track, centre of mass of small clusters. -/
theorem C336_symmetric_partial :
    Sym mergeAll ∧ Sym polyHitOverlap ∧ (∀ m, Sym (prohibitBig m)) ∧ (∀ m, Sym (prohibitTracks m)) ∧ (∀ f, Sym (polyContain f)) ∧
    (∀ f m, (∀ p q, f p q = f q p) → Sym (polyOverlap f m)) ∧ (∀ o m s, Sym (startNearEnd o m s)) ∧
    (∀ c, Sym (angleAlign c) ∧ Sym (angleCompat c) ∧ Sym (angleIncompat c)) ∧ (∀ c, Sym (tinyWithBig c)) ∧
    (∀ m n d, Sym (polyShortest m n d)) ∧ (∀ c, Sym (startTrack c)) ∧ (∀ c, Sym (comSmall c)) := by
  refine ⟨?_, ?_, ?_, ?_, ?_, ?_, ?_, ?_, ?_, ?_, ?_, ?_⟩
  · intro a b; unfold mergeAll; simp only [and_comm (a := a.n ≠ 0) (b := b.n ≠ 0)]
  · intro a b; unfold polyHitOverlap; simp
  · intro m a b; unfold prohibitBig; simp only [and_comm (a := a.n > m) (b := b.n > m)]
  · intro m a b; unfold prohibitTracks; simp only [or_comm (a := a.ep > m) (b := b.ep > m)]
  · intro f a b; unfold polyContain; simp only [or_comm (a := a.poly.length < 3) (b := b.poly.length < 3), or_comm (a := f a.poly b.poly = true) (b := f b.poly a.poly = true)]
  · intro f m hf a b; unfold polyOverlap; rw [hf]; simp only [or_comm (a := a.paramHits < m) (b := b.paramHits < m), or_comm (a := a.poly.length < 2) (b := b.poly.length < 2)]
  · intro o m s a b
    rw [Bool.eq_iff_iff]
    unfold startNearEnd
    constructor
    · intro h
      split at h
      · rename_i h1
        split
        · rfl
        · rfl
      · split at h
        · rename_i _ h2; rw [if_pos h2]
        · cases h
    · intro h
      split at h
      · rename_i h1
        split
        · rfl
        · rfl
      · split at h
        · rename_i _ h2; rw [if_pos h2]
        · cases h
  · intro c
    refine ⟨?_, ?_, ?_⟩
    · intro a b; unfold angleAlign; rw [angles_comm]; simp only [or_comm (a := a.n < c.minHits) (b := b.n < c.minHits), or_comm (a := a.angle < -998) (b := b.angle < -998)]
    · intro a b; unfold angleCompat; rw [angles_comm, theCut_comm]; simp only [or_comm (a := a.n < c.minHits) (b := b.n < c.minHits), or_comm (a := a.angle < -998) (b := b.angle < -998)]
    · intro a b; unfold angleIncompat
      rw [angles_comm, theCut_comm]
      simp only [or_comm (a := a.n < c.minHits) (b := b.n < c.minHits), or_comm (a := a.angle < -998) (b := b.angle < -998),
        or_comm (a := a.length < c.minLength) (b := b.length < c.minLength)]
  · intro c a b
    unfold tinyWithBig
    dsimp only
    rw [polysNear_comm]
    rw [Bool.and_comm (!decide (a.n > c.minSmall ∧ a.n < c.maxSmall)), Bool.and_comm (!decide (a.n > c.minBig ∧ a.n < c.maxBig)),
      Bool.and_comm (decide (a.n > c.minSmall ∧ a.n < c.maxSmall)), Bool.and_comm (decide (a.n > c.minBig ∧ a.n < c.maxBig))]
  · intro m n d a b
    unfold polyShortest
    rw [polysNear_comm]
    simp only [or_comm (a := a.n < m) (b := b.n < m), or_comm (a := a.n > n) (b := b.n > n), or_comm (a := a.poly.length < 2) (b := b.poly.length < 2)]
  · intro c a b
    unfold startTrack
    simp only [or_comm (a := a.n < c.minHits) (b := b.n < c.minHits)]
    have hno : ∀ x, isStartTrack c x = true → isBlob c x = true → False := by
      intro x h1 h2
      unfold isStartTrack at h1; unfold isBlob at h2
      simp only [decide_eq_true_eq] at h1 h2
      linarith [h2.2.2]
    split
    · rfl
    · by_cases h1 : (isStartTrack c a && isBlob c b) = true
      · have h2 : ¬ (isStartTrack c b && isBlob c a) = true := by
          intro h2
          rw [Bool.and_eq_true] at h1 h2
          exact hno a h1.1 h2.2
        rw [if_pos h1, if_neg h2, if_pos h1]
      · rw [if_neg h1]
        by_cases h2 : (isStartTrack c b && isBlob c a) = true
        · rw [if_pos h2, if_pos h2]
        · rw [if_neg h2, if_neg h2, if_neg h1]
  · intro c a b
    unfold comSmall
    dsimp only
    simp only [or_comm (a := a.n > c.maxHits) (b := b.n > c.maxHits)]
    have e : ((com b.hits).1 - (com a.hits).1) * ((com b.hits).1 - (com a.hits).1) + ((com b.hits).2 - (com a.hits).2) * ((com b.hits).2 - (com a.hits).2)
      = ((com a.hits).1 - (com b.hits).1) * ((com a.hits).1 - (com b.hits).1) + ((com a.hits).2 - (com b.hits).2) * ((com a.hits).2 - (com b.hits).2) := by
      ring
    rw [e, Bool.or_comm (c.inside b.poly (com a.hits) && c.usePoly),
      Bool.or_comm (decide (shortest2 (com a.hits).1 (com a.hits).2 b.startW b.startT b.endW b.endT < c.maxDist))]

/-- A cluster of `n` hits at the given place with the given start, end and angle. -/
def mk (n : Nat) (angle sw st ew et : ℚ) : Cl :=
  { plane := 0, hits := List.replicate n ⟨sw, st, 1⟩, angle := angle, opening := 1, length := 30, width := 2, startW := sw, startT := st, endW := ew,
    endT := et, ep := 1 / 2, charge := n, paramHits := n, hitDens := 2, multiHit := 5, poly := [(sw, st), (ew, et), (sw, et)], polyArea := 1 }

/-- **C336 refuted** for the angle separation: whether two clusters may be merged depends on which is named first, because the number of hits of
the first is used for both. -/
theorem C336_separate_refuted : ∃ (f : ℚ → ℚ → ℚ) (a b : Cl),
    angleSeparate f 20 15 20 a b = true ∧ angleSeparate f 20 15 20 b a = false :=
  ⟨fun _ _ => 45, mk 25 100 0 0 10 10, mk 3 45 20 20 30 30, by decide +kernel, by decide +kernel⟩

def com0 : MCfg := ⟨2, 10, 20, 25, 3, false, false, true, true, fun _ _ => false, fun _ => 1, fun _ => 0⟩

/-- **C336 refuted** for the centre of mass: if both clusters count as small and as big, the first is taken as big, and the answer
depends on the order. -/
theorem C336_com_refuted : comBig com0 (mk 5 0 50 0 50 0) { mk 5 0 0 0 100 0 with hits := List.replicate 5 ⟨0, 0, 1⟩ } = false ∧
    comBig com0 { mk 5 0 0 0 100 0 with hits := List.replicate 5 ⟨0, 0, 1⟩ } (mk 5 0 50 0 50 0) = true := by
  decide +kernel

/-- **C336.** The centre of mass algorithm is symmetric if no number of hits counts as small and as big. -/
theorem C336_com_partial (c : MCfg) (h : c.maxHits ≤ c.minHits + 1) : Sym (comBig c) := by
  intro a b
  unfold comBig
  dsimp only
  by_cases h1 : a.n > c.minHits ∧ b.n < c.maxHits
  · have h2 : ¬ (b.n > c.minHits ∧ a.n < c.maxHits) := by omega
    rw [if_pos h1, if_neg h2, if_pos h1]
  · rw [if_neg h1]
    by_cases h2 : b.n > c.minHits ∧ a.n < c.maxHits
    · rw [if_pos h2, if_pos h2]
    · rw [if_neg h2, if_neg h2, if_neg h1]

example : startTrack ⟨1, 1, 1/2, 7/10, fun p _ => decide (p.length = 3)⟩ { mk 3 0 0 0 1 1 with ep := 9/10 } (mk 3 0 1 1 2 2) = true ∧
    tinyWithBig ⟨2, 100, 0, 2, 4⟩ (mk 1 0 0 0 1 1) (mk 3 0 1 2 5 5) = true ∧ comSmall com0 (mk 3 0 0 0 1 1) (mk 3 0 1 1 2 2) = true := by
  decide +kernel

/-! ## C337, C338: angles -/

theorem angles_iff (am : Bool) (cut x y : ℚ) : angles am cut x y = true ↔ Agree am cut x y := by
  unfold angles Agree
  cases am
  · simp
  · simp only [if_true, decide_eq_true_eq, true_and]
    constructor
    · rintro (h | h | h)
      · exact Or.inl h
      · exact Or.inr ⟨180, Or.inl rfl, h⟩
      · refine Or.inr ⟨-180, Or.inr rfl, ?_⟩
        rw [sub_neg_eq_add]; exact h
    · rintro (h | ⟨k, rfl | rfl, h⟩)
      · exact Or.inl h
      · exact Or.inr (Or.inl h)
      · rw [sub_neg_eq_add] at h
        exact Or.inr (Or.inr h)

/-- **C337.** Two clusters are angle compatible if and only if both have enough hits and a known angle and their angles agree to the
cut (or the smaller opening angle), up to half a turn if that is asked for. -/
theorem C337_criterion (c : ACfg) (a b : Cl) : angleCompat c a b = true ↔
    c.minHits ≤ a.hits.length ∧ c.minHits ≤ b.hits.length ∧ -998 ≤ a.angle ∧ -998 ≤ b.angle ∧
    Agree c.ambig (if c.useOpening then min a.opening b.opening else c.cut) a.angle b.angle := by
  unfold angleCompat Cl.n
  split
  · rename_i h
    constructor
    · intro h'; cases h'
    · rintro ⟨h1, h2, -⟩; omega
  · rename_i h
    split
    · rename_i h2
      constructor
      · intro h'; cases h'
      · rintro ⟨-, -, h3, h4, -⟩
        rcases h2 with h2 | h2 <;> linarith
    · rename_i h2
      push Not at h2
      rw [angles_iff]
      constructor
      · intro h3
        refine ⟨?_, ?_, h2.1, h2.2, h3⟩
        · omega
        · omega
      · rintro ⟨-, -, -, -, h3⟩
        exact h3

/-- **C337 refuted** for angles modulo a full turn: 359 and 1 degree are not compatible with a cut of 30 degrees, with or without the ambiguity. -/
theorem C337_refuted : ∀ am, angleCompat ⟨0, 0, am, false, 30⟩ (mk 3 359 0 0 1 1) (mk 3 1 0 0 1 1) = false := by decide +kernel

/-- **C338.** With the same settings, no two clusters are compatible and incompatible, and two clusters of enough hits, of enough length and with known
angles are one or the other. -/
theorem C338_complement (c : ACfg) (a b : Cl) :
    ¬ (angleCompat c a b = true ∧ angleIncompat c a b = true) ∧
    (c.minHits ≤ a.hits.length → c.minHits ≤ b.hits.length → c.minLength ≤ a.length → c.minLength ≤ b.length →
      -998 ≤ a.angle → -998 ≤ b.angle → angleCompat c a b = !angleIncompat c a b) := by
  constructor
  · rintro ⟨h1, h2⟩
    unfold angleCompat at h1
    unfold angleIncompat at h2
    split at h1
    · cases h1
    · split at h1
      · cases h1
      · split at h2
        · cases h2
        · split at h2
          · cases h2
          · rw [h1] at h2; cases h2
  · intro h1 h2 h3 h4 h5 h6
    unfold angleCompat angleIncompat Cl.n
    rw [if_neg (by omega), if_neg (by rintro (h | h) <;> linarith), if_neg (by omega), if_neg (by rintro (h | h) <;> linarith),
      if_neg (by rintro (h | h) <;> linarith)]
    simp

/-- **C338.** Alignment is compatibility with the fixed cut. -/
theorem C338_align (c : ACfg) (h : c.useOpening = false) (a b : Cl) : angleAlign c a b = angleCompat c a b := by
  unfold angleAlign angleCompat theCut
  rw [h]
  by_cases h1 : a.n < c.minHits ∨ b.n < c.minHits
  · rw [if_pos h1, if_pos ⟨by omega, h1⟩]
  · have h2 : ¬ (c.minHits ≠ 0 ∧ (a.n < c.minHits ∨ b.n < c.minHits)) := fun h => h1 h.2
    simp only [if_neg h1, if_neg h2]
    rfl

example : angleCompat ⟨1, 20, true, false, 30⟩ (mk 3 100 0 0 1 1) (mk 3 (-70) 0 0 1 1) = true ∧
    angleIncompat ⟨1, 20, false, false, 30⟩ (mk 3 100 0 0 1 1) (mk 3 (-70) 0 0 1 1) = true := by decide +kernel

/-! ## C339: tiny with big -/

/-- The number of hits is strictly between. -/
def Between (lo hi : Nat) (c : Cl) : Prop := lo < c.hits.length ∧ c.hits.length < hi

/-- **C339.** When no number of hits counts as small and big, two clusters are merged if and only if one is small, the other is big, and
some corners of their polygons are closer than the cut. -/
theorem C339_criterion_partial (c : TCfg) (h : c.maxSmall ≤ c.minBig + 1) (a b : Cl) : tinyWithBig c a b = true ↔
    (Between c.minSmall c.maxSmall a ∧ Between c.minBig c.maxBig b ∨ Between c.minSmall c.maxSmall b ∧ Between c.minBig c.maxBig a) ∧
    Close c.distCut a.poly b.poly := by
  unfold tinyWithBig Between Cl.n
  dsimp only
  rw [← polysNear_iff]
  have n1 : ¬ ((a.hits.length > c.minSmall ∧ a.hits.length < c.maxSmall) ∧ a.hits.length > c.minBig ∧ a.hits.length < c.maxBig) := by omega
  have n2 : ¬ ((b.hits.length > c.minSmall ∧ b.hits.length < c.maxSmall) ∧ b.hits.length > c.minBig ∧ b.hits.length < c.maxBig) := by omega
  change _ ↔ ((a.hits.length > c.minSmall ∧ a.hits.length < c.maxSmall) ∧ (b.hits.length > c.minBig ∧ b.hits.length < c.maxBig) ∨
    (b.hits.length > c.minSmall ∧ b.hits.length < c.maxSmall) ∧ (a.hits.length > c.minBig ∧ a.hits.length < c.maxBig)) ∧ _
  have key : ∀ (S1 S2 B1 B2 : Prop) [Decidable S1] [Decidable S2] [Decidable B1] [Decidable B2] (z : Bool), ¬ (S1 ∧ B1) → ¬ (S2 ∧ B2) →
      ((if (!decide S1 && !decide S2) = true then false else if (!decide B1 && !decide B2) = true then false
        else if (decide S1 && decide S2) = true then false else if (decide B1 && decide B2) = true then false else z) = true ↔
      (S1 ∧ B2 ∨ S2 ∧ B1) ∧ z = true) := by
    intro S1 S2 B1 B2 _ _ _ _ z m1 m2
    by_cases s1 : S1 <;> by_cases s2 : S2 <;> by_cases b1 : B1 <;> by_cases b2 : B2 <;> simp_all
  exact key _ _ _ _ _ n1 n2

/-- **C339.** No cluster is merged with itself-sized ones: two small clusters, or two big ones, are never merged. -/
theorem C339_same (c : TCfg) (a b : Cl)
    (h : Between c.minSmall c.maxSmall a ∧ Between c.minSmall c.maxSmall b ∨ Between c.minBig c.maxBig a ∧ Between c.minBig c.maxBig b) :
    tinyWithBig c a b = false := by
  unfold tinyWithBig
  unfold Between at h
  unfold Cl.n
  dsimp only
  rcases h with ⟨h1, h2⟩ | ⟨h1, h2⟩
  · simp [h1, h2]
  · simp [h1, h2]

/-- **C339.** With the settings of the constructor no two clusters are ever merged: the cut on the distance is zero. -/
theorem C339_default (a b : Cl) : tinyWithBig .default a b = false := by
  have h := (C339_criterion_partial .default (by decide) a b).not
  rw [Bool.not_eq_true] at h
  apply h.2
  rintro ⟨-, x, _, y, _, hd⟩
  have h1 := sq_nonneg (y.1 - x.1)
  have h2 := sq_nonneg (y.2 - x.2)
  have h3 : (y.1 - x.1) ^ 2 + (y.2 - x.2) ^ 2 < 0 := hd
  linarith

/-- **C339 refuted** in general: if a number of hits counts as small and as big, a cluster of it is merged with a cluster that is neither. -/
theorem C339_refuted : tinyWithBig ⟨2, 100, 0, 10, 4⟩ (mk 5 0 0 0 1 1) (mk 200 0 1 1 2 2) = true ∧
    ¬ (200 < 10 ∨ 200 < 100) := by decide +kernel

/-! ## C340: distance from a segment -/

theorem shortest2_attained (px py sx sy ex ey : ℚ) :
    ∃ t, 0 ≤ t ∧ t ≤ 1 ∧ shortest2 px py sx sy ex ey = d2 px py (sx + t * (ex - sx)) (sy + t * (ey - sy)) := by
  unfold shortest2 d2
  dsimp only
  split
  · exact ⟨0, le_refl _, zero_le_one, by ring⟩
  · split
    · exact ⟨0, le_refl _, zero_le_one, by ring⟩
    · rename_i h0
      split
      · exact ⟨1, zero_le_one, le_refl _, by ring⟩
      · rename_i h1
        exact ⟨_, not_lt.1 h0, not_lt.1 h1, rfl⟩

/-- **C340.** For a segment of squared length at least 0.1, the value is the least squared distance of the point from the points of the
segment. -/
theorem C340_least_partial (px py sx sy ex ey : ℚ) (h : 1 / 10 ≤ d2 ex ey sx sy) :
    IsLeast2 (shortest2 px py sx sy ex ey) px py sx sy ex ey := by
  refine ⟨shortest2_attained px py sx sy ex ey, ?_⟩
  intro u hu0 hu1
  unfold d2 at h
  have hl : (0 : ℚ) < (ex - sx) ^ 2 + (ey - sy) ^ 2 := by linarith
  -- squared distance as a function of the parameter
  have key : ∀ v, d2 px py (sx + v * (ex - sx)) (sy + v * (ey - sy)) =
      ((ex - sx) ^ 2 + (ey - sy) ^ 2) * v ^ 2 - 2 * v * ((px - sx) * (ex - sx) + (py - sy) * (ey - sy)) + (px - sx) ^ 2 + (py - sy) ^ 2 := by
    intro v; unfold d2; ring
  rw [key u]
  unfold shortest2
  dsimp only
  rw [if_neg (not_lt.2 h)]
  generalize hL : (ex - sx) ^ 2 + (ey - sy) ^ 2 = L at *
  generalize hD : (px - sx) * (ex - sx) + (py - sy) * (ey - sy) = D at *
  have hDt : D = D / L * L := by field_simp
  generalize D / L = t at *
  split
  · rename_i ht
    have : 0 ≤ -2 * u * D := by rw [hDt]; nlinarith [mul_nonneg hu0 hl.le]
    nlinarith [mul_nonneg hl.le (sq_nonneg u)]
  · rename_i ht0
    split
    · rename_i ht1
      have e : (px - ex) ^ 2 + (py - ey) ^ 2 = L * 1 ^ 2 - 2 * 1 * D + (px - sx) ^ 2 + (py - sy) ^ 2 := by
        rw [← key 1]; unfold d2; ring
      rw [e]
      have : L * 1 ^ 2 - 2 * 1 * D ≤ L * u ^ 2 - 2 * u * D := by
        rw [hDt]
        have h1 : 0 ≤ (1 - u) * L * (2 * t - 1 - u) :=
          mul_nonneg (mul_nonneg (by linarith) hl.le) (by linarith)
        nlinarith
      linarith
    · rename_i ht1
      have e : (px - (sx + t * (ex - sx))) ^ 2 + (py - (sy + t * (ey - sy))) ^ 2 = L * t ^ 2 - 2 * t * D + (px - sx) ^ 2 + (py - sy) ^ 2 := by
        rw [← key t]; rfl
      rw [e]
      have : L * t ^ 2 - 2 * t * D ≤ L * u ^ 2 - 2 * u * D := by
        rw [hDt]
        nlinarith [mul_nonneg hl.le (sq_nonneg (u - t))]
      linarith

/-- **C340.** In any case the value is the squared distance from some point of the segment, so it is never too small. -/
theorem C340_upper (px py sx sy ex ey : ℚ) :
    ∃ t, 0 ≤ t ∧ t ≤ 1 ∧ shortest2 px py sx sy ex ey = d2 px py (sx + t * (ex - sx)) (sy + t * (ey - sy)) :=
  shortest2_attained px py sx sy ex ey

/-- **C340 refuted** for short segments: the end of the segment can be closer. -/
theorem C340_refuted : ¬ IsLeast2 (shortest2 1 0 0 0 (3/10) 0) 1 0 0 0 (3/10) 0 := by
  rintro ⟨-, h⟩
  have := h 1 zero_le_one (le_refl _)
  revert this
  decide +kernel

example : shortest2 5 3 0 0 10 0 = 9 ∧ (1 : ℚ) / 10 ≤ d2 10 0 0 0 := by decide +kernel

/-! ## C341: centre of charge -/

theorem com_eq (l : List PHit) : com l = ((l.map fun h => h.w * h.charge).sum / (l.map PHit.charge).sum,
    (l.map fun h => h.t * h.charge).sum / (l.map PHit.charge).sum) := by
  have key : ∀ (l : List PHit) (s : ℚ × ℚ × ℚ),
      l.foldl (fun s h => (s.1 + h.w * h.charge, s.2.1 + h.t * h.charge, s.2.2 + h.charge)) s =
        (s.1 + (l.map fun h => h.w * h.charge).sum, s.2.1 + (l.map fun h => h.t * h.charge).sum, s.2.2 + (l.map PHit.charge).sum) := by
    intro l
    induction l with
    | nil => intro s; simp
    | cons a t ih =>
      intro s
      rw [List.foldl_cons, ih]
      simp only [List.map_cons, List.sum_cons]
      refine Prod.ext ?_ (Prod.ext ?_ ?_) <;> dsimp only <;> ring
  unfold com
  rw [key]
  simp

theorem sum_bounds (l : List PHit) (f : PHit → ℚ) (lo hi : ℚ) (hq : ∀ h ∈ l, 0 ≤ h.charge) (hb : ∀ h ∈ l, lo ≤ f h ∧ f h ≤ hi) :
    lo * (l.map PHit.charge).sum ≤ (l.map fun h => f h * h.charge).sum ∧ (l.map fun h => f h * h.charge).sum ≤ hi * (l.map PHit.charge).sum := by
  induction l with
  | nil => simp
  | cons a t ih =>
    obtain ⟨h1, h2⟩ := ih (fun h hh => hq h (List.mem_cons_of_mem _ hh)) (fun h hh => hb h (List.mem_cons_of_mem _ hh))
    have ha := hq a List.mem_cons_self
    have hab := hb a List.mem_cons_self
    simp only [List.map_cons, List.sum_cons]
    constructor
    · nlinarith [mul_le_mul_of_nonneg_right hab.1 ha]
    · nlinarith [mul_le_mul_of_nonneg_right hab.2 ha]

/-- **C341.** The centre of charge of hits of charges not all zero and none negative is in every box that holds the hits, and does not depend on
their order. -/
theorem C341_com (l : List PHit) (hq : ∀ h ∈ l, 0 ≤ h.charge) (hp : 0 < (l.map PHit.charge).sum) :
    (∀ w0 w1 t0 t1, (∀ h ∈ l, w0 ≤ h.w ∧ h.w ≤ w1 ∧ t0 ≤ h.t ∧ h.t ≤ t1) →
      w0 ≤ (com l).1 ∧ (com l).1 ≤ w1 ∧ t0 ≤ (com l).2 ∧ (com l).2 ≤ t1) ∧ ∀ l', l'.Perm l → com l' = com l := by
  constructor
  · intro w0 w1 t0 t1 hb
    rw [com_eq]
    have a := sum_bounds l PHit.w w0 w1 hq fun h hh => ⟨(hb h hh).1, (hb h hh).2.1⟩
    have b := sum_bounds l PHit.t t0 t1 hq fun h hh => (hb h hh).2.2
    exact ⟨(le_div_iff₀ hp).2 a.1, (div_le_iff₀ hp).2 a.2, (le_div_iff₀ hp).2 b.1, (div_le_iff₀ hp).2 b.2⟩
  · intro l' h
    rw [com_eq, com_eq, (h.map (fun h => h.w * h.charge)).sum_eq, (h.map (fun h => h.t * h.charge)).sum_eq, (h.map PHit.charge).sum_eq]

/-- **C341 refuted** with negative charges: the centre of two hits on wires 1 and 2 is on wire 4. -/
theorem C341_refuted : com [⟨1, 0, -2⟩, ⟨2, 0, 3⟩] = (4, 0) := by decide +kernel

example : com [⟨1, 5, 1⟩, ⟨4, 5, 2⟩] = (3, 5) := by decide +kernel

/-! ## C342: charge ratio -/

theorem foldMax_spec (f : Cl → ℚ) (l : List Cl) (m : ℚ) :
    let r := l.foldl (fun m c => if m < f c then f c else m) m
    m ≤ r ∧ (∀ c ∈ l, f c ≤ r) ∧ (r = m ∨ ∃ c ∈ l, r = f c) := by
  induction l generalizing m with
  | nil => simp
  | cons a t ih =>
    simp only [List.foldl_cons]
    obtain ⟨h1, h2, h3⟩ := ih (if m < f a then f a else m)
    try dsimp only at h1 h2 h3 ⊢
    generalize t.foldl (fun m c => if m < f c then f c else m) (if m < f a then f a else m) = r at *
    have hm : m ≤ (if m < f a then f a else m) := by split <;> [exact le_of_lt ‹_›; exact le_refl _]
    have ha : f a ≤ (if m < f a then f a else m) := by split <;> [exact le_refl _; exact not_lt.1 ‹_›]
    refine ⟨hm.trans h1, ?_, ?_⟩
    · intro c hc
      rcases List.mem_cons.1 hc with rfl | hc
      · exact ha.trans h1
      · exact h2 c hc
    · rcases h3 with h3 | ⟨c, hc, h3⟩
      · by_cases h : m < f a
        · rw [if_pos h] at h3; exact Or.inr ⟨a, List.mem_cons_self, h3⟩
        · rw [if_neg h] at h3; exact Or.inl h3
      · exact Or.inr ⟨c, List.mem_cons_of_mem _ hc, h3⟩

theorem foldMax_perm (f : Cl → ℚ) (l l' : List Cl) (h : l'.Perm l) (m : ℚ) :
    l'.foldl (fun m c => if m < f c then f c else m) m = l.foldl (fun m c => if m < f c then f c else m) m := by
  obtain ⟨a1, a2, a3⟩ := foldMax_spec f l m
  obtain ⟨b1, b2, b3⟩ := foldMax_spec f l' m
  try dsimp only at *
  generalize l.foldl (fun m c => if m < f c then f c else m) m = r at *
  generalize l'.foldl (fun m c => if m < f c then f c else m) m = r' at *
  apply le_antisymm
  · rcases b3 with rfl | ⟨c, hc, rfl⟩
    · exact a1
    · exact a2 c (h.subset hc)
  · rcases a3 with rfl | ⟨c, hc, rfl⟩
    · exact b1
    · exact b2 c (h.symm.subset hc)

theorem foldMul_eq (f : Cl → ℚ) (l : List Cl) (r : ℚ) : l.foldl (fun r c => r * f c) r = r * (l.map f).prod := by
  induction l generalizing r with
  | nil => simp
  | cons a t ih => simp [ih]; ring

theorem prod_unit (l : List ℚ) (h : ∀ x ∈ l, 0 ≤ x ∧ x ≤ 1) : 0 ≤ l.prod ∧ l.prod ≤ 1 := by
  induction l with
  | nil => simp
  | cons a t ih =>
    obtain ⟨h1, h2⟩ := ih fun x hx => h x (List.mem_cons_of_mem _ hx)
    have ha := h a List.mem_cons_self
    rw [List.prod_cons]
    exact ⟨mul_nonneg ha.1 h1, mul_le_one₀ ha.2 h1 h2⟩

/-- **C342.** The charge score of other than two clusters with charges none negative and of largest charge `q` (positive) is the product of the
charges over `q` if that is above the cut, and -1 otherwise; in the first case it is at most 1. -/
theorem C342_value (cut : ℚ) (cls : List Cl) (q : ℚ) (h2 : cls.length ≠ 2) (hq : 0 < q) (hn : ∀ c ∈ cls, 0 ≤ c.charge ∧ c.charge ≤ q)
    (hm : ∃ c ∈ cls, c.charge = q) :
    qRatio cut cls = (if cut < (cls.map fun c => c.charge / q).prod then (cls.map fun c => c.charge / q).prod else -1) ∧
    (cls.map fun c => c.charge / q).prod ≤ 1 ∧ 0 ≤ (cls.map fun c => c.charge / q).prod := by
  have hp : 0 ≤ (cls.map fun c => c.charge / q).prod ∧ (cls.map fun c => c.charge / q).prod ≤ 1 := by
    apply prod_unit
    intro x hx
    obtain ⟨c, hc, rfl⟩ := List.mem_map.1 hx
    exact ⟨div_nonneg (hn c hc).1 hq.le, (div_le_one hq).2 (hn c hc).2⟩
  refine ⟨?_, hp.2, hp.1⟩
  unfold qRatio
  rw [if_neg h2, if_neg]
  · have e : cls.foldl (fun m c => if m < c.charge then c.charge else m) (-1) = q := by
      obtain ⟨a1, a2, a3⟩ := foldMax_spec Cl.charge cls (-1)
      try dsimp only at a1 a2 a3
      obtain ⟨c, hc, rfl⟩ := hm
      generalize cls.foldl (fun m c => if m < c.charge then c.charge else m) (-1) = r at *
      rcases a3 with rfl | ⟨d, hd, rfl⟩
      · have := a2 c hc; linarith
      · exact le_antisymm (hn d hd).2 (a2 c hc)
    dsimp only
    rw [e, if_neg hq.ne', foldMul_eq, one_mul]
  · rw [List.any_eq_true]
    rintro ⟨c, hc, h⟩
    simp only [decide_eq_true_eq] at h
    have := (hn c hc).1
    linarith

/-- **C342.** The score does not depend on the order of the clusters; it is -1 for two clusters or if a charge is negative. -/
theorem C342_order (cut : ℚ) (cls cls' : List Cl) (h : cls'.Perm cls) : qRatio cut cls' = qRatio cut cls ∧
    (cls.length = 2 → qRatio cut cls = -1) ∧ ((∃ c ∈ cls, c.charge < 0) → qRatio cut cls = -1) := by
  refine ⟨?_, ?_, ?_⟩
  · unfold qRatio
    have e1 : (cls'.any fun c => decide (c.charge < 0)) = (cls.any fun c => decide (c.charge < 0)) := by
      rw [Bool.eq_iff_iff, List.any_eq_true, List.any_eq_true]
      constructor
      · rintro ⟨c, hc, h'⟩; exact ⟨c, h.subset hc, h'⟩
      · rintro ⟨c, hc, h'⟩; exact ⟨c, h.symm.subset hc, h'⟩
    dsimp only
    rw [h.length_eq, e1, foldMax_perm Cl.charge cls cls' h, foldMul_eq, foldMul_eq, (h.map _).prod_eq]
  · intro h2; unfold qRatio; rw [if_pos h2]
  · rintro ⟨c, hc, hlt⟩
    unfold qRatio
    split
    · rfl
    · rw [if_pos]
      rw [List.any_eq_true]
      exact ⟨c, hc, by simpa using hlt⟩

example : qRatio (1/10) [mk 4 0 0 0 1 1, mk 2 0 0 0 1 1, mk 3 0 0 0 1 1] = 3/8 := by decide +kernel

/-! ## C343: overlap in wires -/

theorem zLen_eq (c : Cl) : zLen c = |zEnd c - zStart c| := by
  unfold zLen
  split
  · rename_i h; rw [abs_of_neg h]; ring
  · rename_i h; rw [abs_of_nonneg (not_lt.1 h)]

theorem zFold_spec (l : List Cl) (s : ℚ × ℚ) :
    let r := l.foldl (fun (s : ℚ × ℚ) c => if s.1 < zLen c then (zLen c, zEnd c) else s) s
    s.1 ≤ r.1 ∧ ∀ c ∈ l, zLen c ≤ r.1 := by
  induction l generalizing s with
  | nil => simp
  | cons a t ih =>
    simp only [List.foldl_cons]
    obtain ⟨h1, h2⟩ := ih (if s.1 < zLen a then (zLen a, zEnd a) else s)
    try dsimp only at h1 h2 ⊢
    generalize t.foldl (fun (s : ℚ × ℚ) c => if s.1 < zLen c then (zLen c, zEnd c) else s) (if s.1 < zLen a then (zLen a, zEnd a) else s) = r at *
    have hm : s.1 ≤ (if s.1 < zLen a then (zLen a, zEnd a) else s).1 := by split <;> [exact le_of_lt ‹_›; exact le_refl _]
    have ha : zLen a ≤ (if s.1 < zLen a then (zLen a, zEnd a) else s).1 := by split <;> [exact le_refl _; exact not_lt.1 ‹_›]
    refine ⟨hm.trans h1, ?_⟩
    intro c hc
    rcases List.mem_cons.1 hc with rfl | hc
    · exact ha.trans h1
    · exact h2 c hc

/-- **C343.** The wire score is -1, or above the cut and from 0 to 1; it is -1 for two clusters. -/
theorem C343_range (cut : ℚ) (cls : List Cl) :
    (zOverlap cut cls = -1 ∨ cut < zOverlap cut cls ∧ 0 ≤ zOverlap cut cls ∧ zOverlap cut cls ≤ 1) ∧
    (cls.length = 2 → zOverlap cut cls = -1) := by
  constructor
  · unfold zOverlap
    split
    · exact Or.inl rfl
    · dsimp only
      split
      · exact Or.inl rfl
      · rename_i hm
        split
        · rename_i hc
          right
          refine ⟨hc, ?_⟩
          rw [foldMul_eq, one_mul]
          apply prod_unit
          intro x hx
          obtain ⟨c, hcm, rfl⟩ := List.mem_map.1 hx
          have h2 := (zFold_spec cls (-1, -1)).2 c hcm
          try dsimp only at h2
          have h3 : 0 ≤ zLen c := by rw [zLen_eq]; exact abs_nonneg _
          split
          · have hpos : 0 < (cls.foldl (fun (s : ℚ × ℚ) c => if s.1 < zLen c then (zLen c, zEnd c) else s) (-1, -1)).1 :=
              lt_of_le_of_ne (h3.trans h2) (Ne.symm hm)
            exact ⟨div_nonneg h3 hpos.le, (div_le_one hpos).2 h2⟩
          · norm_num
        · exact Or.inl rfl
  · intro h; unfold zOverlap; rw [if_pos h]

/-- **C343 refuted** for the order of the clusters: of two clusters of the same length the first decides, and the score changes with the order. -/
theorem C343_refuted : zOverlap 0 [{ mk 1 0 0 0 10 0 with plane := 2 }, { mk 1 0 20 0 30 0 with plane := 2 }, { mk 1 0 0 0 10 0 with plane := 2 }] = 1 / 10 ∧
    zOverlap 0 [{ mk 1 0 20 0 30 0 with plane := 2 }, { mk 1 0 0 0 10 0 with plane := 2 }, { mk 1 0 0 0 10 0 with plane := 2 }] = 1 := by
  decide +kernel

/-- **C343.** If all clusters start no further than each of them ends, the score does not depend on the order, and it is the product of the lengths over
the largest one. -/
theorem C343_overlap_partial (cut L : ℚ) (cls : List Cl) (h2 : cls.length ≠ 2) (hL : 0 < L) (hm : ∃ c ∈ cls, |zEnd c - zStart c| = L)
    (hl : ∀ c ∈ cls, |zEnd c - zStart c| ≤ L) (ho : ∀ c ∈ cls, ∀ d ∈ cls, zStart c ≤ zEnd d) :
    zOverlap cut cls = if cut < (cls.map fun c => |zEnd c - zStart c| / L).prod then (cls.map fun c => |zEnd c - zStart c| / L).prod else -1 := by
  have hend : ∀ (l : List Cl) (s : ℚ × ℚ),
      (l.foldl (fun (s : ℚ × ℚ) c => if s.1 < zLen c then (zLen c, zEnd c) else s) s) = s ∨
      ∃ c ∈ l, (l.foldl (fun (s : ℚ × ℚ) c => if s.1 < zLen c then (zLen c, zEnd c) else s) s) = (zLen c, zEnd c) := by
    intro l
    induction l with
    | nil => intro s; exact Or.inl rfl
    | cons a t ih =>
      intro s
      simp only [List.foldl_cons]
      rcases ih (if s.1 < zLen a then (zLen a, zEnd a) else s) with h | ⟨c, hc, h⟩
      · rw [h]
        split
        · exact Or.inr ⟨a, List.mem_cons_self, rfl⟩
        · exact Or.inl rfl
      · exact Or.inr ⟨c, List.mem_cons_of_mem _ hc, h⟩
  obtain ⟨c0, hc0, e0⟩ := hm
  have hs := (zFold_spec cls (-1, -1)).2
  try dsimp only at hs
  have hr : ∃ d ∈ cls, cls.foldl (fun (s : ℚ × ℚ) c => if s.1 < zLen c then (zLen c, zEnd c) else s) (-1, -1) = (L, zEnd d) := by
    rcases hend cls (-1, -1) with h | ⟨d, hd, h⟩
    · have := hs c0 hc0
      rw [h, zLen_eq, e0] at this
      dsimp only at this
      linarith
    · refine ⟨d, hd, ?_⟩
      have h1 := hs c0 hc0
      rw [h, zLen_eq, e0] at h1
      dsimp only at h1
      have h3 := hl d hd
      rw [← zLen_eq] at h3
      rw [h, le_antisymm h3 h1]
  obtain ⟨d, hd, e⟩ := hr
  unfold zOverlap
  rw [if_neg h2]
  dsimp only
  rw [e]
  dsimp only
  rw [if_neg hL.ne', foldMul_eq, one_mul]
  have em : (cls.map fun c => if zStart c ≤ zEnd d then zLen c / L else 1 / 10) = cls.map fun c => |zEnd c - zStart c| / L := by
    apply List.map_congr_left
    intro c hc
    rw [if_pos (ho c hc d hd), zLen_eq]
  rw [em]

example : zOverlap (1/10) [mk 1 0 0 0 10 0, mk 1 0 2 0 10 0, { mk 1 0 0 0 5 0 with plane := 2 }] = 4 / 5 := by decide +kernel

/-! ## C344: overlap in time -/

theorem twoLargest_spec (l : List Cl) (m : ℚ × ℚ) (h : 0 ≤ m.2 ∧ m.2 ≤ m.1) :
    let r := l.foldl (fun (m : ℚ × ℚ) c => if c.paramHits > m.1 then (c.paramHits, m.1) else if c.paramHits > m.2 then (m.1, c.paramHits) else m) m
    0 ≤ r.2 ∧ r.2 ≤ r.1 := by
  induction l generalizing m with
  | nil => exact h
  | cons a t ih =>
    simp only [List.foldl_cons]
    apply ih
    split
    · rename_i h1; exact ⟨h.1.trans h.2, le_of_lt h1⟩
    · rename_i h1
      split
      · rename_i h2; exact ⟨h.1.trans (le_of_lt h2), not_lt.1 h1⟩
      · exact h

theorem maxTime_spec (l : List Cl) : 0 ≤ maxTime l ∧ ∀ c ∈ l, tEnd c - tStart c ≤ maxTime l := by
  have hd : ∀ c : Cl, (if c.startT - c.endT < 0 then (c.startT - c.endT) * -1 else c.startT - c.endT) = tEnd c - tStart c := by
    intro c
    unfold tEnd tStart
    by_cases h : c.startT > c.endT
    · rw [if_neg (by linarith), if_pos h, if_pos h]
    · rw [if_neg h, if_neg h]
      by_cases h' : c.startT - c.endT < 0
      · rw [if_pos h']; ring
      · rw [if_neg h']; linarith
  have := foldMax_spec (fun c => tEnd c - tStart c) l 0
  unfold maxTime
  dsimp only at this ⊢
  simp only [hd]
  exact ⟨this.1, this.2.1⟩

theorem timeFold_spec (tcut mt : ℚ) (l : List Cl) (s : ℚ × ℚ × ℚ) (hs : 0 ≤ s.1 ∧ s.1 ≤ 1) (hmt : 0 < mt)
    (hl : ∀ c ∈ l, tEnd c - tStart c ≤ mt) : 0 ≤ (l.foldl (timeStep tcut mt) s).1 ∧ (l.foldl (timeStep tcut mt) s).1 ≤ 1 := by
  induction l generalizing s with
  | nil => exact hs
  | cons a t ih =>
    rw [List.foldl_cons]
    apply ih _ ?_ fun c hc => hl c (List.mem_cons_of_mem _ hc)
    have h0 : 0 ≤ tEnd a - tStart a := by
      unfold tEnd tStart
      split <;> linarith
    have h1 : 0 ≤ (tEnd a - tStart a) / mt ∧ (tEnd a - tStart a) / mt ≤ 1 :=
      ⟨div_nonneg h0 hmt.le, (div_le_one hmt).2 (hl a List.mem_cons_self)⟩
    have h2 : 0 ≤ s.1 * ((tEnd a - tStart a) / mt) ∧ s.1 * ((tEnd a - tStart a) / mt) ≤ 1 :=
      ⟨mul_nonneg hs.1 h1.1, mul_le_one₀ hs.2 h1.1 h1.2⟩
    have gen : ∀ (p : Prop) [Decidable p], 0 ≤ s.1 * ((tEnd a - tStart a) / mt) * (if p then 1 else 1 / 1000) ∧
        s.1 * ((tEnd a - tStart a) / mt) * (if p then 1 else 1 / 1000) ≤ 1 := by
      intro p _
      split
      · rw [mul_one]; exact h2
      · constructor
        · exact mul_nonneg h2.1 (by norm_num)
        · exact mul_le_one₀ h2.2 (by norm_num) (by norm_num)
    exact gen _

/-- **C344.** The time score is -1, or above the cut and from 0 to 1; it is -1 for two clusters if three planes are required. -/
theorem C344_range (three : Bool) (tcut cut : ℚ) (cls : List Cl) :
    (timeOverlap three tcut cut cls = -1 ∨ cut < timeOverlap three tcut cut cls ∧ 0 ≤ timeOverlap three tcut cut cls ∧ timeOverlap three tcut cut cls ≤ 1) ∧
    (three = true → cls.length = 2 → timeOverlap three tcut cut cls = -1) := by
  constructor
  · unfold timeOverlap
    split
    · exact Or.inl rfl
    · split
      · split
        · rename_i h; right; exact ⟨h, zero_le_one, le_refl _⟩
        · exact Or.inl rfl
      · dsimp only
        split
        · exact Or.inl rfl
        · rename_i hz
          push Not at hz
          split
          · rename_i hc
            right
            refine ⟨hc, ?_⟩
            have hm := maxTime_spec cls
            have hmt := lt_of_le_of_ne hm.1 (Ne.symm hz.1)
            have ht := twoLargest_spec cls (0, 0) ⟨le_refl _, le_refl _⟩
            change 0 ≤ (twoLargest cls).2 ∧ (twoLargest cls).2 ≤ (twoLargest cls).1 at ht
            have hh := lt_of_le_of_ne (ht.1.trans ht.2) (Ne.symm hz.2)
            have hf := timeFold_spec tcut (maxTime cls) cls (1, 0, 0) ⟨zero_le_one, le_refl _⟩ hmt hm.2
            have hr : 0 ≤ (twoLargest cls).2 / (twoLargest cls).1 ∧ (twoLargest cls).2 / (twoLargest cls).1 ≤ 1 :=
              ⟨div_nonneg ht.1 hh.le, (div_le_one hh).2 ht.2⟩
            exact ⟨mul_nonneg hf.1 hr.1, mul_le_one₀ hf.2 hr.1 hr.2⟩
          · exact Or.inl rfl
  · intro h1 h2
    unfold timeOverlap
    rw [if_pos (by simp [h1, h2])]

/-- **C344 refuted** for the order of the clusters: each cluster is only compared with the one before. -/
theorem C344_refuted : timeOverlap true 10 (1/1000) [mk 5 0 0 1 9 101, { mk 5 0 0 15 9 115 with length := 20 }, mk 5 0 0 8 9 108] = -1 ∧
    timeOverlap true 10 (1/1000) [mk 5 0 0 1 9 101, mk 5 0 0 8 9 108, { mk 5 0 0 15 9 115 with length := 20 }] = 1 := by decide +kernel

/-- **C344 refuted** for a shift in time of all the clusters: a cluster that starts at 0 is taken as no cluster, and the next is not compared with its
start. -/
theorem C344_zero_refuted : timeOverlap false 10 0 [{ mk 5 0 0 0 9 100 with length := 20 }, { mk 5 0 0 50 9 150 with length := 20 }] = 1 ∧
    timeOverlap false 10 0 [{ mk 5 0 0 7 9 107 with length := 20 }, { mk 5 0 0 57 9 157 with length := 20 }] = 1 / 1000 := by decide +kernel

example : timeOverlap true 10 (1/1000) [mk 5 0 0 1 9 101, mk 4 0 0 8 9 58, mk 3 0 0 2 9 115] = (100/113) * (50/113) * (4/5) := by decide +kernel

/-! ## C345: showers -/

theorem foldMin_lt (f : Cl → ℚ) (l : List Cl) (m x : ℚ) :
    l.foldl (fun m c => if f c < m then f c else m) m < x ↔ m < x ∨ ∃ c ∈ l, f c < x := by
  induction l generalizing m with
  | nil => simp
  | cons a t ih =>
    rw [List.foldl_cons, ih]
    constructor
    · rintro (h | ⟨c, hc, h⟩)
      · by_cases h' : f a < m
        · rw [if_pos h'] at h; exact Or.inr ⟨a, List.mem_cons_self, h⟩
        · rw [if_neg h'] at h; exact Or.inl h
      · exact Or.inr ⟨c, List.mem_cons_of_mem _ hc, h⟩
    · rintro (h | ⟨c, hc, h⟩)
      · left
        split
        · exact lt_trans ‹_› h
        · exact h
      · rcases List.mem_cons.1 hc with rfl | hc
        · left
          split
          · exact h
          · exact lt_of_le_of_lt (not_lt.1 ‹_›) h
        · exact Or.inr ⟨c, hc, h⟩

theorem foldMin_perm (f : Cl → ℚ) (l l' : List Cl) (h : l'.Perm l) (m : ℚ) :
    l'.foldl (fun m c => if f c < m then f c else m) m = l.foldl (fun m c => if f c < m then f c else m) m := by
  have key : ∀ x, l'.foldl (fun m c => if f c < m then f c else m) m < x ↔ l.foldl (fun m c => if f c < m then f c else m) m < x := by
    intro x
    rw [foldMin_lt, foldMin_lt]
    constructor
    · rintro (h' | ⟨c, hc, h'⟩)
      · exact Or.inl h'
      · exact Or.inr ⟨c, h.subset hc, h'⟩
    · rintro (h' | ⟨c, hc, h'⟩)
      · exact Or.inl h'
      · exact Or.inr ⟨c, h.symm.subset hc, h'⟩
  apply le_antisymm
  · exact not_lt.1 fun hlt => lt_irrefl _ ((key _).2 hlt)
  · exact not_lt.1 fun hlt => lt_irrefl _ ((key _).1 hlt)

/-- **C345.** The shower score of clusters of opening angles from `lo` to `hi` (of clusters of the list, between -99999 and 99999) is 1 if and only if every
opening angle is at least 0.0007 of the length, every length at most 20 widths, and the mean of `lo` and `hi` times their root mean square is at least 0.01; it is
-1 otherwise. -/
theorem C345_criterion (rms : ℚ → ℚ → ℚ) (cls : List Cl) (lo hi : ℚ) (hlo : ∃ c ∈ cls, c.opening = lo) (hhi : ∃ c ∈ cls, c.opening = hi)
    (hb : ∀ c ∈ cls, lo ≤ c.opening ∧ c.opening ≤ hi) (hr : -99999 ≤ lo ∧ hi ≤ 99999) (hpos : ∀ c ∈ cls, 0 < c.length ∧ 0 < c.width) :
    showerCompat rms cls = if (∀ c ∈ cls, 7 / 10000 * c.length ≤ c.opening ∧ c.length ≤ 20 * c.width) ∧ 1 / 100 ≤ (lo + hi) / 2 * rms lo hi then 1 else -1 := by
  obtain ⟨c0, hc0, rfl⟩ := hlo
  obtain ⟨c1, hc1, rfl⟩ := hhi
  have eM : cls.foldl (fun m c => if c.opening > m then c.opening else m) (-99999) = c1.opening := by
    obtain ⟨a1, a2, a3⟩ := foldMax_spec Cl.opening cls (-99999)
    try dsimp only at a1 a2 a3
    change cls.foldl (fun m c => if m < c.opening then c.opening else m) (-99999) = c1.opening
    generalize cls.foldl (fun m c => if m < c.opening then c.opening else m) (-99999) = r at *
    rcases a3 with rfl | ⟨d, hd, rfl⟩
    · have := a2 c1 hc1; have := (hb c1 hc1).1; linarith
    · exact le_antisymm (hb d hd).2 (a2 c1 hc1)
  have em : cls.foldl (fun m c => if c.opening < m then c.opening else m) 99999 = c0.opening := by
    have key := foldMin_lt Cl.opening cls 99999
    generalize cls.foldl (fun m c => if c.opening < m then c.opening else m) 99999 = r at *
    apply le_antisymm
    · by_contra h
      push Not at h
      have := (key r).2 (Or.inr ⟨c0, hc0, h⟩)
      exact lt_irrefl _ this
    · by_contra h
      push Not at h
      rcases (key c0.opening).1 h with h' | ⟨c, hc, h'⟩
      · have := (hb c0 hc0).2; linarith
      · have := (hb c hc).1; linarith
  have e1 : cls.foldl (fun m c => if c.opening / c.length < m then c.opening / c.length else m) 9999 < 7 / 10000 ↔
      ∃ c ∈ cls, c.opening < 7 / 10000 * c.length := by
    rw [foldMin_lt (fun c => c.opening / c.length)]
    constructor
    · rintro (h | ⟨c, hc, h⟩)
      · norm_num at h
      · exact ⟨c, hc, (div_lt_iff₀ (hpos c hc).1).1 h⟩
    · rintro ⟨c, hc, h⟩
      exact Or.inr ⟨c, hc, (div_lt_iff₀ (hpos c hc).1).2 h⟩
  have e2 : cls.foldl (fun m c => if c.length / c.width > m then c.length / c.width else m) (-9999) > 20 ↔
      ∃ c ∈ cls, 20 * c.width < c.length := by
    obtain ⟨a1, a2, a3⟩ := foldMax_spec (fun c => c.length / c.width) cls (-9999)
    try dsimp only at a1 a2 a3
    change cls.foldl (fun m c => if m < c.length / c.width then c.length / c.width else m) (-9999) > 20 ↔ _
    generalize cls.foldl (fun m c => if m < c.length / c.width then c.length / c.width else m) (-9999) = r at *
    constructor
    · intro h
      rcases a3 with rfl | ⟨d, hd, rfl⟩
      · norm_num at h
      · exact ⟨d, hd, (lt_div_iff₀ (hpos d hd).2).1 h⟩
    · rintro ⟨c, hc, h⟩
      exact lt_of_lt_of_le ((lt_div_iff₀ (hpos c hc).2).2 h) (a2 c hc)
  unfold showerCompat
  dsimp only
  rw [eM, em]
  have key : ∀ (A B C X : Prop) [Decidable A] [Decidable B] [Decidable C] [Decidable X], (X ↔ ¬ A ∧ ¬ B ∧ ¬ C) →
      (if (if B then false else if C then false else if A then false else true) = true then (1 : ℚ) else -1) = if X then 1 else -1 := by
    intro A B C X _ _ _ _ h
    by_cases a : A <;> by_cases b : B <;> by_cases c : C <;> by_cases x : X <;> simp_all
  apply key
  rw [e1, e2, not_lt]
  push Not
  constructor
  · rintro ⟨h1, h2⟩
    exact ⟨fun c hc => (h1 c hc).1, fun c hc => (h1 c hc).2, h2⟩
  · rintro ⟨h1, h2, h3⟩
    exact ⟨fun c hc => ⟨h1 c hc, h2 c hc⟩, h3⟩

/-- **C345.** The shower score does not depend on the order of the clusters. -/
theorem C345_order (rms : ℚ → ℚ → ℚ) (cls cls' : List Cl) (h : cls'.Perm cls) : showerCompat rms cls' = showerCompat rms cls := by
  unfold showerCompat
  dsimp only
  have e1 := foldMax_perm Cl.opening cls cls' h (-99999)
  have e2 := foldMax_perm (fun c => c.length / c.width) cls cls' h (-9999)
  rw [foldMin_perm Cl.opening cls cls' h, foldMin_perm (fun c => c.opening / c.length) cls cls' h]
  change cls'.foldl (fun m c => if c.opening > m then c.opening else m) (-99999) = cls.foldl (fun m c => if c.opening > m then c.opening else m) (-99999) at e1
  change cls'.foldl (fun m c => if c.length / c.width > m then c.length / c.width else m) (-9999) =
    cls.foldl (fun m c => if c.length / c.width > m then c.length / c.width else m) (-9999) at e2
  rw [e1, e2]

example : showerCompat (fun x y => (x + y) / 2) [mk 3 0 0 0 1 1, mk 2 0 0 0 1 1] = 1 ∧ (∃ c ∈ [mk 3 0 0 0 1 1, mk 2 0 0 0 1 1], c.opening = 1) ∧
    showerCompat (fun x y => (x + y) / 2) [mk 3 0 0 0 1 1, { mk 2 0 0 0 1 1 with width := 1 }] = -1 := by decide +kernel

/-! ## C346: priorities -/

/-- **C346.** With cuts that are not negative, a cluster has a priority of at least the cut, the number of hits, the charge or the area, if that is not below the
cut, and -1 otherwise: so it is out if and only if it is below the cut, and a larger one never comes after a smaller one. -/
theorem C346_priority (n : Nat) (cut : ℚ) (hc : 0 ≤ cut) (a b : Cl) :
    (prioHits n a < 0 ↔ a.hits.length < n) ∧ (prioQ cut a < 0 ↔ a.charge < cut) ∧ (prioArea cut a < 0 ↔ a.polyArea < cut) ∧
    (a.hits.length ≤ b.hits.length → prioHits n a ≤ prioHits n b) ∧ (a.charge ≤ b.charge → prioQ cut a ≤ prioQ cut b) ∧
    (a.polyArea ≤ b.polyArea → prioArea cut a ≤ prioArea cut b) ∧
    (n ≤ a.hits.length → prioHits n a = a.hits.length) ∧ (cut ≤ a.charge → prioQ cut a = a.charge) ∧ (cut ≤ a.polyArea → prioArea cut a = a.polyArea) := by
  have gen : ∀ x : ℚ, ((if x < cut then -1 else x) < 0 ↔ x < cut) := by
    intro x
    split
    · simp [*]
    · rename_i h; constructor
      · intro h'; linarith
      · intro h'; exact absurd h' h
  have mono : ∀ x y : ℚ, x ≤ y → (if x < cut then -1 else x) ≤ (if y < cut then -1 else y) := by
    intro x y hxy
    split
    · split
      · exact le_refl _
      · linarith
    · rename_i h
      rw [if_neg (by linarith)]
      exact hxy
  refine ⟨?_, gen _, gen _, ?_, mono _ _, mono _ _, ?_, ?_, ?_⟩
  · unfold prioHits Cl.n
    split
    · simp [*]
    · rename_i h; constructor
      · intro h'
        have : (0 : ℚ) ≤ a.hits.length := Nat.cast_nonneg _
        linarith
      · intro h'; exact absurd h' h
  · intro h
    unfold prioHits Cl.n
    split
    · split
      · exact le_refl _
      · have : (0 : ℚ) ≤ b.hits.length := Nat.cast_nonneg _
        linarith
    · rw [if_neg (by omega)]
      exact_mod_cast h
  · intro h; unfold prioHits Cl.n; rw [if_neg (by omega)]
  · intro h; unfold prioQ; rw [if_neg (not_lt.2 h)]
  · intro h; unfold prioArea; rw [if_neg (not_lt.2 h)]

/-- **C346.** A cluster is left out as a track if and only if its hit density, its wires with several hits or the logarithm of its eigenvalue is below the cut; the
others are put in the order of their numbers of hits. -/
theorem C346_tracks (log : ℚ → ℚ) (d m p : ℚ) (a : Cl) :
    (prioTracks log d m p a < 0 ↔ a.hitDens < d ∨ a.multiHit < m ∨ log (1 - a.ep) < p) ∧
    (0 ≤ prioTracks log d m p a → prioTracks log d m p a = a.hits.length) := by
  unfold prioTracks Cl.n
  split
  · rename_i h
    exact ⟨⟨fun _ => h, fun _ => by norm_num⟩, fun h' => by norm_num at h'⟩
  · rename_i h
    refine ⟨⟨fun h' => ?_, fun h' => absurd h' h⟩, fun _ => rfl⟩
    have : (0 : ℚ) ≤ a.hits.length := Nat.cast_nonneg _
    linarith

/-- **C346 refuted** for a negative cut on the charge: a charge of -1/2 that is above the cut still has a negative priority. -/
theorem C346_refuted : prioQ (-1) { mk 1 0 0 0 1 1 with charge := -1/2 } < 0 ∧ ¬ ((-1/2 : ℚ) < -1) := by decide +kernel

example : prioHits 3 (mk 5 0 0 0 1 1) = 5 ∧ prioHits 6 (mk 5 0 0 0 1 1) = -1 ∧ prioTracks (fun x => x) 1 1 0 (mk 5 0 0 0 1 1) = 5 := by decide +kernel

end Verif.CMAlgos

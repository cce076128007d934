import Verif.PmaUtil.Thm
import Mathlib.Data.List.Perm.Basic

/-! # Projection matching helpers: radius, counts, orders, segments (C373, C374, C375, C376, C377) -/

namespace Verif.PmaUtil

open V3

/-! ### C373 -/

theorem foldl_add (l : List V3) : ∀ a : V3, l.foldl add a = ⟨a.x + (l.map V3.x).sum, a.y + (l.map V3.y).sum, a.z + (l.map V3.z).sum⟩ := by
  induction l with
  | nil => intro a; simp
  | cons b l ih =>
    intro a
    rw [List.foldl_cons, ih]
    simp only [add, List.map_cons, List.sum_cons, V3.mk.injEq]
    refine ⟨?_, ?_, ?_⟩ <;> ring

theorem foldl_max (l : List ℚ) : ∀ a, a ≤ l.foldl max a ∧ (∀ q ∈ l, q ≤ l.foldl max a) ∧ (l.foldl max a = a ∨ l.foldl max a ∈ l) := by
  induction l with
  | nil => intro a; simp
  | cons b l ih =>
    intro a
    obtain ⟨h1, h2, h3⟩ := ih (max a b)
    rw [List.foldl_cons]
    refine ⟨le_trans (le_max_left _ _) h1, ?_, ?_⟩
    · intro q hq
      rcases List.mem_cons.mp hq with rfl | hq
      · exact le_trans (le_max_right _ _) h1
      · exact h2 q hq
    · rcases h3 with h3 | h3
      · rcases max_choice a b with h | h
        · left; rw [h3, h]
        · right; rw [h3, h]; simp
      · right; simp [h3]

theorem largest_spec (l : List ℚ) (h : l ≠ []) : (∀ q ∈ l, q ≤ largest l) ∧ largest l ∈ l := by
  cases l with
  | nil => exact absurd rfl h
  | cons a l =>
    obtain ⟨h1, h2, h3⟩ := foldl_max l a
    refine ⟨fun q hq => ?_, ?_⟩
    · rcases List.mem_cons.mp hq with rfl | hq
      · exact h1
      · exact h2 q hq
    · show l.foldl max a ∈ a :: l
      rcases h3 with h3 | h3
      · rw [h3]; simp
      · simp [h3]

/-- C373: with at least five points, or when the exact radius is asked for, every point is within the radius of the mean of the points and some point is at that distance; otherwise it is 0. -/
theorem C373_radius (l : List V3) (exact : Bool) :
    (l ≠ [] → (exact = true ∨ 5 ≤ l.length) → ∃ c : V3,
      c.x * l.length = (l.map V3.x).sum ∧ c.y * l.length = (l.map V3.y).sum ∧ c.z * l.length = (l.map V3.z).sum ∧
      (∀ p ∈ l, dist2 p c ≤ radius2 l exact) ∧ ∃ p ∈ l, dist2 p c = radius2 l exact) ∧
    (l = [] ∨ (exact = false ∧ l.length < 5) → radius2 l exact = 0) := by
  constructor
  · intro hne hex
    have hn : (l.length : ℚ) ≠ 0 := by
      have : l.length ≠ 0 := by simpa using hne
      exact_mod_cast this
    have hr : radius2 l exact = largest (l.map fun p => dist2 p (mean l)) := by
      unfold radius2
      rw [if_neg hne, if_neg]
      rcases hex with h | h
      · simp [h]
      · simp; omega
    obtain ⟨h1, h2⟩ := largest_spec (l.map fun p => dist2 p (mean l)) (by simpa using hne)
    refine ⟨mean l, ?_, ?_, ?_, ?_, ?_⟩
    · unfold mean; rw [foldl_add]; simp only [smul]; field_simp; ring
    · unfold mean; rw [foldl_add]; simp only [smul]; field_simp; ring
    · unfold mean; rw [foldl_add]; simp only [smul]; field_simp; ring
    · intro p hp; rw [hr]; exact h1 _ (List.mem_map_of_mem hp)
    · rw [hr]
      obtain ⟨p, hp, e⟩ := List.mem_map.mp h2
      exact ⟨p, hp, e⟩
  · rintro (h | ⟨h1, h2⟩)
    · simp [radius2, h]
    · unfold radius2
      by_cases h : l = []
      · rw [if_pos h]
      · rw [if_neg h, if_pos (by simp [h1, h2])]

example : radius2 [⟨0, 0, 0⟩, ⟨2, 0, 0⟩, ⟨4, 0, 0⟩] true = 4 ∧ radius2 [⟨0, 0, 0⟩, ⟨2, 0, 0⟩, ⟨4, 0, 0⟩] false = 0 := by decide +kernel

/-! ### C374 -/

theorem summed_cons (f : Hit → ℚ) (h : Hit) (l : List Hit) (v : Option Nat) :
    summed f (h :: l) v = (if v = none ∨ v = some h.view then f h else 0) + summed f l v := by
  unfold summed
  cases v with
  | none => simp
  | some w =>
    by_cases e : w = h.view
    · simp [e]
    · simp [e]

theorem hitsCount_cons (h : Hit) (l : List Hit) (v : Option Nat) :
    hitsCount (h :: l) v = (if v = none ∨ v = some h.view then 1 else 0) + hitsCount l v := by
  unfold hitsCount
  cases v with
  | none => simp; omega
  | some w =>
    by_cases e : w = h.view
    · simp [e]; omega
    · simp [e]

/-- C374: with an unknown view all hits are counted and summed, with a view those of that view; so the three views together give all, every hit is counted once, the order of the hits does not
matter, and the sums of two lists add up. -/
theorem C374_views (f : Hit → ℚ) (l m : List Hit) :
    ((∀ h ∈ l, h.view < 3) → hitsCount l none = hitsCount l (some 0) + hitsCount l (some 1) + hitsCount l (some 2) ∧
      summed f l none = summed f l (some 0) + summed f l (some 1) + summed f l (some 2)) ∧
    hitsCount l none = l.length ∧
    (∀ v, hitsCount (l ++ m) v = hitsCount l v + hitsCount m v ∧ summed f (l ++ m) v = summed f l v + summed f m v) ∧
    (l.Perm m → ∀ v, hitsCount l v = hitsCount m v ∧ summed f l v = summed f m v) ∧
    (∀ h v, hitsCount [h] (some v) = (if h.view = v then 1 else 0) ∧ summed f [h] (some v) = if h.view = v then f h else 0) := by
  refine ⟨?_, rfl, ?_, ?_, ?_⟩
  · induction l with
    | nil => intro _; simp [hitsCount, summed]
    | cons h l ih =>
      intro hv
      obtain ⟨i1, i2⟩ := ih (fun x hx => hv x (by simp [hx]))
      have h3 := hv h (by simp)
      simp only [summed_cons, hitsCount_cons, i1, i2]
      interval_cases hvw : h.view <;> simp <;> constructor <;> first | omega | ring
  · intro v
    constructor
    · unfold hitsCount; cases v <;> simp
    · unfold summed; cases v <;> simp
  · intro hp v
    constructor
    · unfold hitsCount
      cases v with
      | none => exact hp.length_eq
      | some w => exact hp.countP_eq _
    · unfold summed
      cases v with
      | none => exact (hp.map f).sum_eq
      | some w => exact ((hp.filter _).map f).sum_eq
  · intro h v
    simp only [hitsCount_cons, summed_cons]
    by_cases e : h.view = v
    · simp [e, hitsCount, summed]
    · have : ¬ v = h.view := fun x => e x.symm
      simp [e, this, hitsCount, summed]

/-! ### C375 -/

/-- Specification: a strict weak order, as a sorting function needs it. -/
def StrictWeak {α : Type} (P : α → Prop) (lt : α → α → Bool) : Prop :=
  (∀ a, P a → lt a a = false) ∧ (∀ a b, P a → P b → lt a b = true → lt b a = false) ∧
  (∀ a b c, P a → P b → P c → lt a b = true → lt b c = true → lt a c = true) ∧
  ∀ a b c, P a → P b → P c → lt a b = false → lt b a = false → lt b c = false → lt c b = false → lt a c = false ∧ lt c a = false

theorem strictWeak_key {α : Type} (P : α → Prop) (k : α → ℚ) (lt : α → α → Bool) (h : ∀ a b, P a → P b → lt a b = decide (k a < k b)) : StrictWeak P lt := by
  refine ⟨fun a ha => ?_, fun a b ha hb => ?_, fun a b c ha hb hc => ?_, fun a b c ha hb hc => ?_⟩
  · rw [h a a ha ha]; simp
  · rw [h a b ha hb, h b a hb ha]; simp; exact le_of_lt
  · rw [h a b ha hb, h b c hb hc, h a c ha hc]; simp; exact lt_trans
  · rw [h a b ha hb, h b a hb ha, h b c hb hc, h c b hc hb, h a c ha hc, h c a hc ha]
    simp only [decide_eq_false_iff_not, not_lt]
    intro h1 h2 h3 h4
    exact ⟨le_trans h3 h1, le_trans h2 h4⟩

/-- C375: the orders of hits by their fraction or distance are strict weak orders as long as no pointer is null, and two hits are ordered exactly as their values; so are the orders of
points by the distance from a centre. -/
theorem C375_orders_partial :
    StrictWeak (fun a : Option ℚ => a.isSome = true) ptrLess ∧ (∀ x y, ptrLess (some x) (some y) = true ↔ x < y) ∧
    (∀ c, StrictWeak (fun _ : V3 => True) (centerLess c)) ∧ ∀ c p q, centerLess c p q = true ↔ dist2 p c < dist2 q c := by
  refine ⟨strictWeak_key _ (fun a => a.getD 0) _ ?_, fun x y => by simp [ptrLess], fun c => strictWeak_key _ (fun p => dist2 p c) _ (fun _ _ _ _ => rfl), fun c p q => by simp [centerLess]⟩
  intro a b ha hb
  cases a <;> cases b <;> simp_all [ptrLess]

example : ptrLess (some 1) (some 2) = true ∧ ptrLess (some 2) (some 1) = false := by decide +kernel

/-- C375: with null pointers the order is not a strict weak one: a null pointer is equivalent to every hit. -/
theorem C375_refuted : ¬ StrictWeak (fun _ : Option ℚ => True) ptrLess := by
  intro h
  have := (h.2.2.2 (some 0) none (some 1) trivial trivial trivial rfl rfl rfl rfl).1
  revert this
  decide +kernel

/-- C375: the order of points along a segment never puts any point before another, because both values are those of the first point. -/
theorem C375_segment_refuted :
    (∀ s0 s1 p q, segLess s0 s1 p q = false) ∧
    ¬ ∀ s0 s1 p q, s0 ≠ s1 → segProj p s0 s1 < segProj q s0 s1 → segLess s0 s1 (some p) (some q) = true := by
  have h0 : ∀ s0 s1 p q, segLess s0 s1 p q = false := by
    intro s0 s1 p q
    unfold segLess
    cases p <;> cases q <;> simp
  refine ⟨h0, fun h => ?_⟩
  have := h ⟨0, 0, 0⟩ ⟨1, 0, 0⟩ ⟨0, 0, 0⟩ ⟨1, 0, 0⟩ (by decide +kernel) (by decide +kernel)
  rw [h0] at this
  simp at this

/-! ### C376 -/

/-- Specification: the fraction of the point of the segment nearest to a point. -/
def IsNearest (p p0 p1 : V3) (t : ℚ) : Prop :=
  0 ≤ t ∧ t ≤ 1 ∧ ∀ s, 0 ≤ s → s ≤ 1 → dist2 p (onLine (p0, p1) t) ≤ dist2 p (onLine (p0, p1) s)

theorem dist2_line_t (p p0 p1 : V3) (t : ℚ) :
    dist2 p (onLine (p0, p1) t) = dot (sub p p0) (sub p p0) - 2 * t * dot (sub p p0) (sub p1 p0) + t * t * dot (sub p1 p0) (sub p1 p0) := by
  simp only [dist2, onLine, dot, sub]; ring

theorem v2v1 (p p0 p1 : V3) : dot (sub p p1) (sub p1 p0) = dot (sub p p0) (sub p1 p0) - dot (sub p1 p0) (sub p1 p0) := by
  simp only [dot, sub]; ring

theorem v2v2 (p p0 p1 : V3) : dot (sub p p1) (sub p p1) = dist2 p (onLine (p0, p1) 1) := by
  simp only [dist2, onLine, dot, sub]; ring

theorem v0v0 (p p0 p1 : V3) : dot (sub p p0) (sub p p0) = dist2 p (onLine (p0, p1) 0) := by
  simp only [dist2, onLine, dot, sub]; ring

/-- C376: for a segment that is not too short, the squared distance returned is the squared distance to the nearest point of the segment when that point lies inside, and 1.0001 times it when it
is an end. -/
theorem C376_long (p p0 p1 : V3) (h : 1 / 10 ^ 6 ≤ dist2 p1 p0) :
    ∃ t, IsNearest p p0 p1 t ∧ (0 < t ∧ t < 1 → segDist2 p p0 p1 = dist2 p (onLine (p0, p1) t)) ∧
      (t = 0 ∨ t = 1 → segDist2 p p0 p1 = 10001 / 10000 * dist2 p (onLine (p0, p1) t)) := by
  have hd : dist2 p1 p0 = dot (sub p1 p0) (sub p1 p0) := rfl
  have hn : 0 < dot (sub p1 p0) (sub p1 p0) := by rw [← hd]; exact lt_of_lt_of_le (by norm_num) h
  unfold segDist2
  dsimp only
  rw [if_pos (by rw [← hd]; exact h), v2v1]
  by_cases h1 : dot (sub p p0) (sub p1 p0) ≤ 0
  · refine ⟨0, ⟨le_refl _, by norm_num, fun s h0 h2 => ?_⟩, fun hx => absurd hx.1 (lt_irrefl _), fun _ => ?_⟩
    · rw [dist2_line_t, dist2_line_t]
      nlinarith [mul_nonneg h0 (neg_nonneg.mpr h1), mul_nonneg (mul_nonneg h0 h0) hn.le]
    · have hc : ¬ (dot (sub p p0) (sub p1 p0) > 0 ∧ dot (sub p p0) (sub p1 p0) - dot (sub p1 p0) (sub p1 p0) < 0) := fun hx => by linarith [hx.1]
      rw [if_neg hc, if_pos h1, v0v0 p p0 p1, if_pos]
      have := dot_self_nonneg (sub p (onLine (p0, p1) 0))
      have e : dist2 p (onLine (p0, p1) 0) = dot (sub p (onLine (p0, p1) 0)) (sub p (onLine (p0, p1) 0)) := rfl
      rw [e]; linarith
  · push Not at h1
    by_cases h2 : dot (sub p p0) (sub p1 p0) - dot (sub p1 p0) (sub p1 p0) < 0
    · have hc : dot (sub p p0) (sub p1 p0) > 0 ∧ dot (sub p p0) (sub p1 p0) - dot (sub p1 p0) (sub p1 p0) < 0 := ⟨h1, h2⟩
      rw [if_pos hc]
      have ht0 : 0 < dot (sub p p0) (sub p1 p0) / dot (sub p1 p0) (sub p1 p0) := div_pos h1 hn
      have ht1 : dot (sub p p0) (sub p1 p0) / dot (sub p1 p0) (sub p1 p0) < 1 := by rw [div_lt_one hn]; linarith
      refine ⟨dot (sub p p0) (sub p1 p0) / dot (sub p1 p0) (sub p1 p0), ⟨ht0.le, ht1.le, fun s h0 h3 => ?_⟩, fun _ => ?_, ?_⟩
      · have hne : p0 ≠ p1 := by
          rintro rfl
          simp [dot, sub] at hn
        exact (C371_projection p p0 p1 hne).2.1 s
      · have hv0 : dot (sub p p0) (sub p p0) ≠ 0 := by
          intro hz
          have := dot_self_zero hz
          rw [this] at h1
          simp [dot] at h1
        have e : (1 - (if dot (sub p p0) (sub p p0) * dot (sub p1 p0) (sub p1 p0) ≠ 0 then dot (sub p p0) (sub p1 p0) * dot (sub p p0) (sub p1 p0) / (dot (sub p p0) (sub p p0) * dot (sub p1 p0) (sub p1 p0)) else 0)) * dot (sub p p0) (sub p p0) =
            dist2 p (onLine (p0, p1) (dot (sub p p0) (sub p1 p0) / dot (sub p1 p0) (sub p1 p0))) := by
          rw [if_pos (mul_ne_zero hv0 hn.ne'), dist2_line_t]
          field_simp
          ring
        rw [e, if_pos]
        exact dot_self_nonneg _
      · rintro (h3 | h3)
        · exact absurd h3 ht0.ne'
        · exact absurd h3 ht1.ne
    · have hc : ¬ (dot (sub p p0) (sub p1 p0) > 0 ∧ dot (sub p p0) (sub p1 p0) - dot (sub p1 p0) (sub p1 p0) < 0) := fun hx => h2 hx.2
      rw [if_neg hc]
      push Not at h2
      refine ⟨1, ⟨by norm_num, le_refl _, fun s h0 h3 => ?_⟩, fun hx => absurd hx.2 (lt_irrefl _), fun _ => ?_⟩
      · rw [dist2_line_t, dist2_line_t]
        have e : (1 - s) * (2 * dot (sub p p0) (sub p1 p0) - (1 + s) * dot (sub p1 p0) (sub p1 p0)) ≥ 0 := by
          apply mul_nonneg (by linarith)
          nlinarith
        nlinarith
      · rw [if_neg (not_le.mpr h1), v2v2 p p0 p1, if_pos]
        have := dot_self_nonneg (sub p (onLine (p0, p1) 1))
        have e : dist2 p (onLine (p0, p1) 1) = dot (sub p (onLine (p0, p1) 1)) (sub p (onLine (p0, p1) 1)) := rfl
        rw [e]; linarith

/-- C376: for a short segment the distance is that to its middle; so for every segment the value is not below the squared distance to some point of the segment, and it is never negative. -/
theorem C376_bounds (p p0 p1 : V3) :
    (dist2 p1 p0 < 1 / 10 ^ 6 → segDist2 p p0 p1 = dist2 p (onLine (p0, p1) (1 / 2))) ∧
    (∃ t, 0 ≤ t ∧ t ≤ 1 ∧ dist2 p (onLine (p0, p1) t) ≤ segDist2 p p0 p1) ∧ 0 ≤ segDist2 p p0 p1 := by
  have hs : dist2 p1 p0 < 1 / 10 ^ 6 → segDist2 p p0 p1 = dist2 p (onLine (p0, p1) (1 / 2)) := by
    intro h
    unfold segDist2
    dsimp only
    rw [if_neg (by rw [show dot (sub p1 p0) (sub p1 p0) = dist2 p1 p0 from rfl]; exact not_le.mpr h)]
    simp only [dist2, dot, sub, smul, add, onLine]
    ring
  have hmain : ∃ t, 0 ≤ t ∧ t ≤ 1 ∧ dist2 p (onLine (p0, p1) t) ≤ segDist2 p p0 p1 := by
    by_cases h : dist2 p1 p0 < 1 / 10 ^ 6
    · exact ⟨1 / 2, by norm_num, by norm_num, (hs h).ge⟩
    · push Not at h
      obtain ⟨t, hN, h1, h2⟩ := C376_long p p0 p1 h
      refine ⟨t, hN.1, hN.2.1, ?_⟩
      have hnn : 0 ≤ dist2 p (onLine (p0, p1) t) := dot_self_nonneg _
      rcases hN.1.lt_or_eq with h3 | h3
      · rcases hN.2.1.lt_or_eq with h4 | h4
        · rw [h1 ⟨h3, h4⟩]
        · rw [h2 (Or.inr h4)]; linarith
      · rw [h2 (Or.inl h3.symm)]; linarith
  refine ⟨hs, hmain, ?_⟩
  obtain ⟨t, _, _, h⟩ := hmain
  exact le_trans (dot_self_nonneg _) h

/-- C376: the distance does not depend on the order of the two ends. -/
theorem C376_sym (p p0 p1 : V3) : segDist2 p p0 p1 = segDist2 p p1 p0 := by
  by_cases h : dist2 p1 p0 < 1 / 10 ^ 6
  · have h' : dist2 p0 p1 < 1 / 10 ^ 6 := by
      have : dist2 p0 p1 = dist2 p1 p0 := by simp only [dist2, dot, sub]; ring
      rw [this]; exact h
    rw [(C376_bounds p p0 p1).1 h, (C376_bounds p p1 p0).1 h']
    simp only [dist2, dot, sub, onLine]; ring
  · push Not at h
    have hrev : dist2 p0 p1 = dist2 p1 p0 := by simp only [dist2, dot, sub]; ring
    have hn : 0 < dot (sub p1 p0) (sub p1 p0) := lt_of_lt_of_le (by norm_num) h
    obtain ⟨t, hN, a1, a2⟩ := C376_long p p0 p1 h
    obtain ⟨s, hM, b1, b2⟩ := C376_long p p1 p0 (by rw [hrev]; exact h)
    have flip : ∀ r, onLine (p1, p0) r = onLine (p0, p1) (1 - r) := by
      intro r; simp only [onLine, V3.mk.injEq]; refine ⟨?_, ?_, ?_⟩ <;> ring
    rw [flip] at b1 b2
    -- both fractions are the nearest one, and that is unique
    have e : t = 1 - s := by
      have h1 := hN.2.2 (1 - s) (by linarith [hM.2.1]) (by linarith [hM.1])
      have h2 := hM.2.2 (1 - t) (by linarith [hN.2.1]) (by linarith [hN.1])
      rw [flip, flip, show 1 - (1 - t) = t by ring] at h2
      by_contra hne
      have hmid := hN.2.2 ((t + (1 - s)) / 2) (by linarith [hM.2.1, hN.1]) (by linarith [hM.1, hN.2.1])
      rw [dist2_line_t, dist2_line_t] at h1 h2 hmid
      have hpos : 0 < (t - (1 - s)) * (t - (1 - s)) * dot (sub p1 p0) (sub p1 p0) :=
        mul_pos (mul_self_pos.mpr (sub_ne_zero.mpr hne)) hn
      generalize dot (sub p p0) (sub p1 p0) = v at *
      generalize dot (sub p1 p0) (sub p1 p0) = n at *
      nlinarith
    rcases hN.1.lt_or_eq with h3 | h3
    · rcases hN.2.1.lt_or_eq with h4 | h4
      · rw [a1 ⟨h3, h4⟩, b1 ⟨by linarith, by linarith⟩, e]
      · rw [a2 (Or.inr h4), b2 (Or.inl (by linarith)), e]
    · rw [a2 (Or.inl h3.symm), b2 (Or.inr (by linarith)), e]

example : segDist2 ⟨1, 2, 0⟩ ⟨0, 0, 0⟩ ⟨4, 0, 0⟩ = 4 ∧ segDist2 ⟨-1, 0, 0⟩ ⟨0, 0, 0⟩ ⟨4, 0, 0⟩ = 10001 / 10000 := by decide +kernel

/-- C376: the value is not always the squared distance to the segment, and a point nearest to a segment by its value may be nearer to another segment. -/
theorem C376_refuted :
    (¬ ∀ p p0 p1, 1 / 10 ^ 6 ≤ dist2 p1 p0 → ∃ t, IsNearest p p0 p1 t ∧ segDist2 p p0 p1 = dist2 p (onLine (p0, p1) t)) ∧
    ¬ ∀ p p0 p1 q0 q1 t s, 1 / 10 ^ 6 ≤ dist2 p1 p0 → 1 / 10 ^ 6 ≤ dist2 q1 q0 → IsNearest p p0 p1 t → IsNearest p q0 q1 s →
      dist2 p (onLine (p0, p1) t) < dist2 p (onLine (q0, q1) s) → segDist2 p p0 p1 < segDist2 p q0 q1 := by
  constructor
  · intro h
    obtain ⟨t, ⟨h0, h1, hN⟩, e⟩ := h ⟨-1, 0, 0⟩ ⟨0, 0, 0⟩ ⟨4, 0, 0⟩ (by decide +kernel)
    rw [show segDist2 ⟨-1, 0, 0⟩ ⟨0, 0, 0⟩ ⟨4, 0, 0⟩ = 10001 / 10000 by decide +kernel] at e
    have := hN 0 (le_refl _) (by norm_num)
    rw [← e] at this
    revert this
    decide +kernel
  · intro h
    have := h ⟨-1, 0, 0⟩ ⟨0, 0, 0⟩ ⟨4, 0, 0⟩ ⟨-2, 0, 100001 / 100000⟩ ⟨2, 0, 100001 / 100000⟩ 0 (1 / 4) (by decide +kernel) (by decide +kernel)
      ⟨le_refl _, by norm_num, fun s h0 h1 => by simp only [dist2, dot, sub, onLine]; nlinarith⟩
      ⟨by norm_num, by norm_num, fun s h0 h1 => by simp only [dist2, dot, sub, onLine]; nlinarith [sq_nonneg (s * 4 - 1)]⟩ (by decide +kernel)
    revert this
    decide +kernel

/-! ### C377 -/

/-- C377: when the projection of a segment onto a view is not too short, the point of the segment given for a point of the view is at the fraction of the segment at which the projected segment
is nearest to that point; otherwise it is the middle of the segment. -/
theorem C377_point (P0 P1 q0 q1 p : V3) :
    (1 / 10 ^ 12 < dist2 q1 q0 → ∃ t, IsNearest p q0 q1 t ∧ segPoint P0 P1 q0 q1 p = onLine (P0, P1) t) ∧
    (dist2 q1 q0 ≤ 1 / 10 ^ 12 → segPoint P0 P1 q0 q1 p = onLine (P0, P1) (1 / 2)) := by
  have hd : dist2 q1 q0 = dot (sub q1 q0) (sub q1 q0) := rfl
  constructor
  · intro h
    have hn : 0 < dot (sub q1 q0) (sub q1 q0) := by rw [← hd]; exact lt_trans (by norm_num) h
    have hne : q0 ≠ q1 := by rintro rfl; simp [dot, sub] at hn
    have hl : long q0 q1 = true := by unfold long; rw [← hd]; exact decide_eq_true h
    have hN : ∀ s, dist2 p (onLine (q0, q1) s) = dist2 p (toSegment p q0 q1) + (s - fraction p q0 q1) ^ 2 * dot (sub q1 q0) (sub q1 q0) :=
      fun s => dist2_onLine p q0 q1 hne s
    unfold segPoint
    rw [if_pos hl]
    dsimp only
    generalize fraction p q0 q1 = b at *
    by_cases h1 : b < 1
    · rw [if_pos h1]
      by_cases h2 : b > 0
      · rw [if_pos h2]
        refine ⟨b, ⟨h2.le, h1.le, fun s _ _ => ?_⟩, rfl⟩
        rw [hN, hN]
        nlinarith [mul_nonneg (sq_nonneg (s - b)) hn.le]
      · rw [if_neg h2]
        push Not at h2
        refine ⟨0, ⟨le_refl _, by norm_num, fun s h0 _ => ?_⟩, by simp [onLine]⟩
        rw [hN, hN]
        have : (0 - b) ^ 2 ≤ (s - b) ^ 2 := by nlinarith
        nlinarith [mul_le_mul_of_nonneg_right this hn.le]
    · rw [if_neg h1]
      push Not at h1
      refine ⟨1, ⟨by norm_num, le_refl _, fun s _ h3 => ?_⟩, by simp [onLine]⟩
      rw [hN, hN]
      have : (1 - b) ^ 2 ≤ (s - b) ^ 2 := by nlinarith
      nlinarith [mul_le_mul_of_nonneg_right this hn.le]
  · intro h
    have hl : long q0 q1 = false := by unfold long; rw [← hd]; exact decide_eq_false (not_lt.mpr h)
    unfold segPoint
    rw [hl]
    simp only [Bool.false_eq_true, if_false, smul, add, onLine, V3.mk.injEq]
    refine ⟨?_, ?_, ?_⟩ <;> ring

/-- C377: a hit is given a projection on the projected line, a fraction and a point of the line through the ends; for a projection that is not too short, projection and point are at that fraction
of their lines, and no point of the projected line is nearer to the hit. -/
theorem C377_set_partial (P0 P1 q0 q1 p : V3) (h : 1 / 10 ^ 12 < dist2 q1 q0) :
    (setProj P0 P1 q0 q1 p).1 = onLine (q0, q1) (setProj P0 P1 q0 q1 p).2.1 ∧
    (setProj P0 P1 q0 q1 p).2.2 = onLine (P0, P1) (setProj P0 P1 q0 q1 p).2.1 ∧
    ∀ s, dist2 p (setProj P0 P1 q0 q1 p).1 ≤ dist2 p (onLine (q0, q1) s) := by
  have hd : dist2 q1 q0 = dot (sub q1 q0) (sub q1 q0) := rfl
  have hn : 0 < dot (sub q1 q0) (sub q1 q0) := by rw [← hd]; exact lt_trans (by norm_num) h
  have hne : q0 ≠ q1 := by rintro rfl; simp [dot, sub] at hn
  have hl : long q0 q1 = true := by unfold long; rw [← hd]; exact decide_eq_true h
  unfold setProj
  rw [if_pos hl]
  dsimp only
  refine ⟨rfl, rfl, fun s => ?_⟩
  exact (C371_projection p q0 q1 hne).2.1 s

example : setProj ⟨0, 0, 0⟩ ⟨2, 0, 8⟩ ⟨0, 0, 0⟩ ⟨4, 0, 0⟩ ⟨1, 3, 0⟩ = (⟨1, 0, 0⟩, 1 / 4, ⟨1 / 2, 0, 2⟩) ∧
    segPoint ⟨0, 0, 0⟩ ⟨2, 0, 8⟩ ⟨0, 0, 0⟩ ⟨4, 0, 0⟩ ⟨1, 3, 0⟩ = ⟨1 / 2, 0, 2⟩ := by decide +kernel

/-- C377: with a short projection the hit is put at the middle of the segment but its fraction is 0, as if it were at the start. -/
theorem C377_refuted : ¬ ∀ P0 P1 q0 q1 p : V3, (setProj P0 P1 q0 q1 p).2.2 = onLine (P0, P1) (setProj P0 P1 q0 q1 p).2.1 := by
  intro h
  have := h ⟨0, 0, 0⟩ ⟨0, 0, 4⟩ ⟨1, 0, 0⟩ ⟨1, 0, 0⟩ ⟨1, 1, 0⟩
  revert this
  decide +kernel

end Verif.PmaUtil

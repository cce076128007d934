import Verif.Geometry.HullProps
import Mathlib.Tactic.Positivity
/-!
# C74–C76: nearest edge, extreme points, and the order the points are sorted by
-/
namespace Verif.Hull
open Verif

/-! ### C74 -/

/-- `a → b` is an edge of the vertex list -/
def Edge : List Pt → Pt → Pt → Prop
  | x :: y :: l, a, b => (x = a ∧ y = b) ∨ Edge (y :: l) a b
  | _, _, _ => False

/-- squared distance from `pt` to the point a fraction `t` along the edge -/
def along2 (pt a b : Pt) (t : ℚ) : ℚ := (pt.x - (a.x + t * (b.x - a.x))) ^ 2 + (pt.y - (a.y + t * (b.y - a.y))) ^ 2

/-- the computed distance is the distance to the segment -/
theorem doca_spec (pt a b : Pt) (h : ¬ (a.x = b.x ∧ a.y = b.y)) :
    (∀ t, 0 ≤ t → t ≤ 1 → docaDist2 pt a b ≤ along2 pt a b t) ∧ ∃ t, 0 ≤ t ∧ t ≤ 1 ∧ docaDist2 pt a b = along2 pt a b t := by
  have hL : 0 < (b.x - a.x) * (b.x - a.x) + (b.y - a.y) * (b.y - a.y) := by
    rcases lt_or_eq_of_le (show 0 ≤ (b.x - a.x) * (b.x - a.x) + (b.y - a.y) * (b.y - a.y) from add_nonneg (mul_self_nonneg _) (mul_self_nonneg _)) with h' | h'
    · exact h'
    · exfalso
      have h1 : (b.x - a.x) * (b.x - a.x) = 0 := by nlinarith [mul_self_nonneg (b.x - a.x), mul_self_nonneg (b.y - a.y)]
      have h2 : (b.y - a.y) * (b.y - a.y) = 0 := by nlinarith [mul_self_nonneg (b.x - a.x), mul_self_nonneg (b.y - a.y)]
      exact h ⟨by linarith [mul_self_eq_zero.1 h1], by linarith [mul_self_eq_zero.1 h2]⟩
  unfold docaDist2
  simp only []
  generalize hL' : (b.x - a.x) * (b.x - a.x) + (b.y - a.y) * (b.y - a.y) = L at *
  generalize hP : (pt.x - a.x) * (b.x - a.x) + (pt.y - a.y) * (b.y - a.y) = P at *
  -- everything in terms of `L`, `P`
  have hal : ∀ t, along2 pt a b t = (pt.x - a.x) ^ 2 + (pt.y - a.y) ^ 2 - 2 * t * P + t ^ 2 * L := by
    intro t; rw [← hL', ← hP]; unfold along2; ring
  have hPL : P = (P / L) * L := by field_simp
  generalize P / L = t0 at *
  have key : ∀ s t, along2 pt a b t - along2 pt a b s = L * ((t - s) * (t + s - 2 * t0)) := by
    intro s t; rw [hal, hal, hPL]; ring
  have fin : ∀ s, 0 ≤ s → s ≤ 1 → (∀ t, 0 ≤ t → t ≤ 1 → 0 ≤ (t - s) * (t + s - 2 * t0)) → ∀ D, D = along2 pt a b s →
      (∀ t, 0 ≤ t → t ≤ 1 → D ≤ along2 pt a b t) ∧ ∃ t, 0 ≤ t ∧ t ≤ 1 ∧ D = along2 pt a b t := by
    intro s h0 h1 hh D hD
    refine ⟨fun t ht0 ht1 => ?_, s, h0, h1, hD⟩
    have := mul_nonneg hL.le (hh t ht0 ht1)
    rw [← key] at this; linarith
  by_cases h0 : t0 < 0
  · refine fin 0 (le_refl _) (by norm_num) (fun t ht0 ht1 => ?_) _ ?_
    · nlinarith
    · rw [if_pos h0]; unfold along2; ring
  · by_cases h1 : t0 > 1
    · refine fin 1 (by norm_num) (le_refl _) (fun t ht0 ht1 => ?_) _ ?_
      · nlinarith
      · rw [if_neg h0, if_pos h1]; unfold along2; ring
    · refine fin t0 (by linarith) (by linarith) (fun t ht0 ht1 => ?_) _ ?_
      · nlinarith [mul_self_nonneg (t - t0)]
      · rw [if_neg h0, if_neg h1]; unfold along2; ring

/-- `d` is at least as good as everything better than `o` -/
def atMost (o o' : Option ℚ) : Prop := ∀ c, o = some c → ∃ d, o' = some d ∧ d ≤ c

theorem nearStep_le (pt prev cur : Pt) (s : Near) : atMost s.dist2 (nearStep pt prev cur s).dist2 ∧
    (¬ (prev.x = cur.x ∧ prev.y = cur.y) → ∃ d, (nearStep pt prev cur s).dist2 = some d ∧ d ≤ docaDist2 pt prev cur) ∧
    (nearStep pt prev cur s = s ∨ (¬ (prev.x = cur.x ∧ prev.y = cur.y) ∧ nearStep pt prev cur s = ⟨(prev, cur), some (docaDist2 pt prev cur)⟩)) := by
  unfold nearStep
  by_cases h1 : cur ≠ prev
  · rw [if_pos h1]
    by_cases h2 : prev.x = cur.x ∧ prev.y = cur.y
    · rw [if_pos h2]; exact ⟨fun c hc => ⟨c, hc, le_refl _⟩, fun h => absurd h2 h, Or.inl rfl⟩
    · rw [if_neg h2]
      cases hd : s.dist2 with
      | none =>
        rw [if_pos (by rfl)]
        exact ⟨fun c hc => (by cases hc), fun _ => ⟨_, rfl, le_refl _⟩, Or.inr ⟨h2, rfl⟩⟩
      | some c =>
        by_cases h3 : docaDist2 pt prev cur < c
        · rw [if_pos (by simpa [closer] using h3)]
          exact ⟨fun c' hc => (by cases hc; exact ⟨_, rfl, h3.le⟩), fun _ => ⟨_, rfl, le_refl _⟩, Or.inr ⟨h2, rfl⟩⟩
        · rw [if_neg (by simpa [closer] using h3)]
          exact ⟨fun c' hc => (by cases hc; exact ⟨c, hd, le_refl _⟩), fun _ => ⟨c, hd, by linarith⟩, Or.inl rfl⟩
  · rw [if_neg h1]
    have : cur = prev := by simpa using h1
    subst this
    exact ⟨fun c hc => ⟨c, hc, le_refl _⟩, fun h => absurd ⟨rfl, rfl⟩ h, Or.inl rfl⟩

theorem atMost_trans {a b c : Option ℚ} (h1 : atMost a b) (h2 : atMost b c) : atMost a c := by
  intro x hx
  obtain ⟨y, hy, hle⟩ := h1 x hx
  obtain ⟨z, hz, hle'⟩ := h2 y hy
  exact ⟨z, hz, hle'.trans hle⟩

theorem nearLoop_spec (pt : Pt) : ∀ (rem : List Pt) (prev cur : Pt) (s : Near), atMost s.dist2 (nearLoop pt prev cur rem s).dist2 ∧
    (∀ a b, Edge (prev :: cur :: rem).dropLast a b → ¬ (a.x = b.x ∧ a.y = b.y) → ∃ d, (nearLoop pt prev cur rem s).dist2 = some d ∧ d ≤ docaDist2 pt a b) ∧
    (nearLoop pt prev cur rem s = s ∨ ∃ a b, Edge (prev :: cur :: rem).dropLast a b ∧ ¬ (a.x = b.x ∧ a.y = b.y) ∧
      nearLoop pt prev cur rem s = ⟨(a, b), some (docaDist2 pt a b)⟩) := by
  intro rem
  induction rem with
  | nil => intro prev cur s; exact ⟨fun c hc => ⟨c, hc, le_refl _⟩, fun a b h => absurd h (by simp [Edge]), Or.inl rfl⟩
  | cons x rest ih =>
    intro prev cur s
    obtain ⟨g1, g2, g3⟩ := nearStep_le pt prev cur s
    obtain ⟨i1, i2, i3⟩ := ih cur x (nearStep pt prev cur s)
    have hdl : (prev :: cur :: x :: rest).dropLast = prev :: (cur :: x :: rest).dropLast := rfl
    obtain ⟨tl, htl⟩ : ∃ tl, (cur :: x :: rest).dropLast = cur :: tl := ⟨(x :: rest).dropLast, rfl⟩
    unfold nearLoop
    refine ⟨atMost_trans g1 i1, fun a b he hne => ?_, ?_⟩
    · rw [hdl, htl] at he
      rcases he with ⟨rfl, rfl⟩ | he
      · obtain ⟨d, hd, hle⟩ := g2 hne
        obtain ⟨d', hd', hle'⟩ := i1 d hd
        exact ⟨d', hd', hle'.trans hle⟩
      · rw [← htl] at he; exact i2 a b he hne
    · rcases i3 with h | ⟨a, b, he, hne, h⟩
      · rcases g3 with g | ⟨hne, g⟩
        · left; rw [h, g]
        · right; refine ⟨prev, cur, ?_, hne, by rw [h, g]⟩
          rw [hdl, htl]; exact Or.inl ⟨rfl, rfl⟩
      · right; refine ⟨a, b, ?_, hne, h⟩
        rw [hdl, htl]; right; rw [← htl]; exact he

theorem edge_dup {a b u v : Pt} {l : List Pt} (h : Edge (a :: b :: b :: l) u v) (hne : ¬ (u.x = v.x ∧ u.y = v.y)) : Edge (a :: b :: l) u v := by
  rcases h with ⟨rfl, rfl⟩ | ⟨rfl, rfl⟩ | h
  · exact Or.inl ⟨rfl, rfl⟩
  · exact absurd ⟨rfl, rfl⟩ hne
  · exact Or.inr h

theorem edge_dropLast {u v : Pt} : ∀ {l : List Pt}, Edge l.dropLast u v → Edge l u v := by
  intro l
  induction l with
  | nil => intro h; exact h
  | cons a l ih =>
    intro h
    cases l with
    | nil => simp [Edge] at h
    | cons b l =>
      cases l with
      | nil => simp [Edge] at h
      | cons c l =>
        rcases h with h | h
        · exact Or.inl h
        · exact Or.inr (ih h)

/-- C74, what holds: with at least three vertices the call succeeds; the distance returned is attained on the edge returned, which is an edge
of the hull, and it is at most the distance to every point of every edge *but the last*. Missing: the last edge (false, see
`C74_last_edge_refuted`) and the sign (false, `C74_sign_refuted`). -/
theorem C74_nearest_partial (a b c : Pt) (rest : List Pt) (pt : Pt) : ∃ e d2 neg, findNearestEdge (a :: b :: c :: rest) pt = .ok (e, d2, neg) ∧
    (∀ u v, Edge (a :: b :: c :: rest).dropLast u v → pos u ≠ pos v → ∃ d, d2 = some d ∧ ∀ t, 0 ≤ t → t ≤ 1 → d ≤ along2 pt u v t) ∧
    (∀ d, d2 = some d → Edge (a :: b :: c :: rest) e.1 e.2 ∧ ∃ t, 0 ≤ t ∧ t ≤ 1 ∧ d = along2 pt e.1 e.2 t) ∧
    (neg = true ↔ 0 < cross e.1 e.2 pt) := by
  refine ⟨_, _, _, rfl, ?_, ?_, by simp [isLeft]⟩
  · intro u v he hne
    have hne' : ¬ (u.x = v.x ∧ u.y = v.y) := fun h => hne (by unfold pos; rw [h.1, h.2])
    obtain ⟨-, h, -⟩ := nearLoop_spec pt (b :: c :: rest) a b ⟨(a, b), none⟩
    obtain ⟨d, hd, hle⟩ := h u v (by
      show Edge (a :: b :: b :: (c :: rest).dropLast) u v
      have he' : Edge (a :: b :: (c :: rest).dropLast) u v := he
      rcases he' with h | h
      · exact Or.inl h
      · exact Or.inr (Or.inr h)) hne'
    exact ⟨d, hd, fun t h0 h1 => hle.trans ((doca_spec pt u v hne').1 t h0 h1)⟩
  · intro d hd
    obtain ⟨-, -, h⟩ := nearLoop_spec pt (b :: c :: rest) a b ⟨(a, b), none⟩
    rcases h with h | ⟨u, v, he, hne, h⟩
    · rw [h] at hd; cases hd
    · rw [h] at hd ⊢
      cases hd
      refine ⟨edge_dropLast (edge_dup he hne), ?_⟩
      obtain ⟨t, h0, h1, e⟩ := (doca_spec pt u v hne).2
      exact ⟨t, h0, h1, e⟩

/-- C74 is false: the point (0,2) lies outside the triangle, next to its last edge, but the answer is the bottom edge at distance 2, with the
sign of an interior point -/
theorem C74_last_edge_refuted : ∃ hull, getConvexHull [⟨0, 0, 1⟩, ⟨2, 4, 3⟩, ⟨4, 0, 2⟩] = .ok hull ∧
    findNearestEdge hull ⟨0, 2, 0⟩ = .ok ((⟨0, 0, 1⟩, ⟨4, 0, 2⟩), some 4, true) ∧
    Edge hull ⟨2, 4, 3⟩ ⟨0, 0, 1⟩ ∧ along2 ⟨0, 2, 0⟩ ⟨2, 4, 3⟩ ⟨0, 0, 1⟩ (4 / 5) < 4 ∧ cross ⟨2, 4, 3⟩ ⟨0, 0, 1⟩ ⟨0, 2, 0⟩ < 0 := by
  refine ⟨[⟨0, 0, 1⟩, ⟨4, 0, 2⟩, ⟨2, 4, 3⟩, ⟨0, 0, 1⟩], by decide +kernel, by decide +kernel, by simp [Edge], by unfold along2; norm_num, by decide +kernel⟩

/-- C74 is false also where the distance is right: (5, 1/10) lies outside the triangle, beyond the corner (4,0), but gets the sign of an
interior point -/
theorem C74_sign_refuted : ∃ hull, getConvexHull [⟨0, 0, 1⟩, ⟨2, 4, 3⟩, ⟨4, 0, 2⟩] = .ok hull ∧
    findNearestEdge hull ⟨5, 1 / 10, 0⟩ = .ok ((⟨0, 0, 1⟩, ⟨4, 0, 2⟩), some (101 / 100), true) ∧
    Edge hull ⟨4, 0, 2⟩ ⟨2, 4, 3⟩ ∧ cross ⟨4, 0, 2⟩ ⟨2, 4, 3⟩ ⟨5, 1 / 10, 0⟩ < 0 := by
  refine ⟨[⟨0, 0, 1⟩, ⟨4, 0, 2⟩, ⟨2, 4, 3⟩, ⟨0, 0, 1⟩], by decide +kernel, by decide +kernel, by simp [Edge], by decide +kernel⟩

/-! ### C75 -/

theorem turnaround_mem (f s : Pt) : ∀ (rest : List Pt) (np np' : Pt) (ns' : List Pt), turnaround f s np rest = some (np', ns') →
    (∀ v ∈ np' :: ns', v ∈ np :: rest) ∧ (np' :: ns').length ≤ (np :: rest).length := by
  intro rest
  induction rest with
  | nil => intro np np' ns' h; simp [turnaround] at h
  | cons e rest ih =>
    intro np np' ns' h
    unfold turnaround at h
    by_cases hd : dot f s np e < 0
    · rw [if_pos hd] at h
      simp only [Option.some.injEq, Prod.mk.injEq] at h
      obtain ⟨rfl, rfl⟩ := h
      exact ⟨fun v hv => hv, le_refl _⟩
    · rw [if_neg hd] at h
      obtain ⟨h1, h2⟩ := ih e np' ns' h
      exact ⟨fun v hv => List.mem_cons_of_mem _ (h1 v hv), by simp at h2 ⊢; omega⟩

theorem dot_add (f s a b c : Pt) : dot f s a c = dot f s a b + dot f s b c := by unfold dot; ring

theorem turnaround_dot (f s : Pt) : ∀ (rest : List Pt) (np : Pt), match turnaround f s np rest with
    | none => ∀ z, (np :: rest).getLast? = some z → 0 ≤ dot f s np z
    | some (np', _) => 0 ≤ dot f s np np' := by
  intro rest
  induction rest with
  | nil =>
    intro np
    intro z hz
    simp only [List.getLast?_singleton, Option.some.injEq] at hz
    subst hz; unfold dot; simp
  | cons e rest ih =>
    intro np
    unfold turnaround
    by_cases hd : dot f s np e < 0
    · rw [if_pos hd]; show 0 ≤ dot f s np np; unfold dot; simp
    · rw [if_neg hd]
      have := ih e
      cases h : turnaround f s e rest with
      | none =>
        rw [h] at this
        intro z hz
        rw [List.getLast?_cons_cons] at hz
        have := this z hz
        rw [dot_add f s np e z]; linarith
      | some r =>
        obtain ⟨np', ns'⟩ := r
        rw [h] at this
        show 0 ≤ dot f s np np'
        rw [dot_add f s np e np']
        have : 0 ≤ dot f s e np' := this
        linarith

/-- the state of the search holds two vertices at positive distance -/
def Found (hull : List Pt) (s : Ext) : Prop := s.pair.1 ∈ hull ∧ s.pair.2 ∈ hull ∧ s.max2 = sep2 s.pair.1 s.pair.2 ∧ 0 < s.max2

theorem extLoop_total (hull : List Pt) : ∀ (F N : List Pt) (s : Ext), N.length < F.length → (∀ v ∈ F, v ∈ hull) → (∀ v ∈ N, v ∈ hull) → 0 ≤ s.max2 →
    ∃ s', extLoop F N s = .ok s' ∧ (Found hull s → Found hull s') ∧ s.max2 ≤ s'.max2 := by
  intro F
  induction F with
  | nil => intro N s h; simp at h
  | cons fp F ih =>
    intro N s hlen hF hN hs
    cases N with
    | nil => exact ⟨s, by unfold extLoop; rfl, fun h => h, le_refl _⟩
    | cons np ns =>
      cases F with
      | nil => simp at hlen
      | cons f2 fs =>
        cases ht : turnaround fp f2 np ns with
        | none => exact ⟨s, by unfold extLoop; rw [ht], fun h => h, le_refl _⟩
        | some r =>
          obtain ⟨np', ns'⟩ := r
          obtain ⟨m1, m2⟩ := turnaround_mem fp f2 ns np np' ns' ht
          have hN' : ∀ v ∈ (if (f2 :: fs).length = (np' :: ns').length then ns' else np' :: ns'), v ∈ hull := by
            intro v hv
            by_cases he : (f2 :: fs).length = (np' :: ns').length
            · rw [if_pos he] at hv; exact hN v (m1 v (List.mem_cons_of_mem _ hv))
            · rw [if_neg he] at hv; exact hN v (m1 v hv)
          have hl' : (if (f2 :: fs).length = (np' :: ns').length then ns' else np' :: ns').length < (f2 :: fs).length := by
            by_cases he : (f2 :: fs).length = (np' :: ns').length
            · rw [if_pos he, he]; simp
            · rw [if_neg he]
              simp only [List.length_cons] at *
              omega
          have hmono : s.max2 ≤ (extUpdate fp np' s).max2 := by
            unfold extUpdate
            by_cases hg : sep2 fp np' > s.max2
            · rw [if_pos hg]; exact hg.le
            · rw [if_neg hg]
          obtain ⟨s', e, h1, h2⟩ := ih _ (extUpdate fp np' s) hl' (fun v hv => hF v (List.mem_cons_of_mem _ hv)) hN' (hs.trans hmono)
          refine ⟨s', by unfold extLoop; rw [ht]; exact e, fun hf => h1 ?_, hmono.trans h2⟩
          unfold extUpdate
          by_cases hg : sep2 fp np' > s.max2
          · rw [if_pos hg]
            exact ⟨hF fp (by simp), hN np' (m1 np' (by simp)), rfl, lt_of_le_of_lt hs hg⟩
          · rw [if_neg hg]; exact hf

/-- the first two vertices of half a hull differ -/
theorem half_first {p0 far : Pt} {pts : List Pt} (hs : pts.Pairwise lexle) (hmin : ∀ r ∈ pts, lexle p0 r)
    (r : Pt) (hr : r ∈ pts) (hne : ¬ (r.x = p0.x ∧ r.y = p0.y)) (hcons : isLeft p0 far r = false) : ∃ b t, half p0 far pts = p0 :: b :: t ∧ pos b ≠ pos p0 := by
  have hinv := inv_fold p0 far pts [] [p0] (Or.inl ⟨by simp, Or.inl ⟨rfl, rfl⟩⟩) (by simp) hmin (by simp) hs
  rw [List.append_nil] at hinv
  have hrS : r ∈ (pts.filter (fun c => !isLeft p0 far c)).reverse := by
    rw [List.mem_reverse, List.mem_filter]; exact ⟨hr, by simp [hcons]⟩
  unfold half
  generalize (pts.filter (fun c => !isLeft p0 far c)).reverse = S at *
  generalize pts.foldl (halfStep p0 far) [p0] = st at *
  rcases hinv with ⟨hall, -⟩ | ⟨q, a, rest, -, rfl, hsc, -⟩
  · exact absurd (hall r hrS) hne
  · clear hrS
    suffices H : ∀ rest q a, SC S p0 (q :: a :: rest) → ∃ b t, (q :: a :: rest).reverse = p0 :: b :: t ∧ lexlt p0 b by
      obtain ⟨b, t, e, h⟩ := H rest q a hsc
      refine ⟨b, t, e, fun h' => ?_⟩
      unfold pos at h'
      simp only [Prod.mk.injEq] at h'
      rcases h with h | ⟨-, h⟩ <;> linarith
    intro rest
    induction rest with
    | nil =>
      intro q a h
      obtain ⟨h1, -, -, h4⟩ := h
      have : a = p0 := h4
      subst this
      exact ⟨q, [], rfl, h1⟩
    | cons a' rest ih =>
      intro q a h
      obtain ⟨b, t, e, hlt⟩ := ih a a' h.2.2.2
      refine ⟨b, t ++ [q], ?_, hlt⟩
      rw [List.reverse_cons, e]; rfl

theorem lastSameX_mem (p : Pt) (rest : List Pt) : lastSameX ((p :: rest).getLastD p) (p :: rest).reverse ∈ p :: rest := by
  have hm : ∀ (q : Pt) (l : List Pt), lastSameX q l ∈ q :: l := by
    intro q l
    unfold lastSameX
    rw [List.getLastD_eq_getLast?]
    cases h : (l.takeWhile (fun e => decide (e.x = q.x))).getLast? with
    | none => simp
    | some v =>
      exact List.mem_cons_of_mem _ ((List.takeWhile_prefix _).subset (List.mem_of_getLast? h))
  have hl : (p :: rest).getLastD p ∈ p :: rest := by
    rw [List.getLastD_eq_getLast?, List.getLast?_eq_some_getLast (by simp)]
    exact List.getLast_mem _
  rcases List.mem_cons.1 (hm ((p :: rest).getLastD p) (p :: rest).reverse) with h | h
  · rw [h]; exact hl
  · exact List.mem_reverse.1 h

theorem sep2_pos {a b : Pt} (h : pos a ≠ pos b) : 0 < sep2 a b := by
  unfold sep2
  by_contra hn
  have h1 := mul_self_nonneg (b.x - a.x)
  have h2 := mul_self_nonneg (b.y - a.y)
  have e1 : b.x - a.x = 0 := mul_self_eq_zero.1 (by linarith)
  have e2 : b.y - a.y = 0 := mul_self_eq_zero.1 (by linarith)
  exact h (by unfold pos; rw [show a.x = b.x by linarith, show a.y = b.y by linarith])

/-- C75, what holds: for every sorted point list with at least two different positions, the call on its hull returns two hull vertices at
different positions. Missing: that no two vertices are further apart (false, see `C75_refuted`). -/
theorem C75_extreme_partial (pts : List Pt) (hs : pts.Pairwise lexle) (p q : Pt) (hp : p ∈ pts) (hq : q ∈ pts) (hne : pos p ≠ pos q) :
    ∃ hull, getConvexHull pts = .ok hull ∧ ∃ a ∈ hull, ∃ b ∈ hull, getExtremePoints hull = .ok (a, b) ∧ pos a ≠ pos b := by
  have hnil : pts ≠ [] := by rintro rfl; simp at hp
  obtain ⟨lower, up, hull, tail, pmin, hpmin, pmax, hpmax, he, hh, hmin, hmax, hsub, hch, hhead, ⟨z, hz, hzx, hzy⟩, -⟩ := hull_facts pts hs hnil
  refine ⟨hull, he, ?_⟩
  -- the first two vertices differ
  obtain ⟨v2, t, hv, hv2⟩ : ∃ v2 t, hull = pmin :: v2 :: t ∧ pos v2 ≠ pos pmin := by
    obtain ⟨p1, rest, rfl⟩ := List.exists_cons_of_ne_nil hnil
    have hd : ∃ far ∈ p1 :: rest, ∃ X, getConvexHull (p1 :: rest) = .ok (half p1 far (p1 :: rest) ++ X) :=
      ⟨lastSameX ((p1 :: rest).getLastD p1) (p1 :: rest).reverse, lastSameX_mem p1 rest, _, by
      show Res.ok (half p1 _ (p1 :: rest) ++ _ ++ _) = _
      rw [List.append_assoc]⟩
    obtain ⟨far, hfar, X, hd⟩ := hd
    rw [hd] at he
    cases he
    have hmin1 : ∀ r ∈ p1 :: rest, lexle p1 r := by
      intro r hr
      rcases List.mem_cons.1 hr with rfl | hr
      · exact lexle_refl _
      · exact (List.pairwise_cons.1 hs).1 r hr
    -- a considered point that differs from the first
    have hr : ∃ r ∈ p1 :: rest, ¬ (r.x = p1.x ∧ r.y = p1.y) ∧ isLeft p1 far r = false := by
      by_cases hf : far.x = p1.x ∧ far.y = p1.y
      · have hz : ∀ r, isLeft p1 far r = false := by
          intro r; unfold isLeft cross; rw [hf.1, hf.2]; simp
        by_cases hpp : p.x = p1.x ∧ p.y = p1.y
        · refine ⟨q, hq, fun h => hne ?_, hz q⟩
          unfold pos; rw [hpp.1, hpp.2, h.1, h.2]
        · exact ⟨p, hp, hpp, hz p⟩
      · have : cross p1 far far = 0 := by unfold cross; ring
        exact ⟨far, hfar, hf, by simp [isLeft, this]⟩
    obtain ⟨r, hr, hrne, hrl⟩ := hr
    obtain ⟨b, t, e, hb⟩ := half_first hs hmin1 r hr hrne hrl
    rw [e] at hhead ⊢
    simp only [List.cons_append, List.head?_cons, Option.some.injEq] at hhead
    subst hhead
    exact ⟨b, t ++ X, rfl, hb⟩
  clear hh he
  subst hv
  -- first round
  have hL : 0 < sep2 pmin v2 := sep2_pos hv2.symm
  have hdd : dot pmin v2 v2 pmin = - sep2 pmin v2 := by unfold dot sep2; ring
  have hturn := turnaround_dot pmin v2 t v2
  cases ht : turnaround pmin v2 v2 t with
  | none =>
    rw [ht] at hturn
    have h1 : 0 ≤ dot pmin v2 v2 z := hturn z (by rw [List.getLast?_cons_cons] at hz; exact hz)
    have h2 : dot pmin v2 v2 z = dot pmin v2 v2 pmin := by unfold dot; rw [hzx, hzy]
    linarith
  | some r =>
    obtain ⟨np', ns'⟩ := r
    rw [ht] at hturn
    have hturn : 0 ≤ dot pmin v2 v2 np' := hturn
    obtain ⟨m1, m2⟩ := turnaround_mem pmin v2 t v2 np' ns' ht
    have hsep : 0 < sep2 pmin np' := by
      have h1 : dot pmin v2 pmin np' = sep2 pmin v2 + dot pmin v2 v2 np' := by
        rw [dot_add pmin v2 pmin v2 np']; unfold dot sep2; ring
      refine sep2_pos (fun h => ?_)
      have : dot pmin v2 pmin np' = 0 := by
        unfold pos at h
        simp only [Prod.mk.injEq] at h
        unfold dot; rw [← h.1, ← h.2]; ring
      linarith
    have hf : Found (pmin :: v2 :: t) (extUpdate pmin np' ⟨(⟨0, 0, 0⟩, ⟨0, 0, 0⟩), 0⟩) := by
      unfold extUpdate
      rw [if_pos hsep]
      exact ⟨by simp, List.mem_cons_of_mem _ (m1 np' (by simp)), rfl, hsep⟩
    obtain ⟨s', e, h1, -⟩ := extLoop_total (pmin :: v2 :: t) (v2 :: t) (if (v2 :: t).length = (np' :: ns').length then ns' else np' :: ns')
      (extUpdate pmin np' ⟨(⟨0, 0, 0⟩, ⟨0, 0, 0⟩), 0⟩) (by
        by_cases he : (v2 :: t).length = (np' :: ns').length
        · rw [if_pos he, he]; simp
        · rw [if_neg he]; omega) (fun v hv => List.mem_cons_of_mem _ hv) (by
        intro v hv
        by_cases he : (v2 :: t).length = (np' :: ns').length
        · rw [if_pos he] at hv; exact List.mem_cons_of_mem _ (m1 v (List.mem_cons_of_mem _ hv))
        · rw [if_neg he] at hv; exact List.mem_cons_of_mem _ (m1 v hv)) hf.2.2.2.le
    obtain ⟨f1, f2, f3, f4⟩ := h1 hf
    refine ⟨s'.pair.1, f1, s'.pair.2, f2, ?_, fun h => ?_⟩
    · unfold getExtremePoints
      have : extLoop (pmin :: v2 :: t) (v2 :: t) ⟨(⟨0, 0, 0⟩, ⟨0, 0, 0⟩), 0⟩ = .ok s' := by
        unfold extLoop; rw [ht]; exact e
      simp only [this, Res.bind_ok, Res.pure_eq]
    · rw [f3] at f4
      unfold pos at h
      simp only [Prod.mk.injEq] at h
      unfold sep2 at f4
      rw [h.1, h.2] at f4
      simp at f4

/-- C75: hypotheses met, answer by running the model -/
example : [(⟨0, 0, 1⟩ : Pt), ⟨1, 5, 2⟩, ⟨9, 1, 3⟩].Pairwise lexle ∧
    (do let h ← getConvexHull [⟨0, 0, 1⟩, ⟨1, 5, 2⟩, ⟨9, 1, 3⟩]; getExtremePoints h) = .ok (⟨0, 0, 1⟩, ⟨9, 1, 3⟩) := by
  refine ⟨?_, by decide +kernel⟩
  simp only [List.pairwise_cons, List.mem_cons, List.not_mem_nil, or_false, forall_eq_or_imp, forall_eq, lexle]
  norm_num

/-- C75 is false: in the triangle (0,1), (2,0), (3,4) the answer is the pair (2,0), (3,4), but (0,1) and (3,4) are further apart -/
theorem C75_refuted : ∃ hull, getConvexHull [⟨0, 1, 1⟩, ⟨2, 0, 2⟩, ⟨3, 4, 3⟩] = .ok hull ∧
    getExtremePoints hull = .ok (⟨2, 0, 2⟩, ⟨3, 4, 3⟩) ∧ (⟨0, 1, 1⟩ : Pt) ∈ hull ∧ sep2 ⟨2, 0, 2⟩ ⟨3, 4, 3⟩ < sep2 ⟨0, 1, 1⟩ ⟨3, 4, 3⟩ :=
  ⟨[⟨0, 1, 1⟩, ⟨2, 0, 2⟩, ⟨3, 4, 3⟩, ⟨0, 1, 1⟩], by decide +kernel, by decide +kernel, by decide +kernel, by decide +kernel⟩

/-- C75: a hull with a single position yields the origin and null hits instead of hull points -/
theorem C75_single_refuted : ∃ hull, getConvexHull [⟨5, 7, 1⟩] = .ok hull ∧ getExtremePoints hull = .ok (⟨0, 0, 0⟩, ⟨0, 0, 0⟩) ∧
    (⟨0, 0, 0⟩ : Pt) ∉ hull :=
  ⟨[⟨5, 7, 1⟩, ⟨5, 7, 1⟩, ⟨5, 7, 1⟩], by decide +kernel, by decide +kernel, by decide +kernel⟩

/-! ### C76 -/

/-- C76, what holds: on points whose x coordinates are equal or further apart than `eps`, the order is the lexicographic order, so sorting by it
gives what `C54_encloses` needs. Missing: closer points (false, see `C76_cycle_refuted`, `C76_hull_refuted`). -/
theorem C76_order_partial (eps : ℚ) (he : 0 ≤ eps) (a b : Pt) (h : a.x = b.x ∨ eps < |a.x - b.x|) : less eps a b = true ↔ ¬ lexle b a := by
  unfold less lexle
  rcases h with h | h
  · have : ¬ |a.x - b.x| > eps := by rw [h]; simpa using he
    rw [if_neg this]
    simp only [decide_eq_true_eq]
    constructor
    · rintro hy (hx | ⟨-, hy'⟩) <;> linarith
    · intro hn
      by_contra hy
      exact hn (Or.inr ⟨h.symm, by linarith⟩)
  · rw [if_pos h]
    simp only [decide_eq_true_eq]
    have hne : a.x ≠ b.x := by
      intro hx; rw [hx] at h; simp at h; linarith
    constructor
    · rintro hx (hx' | ⟨hx', -⟩) <;> linarith
    · intro hn
      rcases lt_trichotomy a.x b.x with h1 | h1 | h1
      · exact h1
      · exact absurd h1 hne
      · exact absurd (Or.inl h1) hn

example : ((⟨0, 3, 1⟩ : Pt).x = (⟨1, 2, 2⟩ : Pt).x ∨ (1 / 2 ^ 23 : ℚ) < |(⟨0, 3, 1⟩ : Pt).x - (⟨1, 2, 2⟩ : Pt).x|) := by right; norm_num [abs_of_neg]

/-- C76 is false: for every positive `eps` the order has a cycle, so it is not an order and sorting by it is undefined -/
theorem C76_cycle_refuted (eps : ℚ) (he : 0 < eps) : ∃ a b c, less eps a b = true ∧ less eps b c = true ∧ less eps c a = true := by
  refine ⟨⟨2 * eps, 0, 1⟩, ⟨eps, 1, 2⟩, ⟨0, 2, 3⟩, ?_, ?_, ?_⟩
  · unfold less
    rw [if_neg (by simp only []; rw [show 2 * eps - eps = eps by ring, abs_of_pos he]; simp)]; simp
  · unfold less
    rw [if_neg (by simp only []; rw [sub_zero, abs_of_pos he]; simp)]; simp
  · unfold less
    rw [if_pos (by simp only []; rw [zero_sub, abs_neg, abs_of_pos (by linarith)]; linarith)]; simp only [decide_eq_true_eq]; linarith

/-- C76: four points in an order in which none precedes an earlier one for `less` with the `epsilon` of `float`, for which the hull leaves one
point outside -/
theorem C76_hull_refuted : ∃ pts hull a b r, (pts.Pairwise (fun a b => less (1 / 2 ^ 23) b a = false)) ∧ getConvexHull pts = .ok hull ∧
    Edge hull a b ∧ r ∈ pts ∧ cross a b r < 0 := by
  refine ⟨[⟨0, 0, 1⟩, ⟨2 / 2 ^ 23, 3, 2⟩, ⟨1 / 2 ^ 23, 3, 3⟩, ⟨4 / 2 ^ 23, 0, 4⟩], [⟨0, 0, 1⟩, ⟨4 / 2 ^ 23, 0, 4⟩, ⟨2 / 2 ^ 23, 3, 2⟩, ⟨0, 0, 1⟩],
    ⟨2 / 2 ^ 23, 3, 2⟩, ⟨0, 0, 1⟩, ⟨1 / 2 ^ 23, 3, 3⟩, by decide +kernel, by decide +kernel, by simp [Edge], by decide +kernel, by decide +kernel⟩

end Verif.Hull

import Verif.VtxAdd.Model
import Mathlib.Data.List.Induction
import Mathlib.Tactic.Linarith
import Mathlib.Tactic.NormNum
import Mathlib.Tactic.Positivity
import Mathlib.Tactic.FieldSimp

/-!
# Properties C476-C481
-/

namespace Verif.VtxAdd

/-- Specification: segment `n` of track `t` has at least the minimal length, and its length is `l`. -/
def LongSeg (e : Env) (t n : ℕ) (l : ℚ) : Prop := (e.segs t)[n]? = some l ∧ e.smin ≤ l

theorem mem_longs (e : Env) (t : ℕ) (x : ℚ × ℕ) : x ∈ longs e t ↔ LongSeg e t x.2 x.1 := by
  unfold longs LongSeg
  rw [List.mem_filter, List.mem_zipIdx_iff_getElem?]
  simp

/-- **C476**: a first track is accepted exactly if one of its segments has at least the minimal length; then it is
the only track. -/
theorem C476_first (e : Env) (t : ℕ) :
    ((add e {} t).1 = true ↔ ∃ n l, LongSeg e t n l) ∧
    (add e {} t).2.tr = (if (add e {} t).1 then [(t, 0)] else []) ∧ (add e {} t).2.mse = 0 := by
  have h1 : (e.segs t).any (fun s => decide (s ≥ e.smin)) = true ↔ ∃ n l, LongSeg e t n l := by
    rw [List.any_eq_true]
    constructor
    · rintro ⟨l, hl, h⟩
      obtain ⟨n, hn⟩ := List.mem_iff_getElem?.1 hl
      exact ⟨n, l, hn, by simpa using h⟩
    · rintro ⟨n, l, hn, h⟩
      exact ⟨l, List.mem_of_getElem? hn, by simpa using h⟩
  have h2 : add e {} t = add1 e {} t := by simp [add]
  rw [h2, ← h1]
  unfold add1
  by_cases h : (e.segs t).any (fun s => decide (s ≥ e.smin)) = true
  · rw [if_pos h]; simp [h]
  · rw [if_neg h]; simp [h]

/-! ### A third track -/

/-- Specification: with the segment `n` of the track, the error of the fit is less than 16 and the centre less than
4 away. -/
def Good3 (e : Env) (tr : List (ℕ × ℕ)) (t n : ℕ) : Prop :=
  (∃ l, LongSeg e t n l) ∧ e.mse (tr ++ [(t, n)]) < 16 ∧ e.dist (tr ++ [(t, n)]) < 4

theorem fold3 (e : Env) (tr : List (ℕ × ℕ)) (t : ℕ) (xs : List (ℚ × ℕ)) :
    (xs.foldl (step3 e tr t) (16, 4, 0) = (16, 4, 0) ∨
      ∃ x ∈ xs, e.mse (tr ++ [(t, x.2)]) < 16 ∧ e.dist (tr ++ [(t, x.2)]) < 4 ∧
        xs.foldl (step3 e tr t) (16, 4, 0) = (e.mse (tr ++ [(t, x.2)]), e.dist (tr ++ [(t, x.2)]), x.2)) ∧
    (xs.foldl (step3 e tr t) (16, 4, 0)).1 ≤ 16 ∧ (xs.foldl (step3 e tr t) (16, 4, 0)).2.1 ≤ 4 ∧
    ∀ y ∈ xs, ¬ (e.mse (tr ++ [(t, y.2)]) < (xs.foldl (step3 e tr t) (16, 4, 0)).1 ∧
      e.dist (tr ++ [(t, y.2)]) < (xs.foldl (step3 e tr t) (16, 4, 0)).2.1) := by
  induction xs using List.reverseRecOn with
  | nil => simp
  | append_singleton xs a ih =>
    rw [List.foldl_append, List.foldl_cons, List.foldl_nil]
    generalize xs.foldl (step3 e tr t) (16, 4, 0) = s at ih ⊢
    obtain ⟨i1, i2, i3, i4⟩ := ih
    unfold step3
    simp only
    by_cases h1 : e.mse (tr ++ [(t, a.2)]) < s.1
    · by_cases h2 : e.dist (tr ++ [(t, a.2)]) < s.2.1
      · rw [if_pos h1, if_pos h2]
        have k1 := lt_of_lt_of_le h1 i2
        have k2 := lt_of_lt_of_le h2 i3
        refine ⟨Or.inr ⟨a, by simp, k1, k2, rfl⟩, le_of_lt k1, le_of_lt k2, fun y hy => ?_⟩
        rcases List.mem_append.1 hy with hy | hy
        · rintro ⟨q1, q2⟩
          exact i4 y hy ⟨lt_trans q1 h1, lt_trans q2 h2⟩
        · have : y = a := by simpa using hy
          rw [this]; simp
      · rw [if_pos h1, if_neg h2]
        refine ⟨?_, i2, i3, fun y hy => ?_⟩
        · rcases i1 with i1 | ⟨x, hx, r⟩
          · exact Or.inl i1
          · exact Or.inr ⟨x, by simp [hx], r⟩
        · rcases List.mem_append.1 hy with hy | hy
          · exact i4 y hy
          · have : y = a := by simpa using hy
            rw [this]; exact fun q => h2 q.2
    · rw [if_neg h1]
      refine ⟨?_, i2, i3, fun y hy => ?_⟩
      · rcases i1 with i1 | ⟨x, hx, r⟩
        · exact Or.inl i1
        · exact Or.inr ⟨x, by simp [hx], r⟩
      · rcases List.mem_append.1 hy with hy | hy
        · exact i4 y hy
        · have : y = a := by simpa using hy
          rw [this]; exact fun q => h1 q.1

/-- **C477**: a third or later track is accepted exactly if it is not attached to one of the candidate and has a
segment with a good fit; the segment taken is such a one, and no other is better in both error and distance; if it
is refused, the tracks and segments are unchanged. -/
theorem C477_third (e : Env) (c : Cand) (t : ℕ) (h : 2 ≤ c.tr.length) :
    ((add e c t).1 = true ↔ (∀ x ∈ c.tr, e.att t x.1 = false) ∧ ∃ n, Good3 e c.tr t n) ∧
    ((add e c t).1 = true → ∃ n, Good3 e c.tr t n ∧
      (add e c t).2 = ⟨c.tr ++ [(t, n)], e.mse (c.tr ++ [(t, n)])⟩ ∧
      ∀ k, Good3 e c.tr t k → ¬ (e.mse (c.tr ++ [(t, k)]) < e.mse (c.tr ++ [(t, n)]) ∧
        e.dist (c.tr ++ [(t, k)]) < e.dist (c.tr ++ [(t, n)]))) ∧
    ((add e c t).1 = false → (add e c t).2.tr = c.tr) := by
  have hm : add e c t = if c.tr.any (fun x => e.att t x.1) = true then (false, c) else add3 e c t := by
    unfold add
    rcases hc : c.tr with _ | ⟨p, _ | ⟨q, r⟩⟩
    · rw [hc] at h; simp at h
    · rw [hc] at h; simp at h
    · rfl
  rw [hm]
  by_cases ha : c.tr.any (fun x => e.att t x.1) = true
  · rw [if_pos ha]
    obtain ⟨x, hx, hxa⟩ := List.any_eq_true.1 ha
    refine ⟨⟨by simp, fun q => ?_⟩, by simp, by simp⟩
    rw [q.1 x hx] at hxa; simp at hxa
  · rw [if_neg ha]
    have hna : ∀ x ∈ c.tr, e.att t x.1 = false := by
      intro x hx
      rw [← Bool.not_eq_true]
      exact fun q => ha (List.any_eq_true.2 ⟨x, hx, q⟩)
    unfold add3
    have hmx : maxDist * maxDist = 16 := by unfold maxDist; norm_num
    rw [hmx, show maxDist = (4 : ℚ) from rfl]
    obtain ⟨f1, _, _, f4⟩ := fold3 e c.tr t (longs e t)
    rcases f1 with f1 | ⟨x, hx, g1, g2, g3⟩
    · rw [f1] at f4 ⊢
      simp only [lt_irrefl, if_false]
      refine ⟨⟨by simp, ?_⟩, by simp, by simp⟩
      rintro ⟨_, n, ⟨l, hl⟩, q1, q2⟩
      exact absurd ⟨q1, q2⟩ (f4 (l, n) ((mem_longs _ _ _).2 hl))
    · rw [g3] at f4 ⊢
      simp only [g2, if_true]
      have hg : Good3 e c.tr t x.2 := ⟨⟨x.1, (mem_longs _ _ _).1 hx⟩, g1, g2⟩
      refine ⟨⟨fun _ => ⟨hna, x.2, hg⟩, fun _ => trivial⟩, fun _ => ⟨x.2, hg, rfl, ?_⟩, by simp⟩
      rintro k ⟨⟨l, hl⟩, _⟩
      exact f4 (l, k) ((mem_longs _ _ _).2 hl)

/-! ### A second track -/

/-- Specification: two segments of the tracks have at least the minimal length, `a` and `b`. -/
def LongPair (e : Env) (t0 t m n : ℕ) (a b : ℚ) : Prop := LongSeg e t0 m a ∧ LongSeg e t n b

theorem mem_segPairs (e : Env) (t0 t : ℕ) (x : (ℚ × ℕ) × (ℚ × ℕ)) :
    x ∈ segPairs e t0 t ↔ LongPair e t0 t x.1.2 x.2.2 x.1.1 x.2.1 := by
  unfold segPairs LongPair
  rw [← mem_longs, ← mem_longs, List.mem_flatMap]
  constructor
  · rintro ⟨a, ha, h⟩
    obtain ⟨b, hb, rfl⟩ := List.mem_map.1 h
    exact ⟨ha, hb⟩
  · rintro ⟨h1, h2⟩
    exact ⟨x.1, h1, List.mem_map.2 ⟨x.2, h2, rfl⟩⟩

theorem fold2 (e : Env) (t0 t : ℕ) (xs : List ((ℚ × ℕ) × (ℚ × ℕ)))
    (hp : ∀ x ∈ xs, 0 < x.1.1 + x.2.1) :
    ((xs.foldl (step2 e t0 t) { d := 4 } = { d := 4 } ∧ ∀ x ∈ xs, 4 ≤ e.dist2 [(t0, x.1.2), (t, x.2.2)]) ∨
      ∃ x ∈ xs, e.dist2 [(t0, x.1.2), (t, x.2.2)] < 4 ∧
        xs.foldl (step2 e t0 t) { d := 4 } =
          ⟨e.dist2 [(t0, x.1.2), (t, x.2.2)], x.1.1 + x.2.1, x.1.2, x.2.2⟩) := by
  induction xs using List.reverseRecOn with
  | nil => simp
  | append_singleton xs a ih =>
    rw [List.foldl_append, List.foldl_cons, List.foldl_nil]
    have ih' := ih (fun x hx => hp x (by simp [hx]))
    generalize xs.foldl (step2 e t0 t) { d := 4 } = s at ih' ⊢
    have hpa := hp a (by simp)
    rcases ih' with ⟨i1, i2⟩ | ⟨x, hx, i1, i2⟩
    · subst i1
      unfold step2
      simp only
      by_cases h : e.dist2 [(t0, a.1.2), (t, a.2.2)] < 4
      · rw [if_pos h, if_pos (by simpa using hpa)]
        exact Or.inr ⟨a, by simp, h, rfl⟩
      · rw [if_neg h]
        refine Or.inl ⟨rfl, fun x hx => ?_⟩
        rcases List.mem_append.1 hx with hx | hx
        · exact i2 x hx
        · have : x = a := by simpa using hx
          rw [this]; exact not_lt.1 h
    · right
      by_cases h : step2 e t0 t s a = s
      · rw [h]; exact ⟨x, by simp [hx], i1, i2⟩
      · refine ⟨a, by simp, ?_, ?_⟩
        · unfold step2 at h
          simp only at h
          by_cases hd : e.dist2 [(t0, a.1.2), (t, a.2.2)] < s.d
          · refine lt_trans hd ?_
            rw [i2]; exact i1
          · rw [if_neg hd] at h; exact absurd rfl h
        · unfold step2 at h ⊢
          simp only at h ⊢
          by_cases hd : e.dist2 [(t0, a.1.2), (t, a.2.2)] < s.d
          · rw [if_pos hd] at h ⊢
            by_cases hl : a.1.1 + a.2.1 > 4 / 5 * ((s.d - e.dist2 [(t0, a.1.2), (t, a.2.2)]) / s.d) * s.l
            · rw [if_pos hl]
            · rw [if_neg hl] at h; exact absurd rfl h
          · rw [if_neg hd] at h; exact absurd rfl h

theorem add_pair (e : Env) (p : ℕ × ℕ) (q : ℚ) (t : ℕ) :
    add e ⟨[p], q⟩ t = if e.att t p.1 = true then (false, ⟨[p], q⟩) else add2 e p t := by
  unfold add
  simp

/-- Specification: two segments long enough whose fit has a centre less than 4 away. -/
def Good2 (e : Env) (t0 t m n : ℕ) : Prop :=
  (∃ a b, LongPair e t0 t m n a b) ∧ e.dist2 [(t0, m), (t, n)] < 4

/-- **C478**: with a minimal length above 0, a second track is accepted exactly if it is not attached to the first
and there are two segments with a good fit; those taken are such; if it is refused, the track stays alone. -/
theorem C478_second (e : Env) (hs : 0 < e.smin) (p : ℕ × ℕ) (q : ℚ) (t : ℕ) :
    ((add e ⟨[p], q⟩ t).1 = true ↔ e.att t p.1 = false ∧ ∃ m n, Good2 e p.1 t m n) ∧
    ((add e ⟨[p], q⟩ t).1 = true → ∃ m n, Good2 e p.1 t m n ∧
      (add e ⟨[p], q⟩ t).2 = ⟨[(p.1, m), (t, n)], e.mse [(p.1, m), (t, n)]⟩) ∧
    ((add e ⟨[p], q⟩ t).1 = false → (add e ⟨[p], q⟩ t).2.tr.map (·.1) = [p.1]) := by
  rw [add_pair]
  cases ha : e.att t p.1 with
  | true => simp
  | false =>
    simp only [Bool.false_eq_true, if_false, true_and]
    unfold add2
    have h := fold2 e p.1 t (segPairs e p.1 t) (fun x hx => by
      obtain ⟨⟨_, h1⟩, ⟨_, h2⟩⟩ := (mem_segPairs e p.1 t x).1 hx
      linarith)
    have hb : best2 e p.1 t = (segPairs e p.1 t).foldl (step2 e p.1 t) { d := 4 } := rfl
    rw [← hb] at h
    rw [show maxDist = (4 : ℚ) from rfl]
    rcases h with ⟨h1, h2⟩ | ⟨x, hx, h1, h2⟩
    · rw [h1]
      simp only [lt_irrefl, if_false]
      refine ⟨⟨by simp, ?_⟩, by simp, by simp⟩
      rintro ⟨m, n, ⟨a, b, hab⟩, hd⟩
      have := h2 ((a, m), (b, n)) ((mem_segPairs _ _ _ _).2 hab)
      exact absurd hd (not_lt.2 this)
    · rw [h2]
      simp only [h1, if_true]
      have hg : Good2 e p.1 t x.1.2 x.2.2 := ⟨⟨_, _, (mem_segPairs _ _ _ _).1 hx⟩, h1⟩
      exact ⟨⟨fun _ => ⟨_, _, hg⟩, fun _ => trivial⟩, fun _ => ⟨_, _, hg, rfl⟩, by simp⟩

theorem fold2_closest (e : Env) (t0 t : ℕ) (xs : List ((ℚ × ℕ) × (ℚ × ℕ)))
    (hp : ∀ x ∈ xs, 0 < x.1.1 + x.2.1) (hd : ∀ x ∈ xs, 0 ≤ e.dist2 [(t0, x.1.2), (t, x.2.2)])
    (hl : ∀ x ∈ xs, ∀ y ∈ xs, 4 / 5 * (y.1.1 + y.2.1) < x.1.1 + x.2.1) :
    ∀ y ∈ xs, (xs.foldl (step2 e t0 t) { d := 4 }).d ≤ e.dist2 [(t0, y.1.2), (t, y.2.2)] := by
  induction xs using List.reverseRecOn with
  | nil => simp
  | append_singleton xs a ih =>
    have ih' := ih (fun x hx => hp x (by simp [hx])) (fun x hx => hd x (by simp [hx]))
      (fun x hx y hy => hl x (by simp [hx]) y (by simp [hy]))
    have hf := fold2 e t0 t xs (fun x hx => hp x (by simp [hx]))
    rw [List.foldl_append, List.foldl_cons, List.foldl_nil]
    generalize xs.foldl (step2 e t0 t) { d := 4 } = s at ih' hf ⊢
    have hda := hd a (by simp)
    unfold step2
    simp only
    by_cases h : e.dist2 [(t0, a.1.2), (t, a.2.2)] < s.d
    · have hlt : a.1.1 + a.2.1 > 4 / 5 * ((s.d - e.dist2 [(t0, a.1.2), (t, a.2.2)]) / s.d) * s.l := by
        rcases hf with ⟨h1, _⟩ | ⟨x, hx, h1, h2⟩
        · rw [h1]
          simpa using hp a (by simp)
        · have hx1 := hl a (by simp) x (by simp [hx])
          have hx2 := hp x (by simp [hx])
          have hsl : s.l = x.1.1 + x.2.1 := by rw [h2]
          have hsd : 0 < s.d := lt_of_le_of_lt hda h
          have hr : (s.d - e.dist2 [(t0, a.1.2), (t, a.2.2)]) / s.d ≤ 1 := by
            rw [div_le_one hsd]; linarith
          rw [hsl]
          have : 4 / 5 * ((s.d - e.dist2 [(t0, a.1.2), (t, a.2.2)]) / s.d) * (x.1.1 + x.2.1) ≤
              4 / 5 * 1 * (x.1.1 + x.2.1) := by
            apply mul_le_mul_of_nonneg_right _ (le_of_lt hx2)
            linarith
          linarith
      rw [if_pos h, if_pos hlt]
      intro y hy
      simp only
      rcases List.mem_append.1 hy with hy | hy
      · exact le_trans (le_of_lt h) (ih' y hy)
      · have : y = a := by simpa using hy
        rw [this]
    · rw [if_neg h]
      intro y hy
      rcases List.mem_append.1 hy with hy | hy
      · exact ih' y hy
      · have : y = a := by simpa using hy
        rw [this]; exact not_lt.1 h

/-- **C479**, part: if no pair of segments is shorter than four fifths of another, the pair taken is a closest one. -/
theorem C479_closest_partial (e : Env) (hs : 0 < e.smin) (p : ℕ × ℕ) (q : ℚ) (t : ℕ)
    (hd : ∀ l, 0 ≤ e.dist2 l)
    (hl : ∀ m n a b m' n' a' b', LongPair e p.1 t m n a b → LongPair e p.1 t m' n' a' b' →
      4 / 5 * (a' + b') < a + b)
    (h : (add e ⟨[p], q⟩ t).1 = true) :
    ∃ m n, (add e ⟨[p], q⟩ t).2.tr = [(p.1, m), (t, n)] ∧
      ∀ m' n', Good2 e p.1 t m' n' → e.dist2 [(p.1, m), (t, n)] ≤ e.dist2 [(p.1, m'), (t, n')] := by
  rw [add_pair] at h ⊢
  cases ha : e.att t p.1 with
  | true => rw [ha] at h; simp at h
  | false =>
    rw [ha] at h
    simp only [Bool.false_eq_true, if_false] at h ⊢
    have hpos : ∀ x ∈ segPairs e p.1 t, 0 < x.1.1 + x.2.1 := fun x hx => by
      obtain ⟨⟨_, h1⟩, ⟨_, h2⟩⟩ := (mem_segPairs e p.1 t x).1 hx
      linarith
    have h1 := fold2 e p.1 t (segPairs e p.1 t) hpos
    have h2 := fold2_closest e p.1 t (segPairs e p.1 t) hpos (fun _ _ => hd _)
      (fun x hx y hy => hl _ _ _ _ _ _ _ _ ((mem_segPairs _ _ _ _).1 hx) ((mem_segPairs _ _ _ _).1 hy))
    have hb : best2 e p.1 t = (segPairs e p.1 t).foldl (step2 e p.1 t) { d := 4 } := rfl
    rw [← hb] at h1 h2
    unfold add2 at h ⊢
    rw [show maxDist = (4 : ℚ) from rfl] at h ⊢
    rcases h1 with ⟨h1, _⟩ | ⟨x, hx, g1, g2⟩
    · rw [h1] at h; simp at h
    · rw [g2] at h2 ⊢
      simp only [g1, if_true]
      refine ⟨x.1.2, x.2.2, rfl, ?_⟩
      rintro m' n' ⟨⟨a, b, hab⟩, _⟩
      exact h2 ((a, m'), (b, n')) ((mem_segPairs _ _ _ _).2 hab)

/-- Tracks 1, with one segment, and 2, with three. -/
def demo : Env where
  att t u := t == u
  segs t := if t = 1 then [2] else if t = 2 then [8, 4, 1] else if t = 3 then [3, 3] else [1 / 10]
  smin := 1 / 2
  mse l := if l = [(1, 0), (2, 2)] then 9 else 1 / 4
  dist _ := 1
  dist2 l := if l = [(1, 0), (2, 0)] then 7 / 2 else if l = [(1, 0), (2, 1)] then 1 / 10 else
    if l = [(1, 0), (2, 2)] then 3 else if l = [(3, 0), (1, 0)] then 2 else if l = [(3, 1), (1, 0)] then 1 else 5

/-- **C479** fails: a pair of segments can be taken though another one is both closer and longer. -/
theorem C479_refuted : (add demo ⟨[(1, 0)], 0⟩ 2).2.tr = [(1, 0), (2, 2)] ∧
    demo.dist2 [(1, 0), (2, 1)] < demo.dist2 [(1, 0), (2, 2)] ∧
    LongSeg demo 2 1 4 ∧ LongSeg demo 2 2 1 :=
  ⟨by decide +kernel, by decide +kernel, ⟨by decide +kernel, by decide +kernel⟩,
    ⟨by decide +kernel, by decide +kernel⟩⟩

/-- **C480** fails: a second track that is refused changes the segment of the first. -/
theorem C480_refuted : add demo ⟨[(3, 0)], 0⟩ 2 = (false, ⟨[(3, 1)], 0⟩) := by decide +kernel

example : add demo ⟨[(3, 0)], 0⟩ 1 = (true, ⟨[(3, 1), (1, 0)], 1 / 4⟩) := by decide +kernel

example : add demo ⟨[(3, 1), (1, 0)], 1 / 4⟩ 2 = (true, ⟨[(3, 1), (1, 0), (2, 0)], 1 / 4⟩) := by decide +kernel

example : (add demo {} 4).1 = false ∧ (add demo {} 3).1 = true := by decide +kernel

/-! ### The passes -/

/-- Specification: the candidate made of two tracks, if there is one: the first is accepted, the second too, and the
error of the fit is less than 1. -/
def Made (e : Env) (t u : ℕ) (c : Cand) : Prop :=
  (add e {} t).1 = true ∧ add e (add e {} t).2 u = (true, c) ∧ c.mse < 1

open Classical in
/-- Specification: this candidate, or nothing. -/
noncomputable def made (e : Env) (t u : ℕ) : List Cand :=
  if h : ∃ c, Made e t u c then [h.choose] else []

theorem mem_made (e : Env) (t u : ℕ) (c : Cand) : c ∈ made e t u ↔ Made e t u c := by
  unfold made
  split
  · next h =>
    rw [List.mem_singleton]
    have hu : ∀ c d, Made e t u c → Made e t u d → c = d := by
      rintro c d ⟨_, h1, _⟩ ⟨_, h2, _⟩
      rw [h1] at h2
      exact (Prod.mk.injEq _ _ _ _ ▸ h2).2
    exact ⟨fun q => q ▸ h.choose_spec, fun q => hu _ _ q h.choose_spec⟩
  · next h => simp only [List.not_mem_nil, false_iff]; exact fun q => h ⟨c, q⟩

theorem made_eq (e : Env) (t u : ℕ) (h : (add e {} t).1 = true) :
    made e t u = (if (add e (add e {} t).2 u).1 = true ∧ (add e (add e {} t).2 u).2.mse < 1
      then [(add e (add e {} t).2 u).2] else []) := by
  split
  · next q =>
    have hm : Made e t u (add e (add e {} t).2 u).2 := ⟨h, Prod.ext q.1 rfl, q.2⟩
    have := (mem_made e t u _).2 hm
    unfold made at this ⊢
    split
    · next hh => rw [dif_pos hh, List.mem_singleton] at this; rw [← this]
    · next hh => exact absurd ⟨_, hm⟩ hh
  · next q =>
    rw [List.eq_nil_iff_forall_not_mem]
    intro c hc
    obtain ⟨_, h1, h2⟩ := (mem_made e t u c).1 hc
    exact q (by rw [h1]; exact ⟨rfl, h2⟩)

theorem made_none (e : Env) (t u : ℕ) (h : (add e {} t).1 = false) : made e t u = [] := by
  rw [List.eq_nil_iff_forall_not_mem]
  intro c hc
  have := ((mem_made e t u c).1 hc).1
  rw [h] at this; simp at this

theorem firstIn_eq (e : Env) (t : ℕ) (us : List ℕ) (cs : List Cand) :
    firstIn e t us cs = cs ++ us.flatMap (made e t) := by
  induction us generalizing cs with
  | nil => simp [firstIn]
  | cons u r ih =>
    unfold firstIn
    cases h : (add e {} t).1 with
    | false =>
      simp only [if_true]
      have : (u :: r).flatMap (made e t) = [] := by
        rw [List.flatMap_eq_nil_iff]; exact fun x _ => made_none e t x h
      rw [this, List.append_nil]
    | true =>
      simp only [Bool.true_eq_false, if_false]
      rw [ih, List.flatMap_cons, made_eq e t u h]
      split <;> simp

/-- **C481**: the candidates of the first pass are, in order, those that can be made of each track and each one after
it. -/
theorem C481_first_pass (e : Env) (ts : List ℕ) (cs : List Cand) :
    firstPass e ts cs = cs ++ ts.tails.flatMap (fun l => match l with
      | [] => []
      | t :: r => r.flatMap (made e t)) := by
  induction ts generalizing cs with
  | nil => simp [firstPass]
  | cons t r ih =>
    unfold firstPass
    rw [ih, firstIn_eq, List.tails_cons, List.flatMap_cons, List.append_assoc]

theorem secondIn_eq (e : Env) (t : ℕ) (us : List ℕ) (cs : List Cand) :
    secondIn e t us cs = cs ++ (us.filter (fun u => u ≠ t)).flatMap (made e t) := by
  induction us generalizing cs with
  | nil => simp [secondIn]
  | cons u r ih =>
    unfold secondIn
    cases h : (add e {} t).1 with
    | false =>
      simp only [if_true]
      have : ((u :: r).filter (fun u => u ≠ t)).flatMap (made e t) = [] := by
        rw [List.flatMap_eq_nil_iff]; exact fun x _ => made_none e t x h
      rw [this, List.append_nil]
    | true =>
      simp only [Bool.true_eq_false, if_false]
      by_cases hu : t = u
      · rw [if_pos hu, ih, List.filter_cons_of_neg (by simp [hu])]
      · rw [if_neg hu, ih, List.filter_cons_of_pos (by simpa using Ne.symm hu), List.flatMap_cons,
          made_eq e t u h]
        split <;> simp

/-- **C482**: the candidates of the second pass are, in order, those that can be made of each long track and each
shower-like one that is another. -/
theorem C482_second_pass (e : Env) (len : ℕ → ℚ) (m : ℚ) (em ts : List ℕ) (cs : List Cand) :
    secondPass e len m em ts cs = cs ++ (ts.filter (fun t => m < len t)).flatMap (fun t =>
      (em.filter (fun u => u ≠ t)).flatMap (made e t)) := by
  induction ts generalizing cs with
  | nil => simp [secondPass]
  | cons t r ih =>
    unfold secondPass
    rw [ih]
    by_cases h : len t > m
    · rw [if_pos h, secondIn_eq, List.filter_cons_of_pos (by simpa using h), List.flatMap_cons,
        List.append_assoc]
    · rw [if_neg h, List.filter_cons_of_neg (by simpa using h)]

/-- **C483**: each candidate made of two tracks has these two, not attached to each other, one segment of each that is
long enough, and an error less than 1. -/
theorem C483_candidates (e : Env) (hs : 0 < e.smin) (t u : ℕ) (c : Cand) :
    c ∈ made e t u → ∃ m n a b, c.tr = [(t, m), (u, n)] ∧ LongSeg e t m a ∧ LongSeg e u n b ∧
      e.att u t = false ∧ e.mse c.tr < 1 := by
  intro h
  obtain ⟨h1, h2, h3⟩ := (mem_made e t u c).1 h
  obtain ⟨_, k2, k3⟩ := C476_first e t
  rw [h1] at k2
  simp only [if_true] at k2
  have hc : (add e {} t).2 = ⟨[(t, 0)], 0⟩ := by
    cases hh : (add e {} t).2 with
    | mk a b => rw [hh] at k2 k3; simp only at k2 k3; rw [k2, k3]
  rw [hc] at h2
  obtain ⟨g1, g2, _⟩ := C478_second e hs (t, 0) 0 u
  rw [h2] at g1 g2
  obtain ⟨ha, _⟩ := g1.1 rfl
  obtain ⟨m, n, ⟨⟨a, b, hab⟩, _⟩, hr⟩ := g2 rfl
  simp only at hr hab ha
  subst hr
  exact ⟨m, n, a, b, rfl, hab.1, hab.2, ha, h3⟩

example : firstPass demo [3, 4, 1, 2] [] = [⟨[(3, 1), (1, 0)], 1 / 4⟩] := by decide +kernel

example : secondPass demo (fun t => t) 1 [3, 1, 2] [3, 1] [] = [⟨[(3, 1), (1, 0)], 1 / 4⟩] := by decide +kernel

end Verif.VtxAdd

import Verif.PmaNode.Thm

namespace Verif.PmaNode

/-! ### The step -/

theorem first_start {n : Node} {tmp grad : V3} {g0 alfa : ℚ} (hs : Sane n) (h0 : InBox n tmp)
    (ha : 0 < alfa) (hpos : 0 < g0) :
    FirstOk n tmp grad g0 (first n tmp grad g0 1001 alfa 0 g0 0 g0) :=
  first_ok hs h0 1001 (le_refl _) ha (Or.inl ⟨rfl, rfl, rfl, rfl, rfl⟩) hpos

/-- The step for a gradient that was made: what follows 681-688. -/
theorem step_eq (fuel : ℕ) (n : Node) (alfa tol : ℚ) (old tmp : V3) (h0 : InBox n tmp)
    (hz : ¬ (makeGradient n old tmp).1 < zeroTol) :
    (makeGradient n old tmp).1 = n.f tmp ∧ zeroTol ≤ n.f tmp := by
  rcases (mg_fields n old tmp h0).2 with h | h
  · exfalso; apply hz; rw [h]; exact zeroTol_pos
  · refine ⟨h, ?_⟩
    rw [← h]; exact not_lt.1 hz

theorem step_good {n : Node} {alfa tol : ℚ} {old tmp : V3} (hs : Sane n) (h0 : InBox n tmp) (ha : 0 < alfa)
    (ht : 0 < tol) {fuel : ℕ} {r : ℚ} {gr p : V3} (h : step fuel n alfa tol old tmp = some (r, gr, p)) :
    Good n (n.f tmp) r p := by
  unfold step at h
  obtain ⟨m1, _⟩ := mg_fields n old tmp h0
  have hst := step_eq fuel n alfa tol old tmp h0
  generalize makeGradient n old tmp = mg at *
  obtain ⟨g, grad, pos⟩ := mg
  dsimp only at *
  by_cases hz : g < zeroTol
  · rw [if_pos hz] at h
    simp only [Option.some.injEq, Prod.mk.injEq] at h
    rw [← h.1, ← h.2.2, m1]; exact good_zero h0
  · rw [if_neg hz] at h
    obtain ⟨e, hzt⟩ := hst hz
    have hz0 := zeroTol_pos
    have hpos : 0 < g := by linarith [not_lt.1 hz]
    have hf := first_start (grad := grad) hs h0 (show 0 < alfa * (4 / 5) by linarith) hpos
    rw [← e]
    cases hfe : first n tmp grad g 1001 (alfa * (4 / 5)) 0 g 0 g with
    | done r' p' =>
      rw [hfe] at h hf
      simp only [Option.some.injEq, Prod.mk.injEq] at h
      rw [← h.1, ← h.2.2]; exact hf
    | go t1 g1 t2 g2 t3 g3 steps p' =>
      rw [hfe] at h hf
      obtain ⟨hb, hp, hc⟩ := hf
      dsimp only at h
      rcases hc with ⟨c1, c2, c3, c4, c5⟩ | ⟨c1, c2⟩
      · rw [if_pos c1] at h
        cases hse : second n tmp grad g tol fuel t1 g1 t3 g3 with
        | none => rw [hse] at h; simp at h
        | some res =>
          rw [hse] at h
          rcases second_good h0 ht fuel (by rw [c2]) (by rw [c2]; exact c4) (by rw [c3]; exact hpos)
            (by rw [c3]; exact c5) hb hse with ⟨q, e1, hq⟩ | ⟨s1, e1, s2, e2, s3, e3, q, e4, tri, hq, hb'⟩
          · rw [e1] at h
            simp only [Option.some.injEq, Prod.mk.injEq] at h
            rw [← h.1, ← h.2.2]; exact good_zero hq
          · rw [e4] at h
            simp only [Option.map_eq_some_iff] at h
            obtain ⟨⟨r', p''⟩, h1, h2⟩ := h
            simp only [Prod.mk.injEq] at h2
            rw [← h2.1, ← h2.2.2]
            exact third_good h0 ht fuel tri hb' hq hpos (Or.inr rfl) h1
      · rw [if_neg c1] at h
        simp only [Option.map_eq_some_iff] at h
        obtain ⟨⟨r', p''⟩, h1, h2⟩ := h
        simp only [Prod.mk.injEq] at h2
        rw [← h2.1, ← h2.2.2]
        exact third_good h0 ht fuel c2 hb hp hpos (Or.inr rfl) h1

theorem second_ends {n : Node} {tmp grad : V3} {g0 tol : ℚ} (h0 : InBox n tmp) (htol : 0 < tol)
    {t1 g1 t2 g2 : ℚ} (hn : 0 ≤ t1) (hl : t1 < t2) (hg1 : 0 < g1) (hg : g1 ≤ g2)
    (hb : InBox n (at' tmp grad t2)) :
    ∃ N res, ∀ k ≥ N, second n tmp grad g0 tol k t1 g1 t2 g2 = some res := by
  obtain ⟨m, hm⟩ := pow_unbounded_of_one_lt ((t2 - t1) / tol) (show (1 : ℚ) < 3 / 2 by norm_num)
  have hm' : t2 - t1 ≤ tol * (3 / 2) ^ m := by
    rw [div_lt_iff₀ htol] at hm
    linarith
  clear hm
  induction m generalizing t2 g2 with
  | zero =>
    rcases second_cases (g0 := g0) h0 htol hn hl hg1 hg hb with ⟨q, e, hq⟩ | ⟨s, g, q, e, ht, hq⟩ |
      ⟨s, g, e, h1, h2, h3, h4, h5⟩
    · exact ⟨1, _, fun k hk => by obtain ⟨k, rfl⟩ : ∃ k', k = k' + 1 := ⟨k - 1, by omega⟩; exact e k⟩
    · exact ⟨1, _, fun k hk => by obtain ⟨k, rfl⟩ : ∃ k', k = k' + 1 := ⟨k - 1, by omega⟩; exact e k⟩
    · exfalso
      rw [pow_zero, mul_one] at hm'
      linarith
  | succ m ih =>
    rcases second_cases (g0 := g0) h0 htol hn hl hg1 hg hb with ⟨q, e, hq⟩ | ⟨s, g, q, e, ht, hq⟩ |
      ⟨s, g, e, h1, h2, h3, h4, h5⟩
    · exact ⟨1, _, fun k hk => by obtain ⟨k, rfl⟩ : ∃ k', k = k' + 1 := ⟨k - 1, by omega⟩; exact e k⟩
    · exact ⟨1, _, fun k hk => by obtain ⟨k, rfl⟩ : ∃ k', k = k' + 1 := ⟨k - 1, by omega⟩; exact e k⟩
    · obtain ⟨N, res, hN⟩ := ih h1 h2 h3 (by rw [pow_succ] at hm'; nlinarith)
      refine ⟨N + 1, res, fun k hk => ?_⟩
      obtain ⟨k, rfl⟩ : ∃ k', k = k' + 1 := ⟨k - 1, by omega⟩
      rw [e]; exact hN k (by omega)

/-- More rounds do not change a result of the third loop. -/
theorem third_mono {n : Node} {tmp grad : V3} {g0 tol : ℚ} (h0 : InBox n tmp) (htol : 0 < tol) (k : ℕ)
    {t1 g1 t2 g2 t3 g3 g : ℚ} {p : V3} (tri : Tri t1 g1 t2 g2 t3 g3) (hb : InBox n (at' tmp grad t3))
    (hp : InBox n p) (hg : 0 < g) (he : g = n.f p ∨ g = g0)
    {x : ℚ × V3} (h : third n tmp grad g0 tol k t1 g1 t2 g2 t3 g3 g p = some x) :
    third n tmp grad g0 tol (k + 1) t1 g1 t2 g2 t3 g3 g p = some x := by
  induction k generalizing t1 g1 t2 g2 t3 g3 g p with
  | zero => simp [third] at h
  | succ k ih =>
    rcases third_cases h0 htol k tri hb hp hg he with ⟨r', q', e, _⟩ | ⟨s1, e1, s2, e2, s3, e3, g', q', _, e,
      t, b, i, hg', hq, _⟩
    · rw [e] at h ⊢; exact h
    · rw [e] at h ⊢; exact ih t b i hg' (Or.inl hq) h

theorem step_ends {n : Node} {alfa tol : ℚ} {old tmp : V3} (hs : Sane n) (h0 : InBox n tmp) (ha : 0 < alfa)
    (ht : 0 < tol) : ∃ N res, ∀ fuel ≥ N, step fuel n alfa tol old tmp = some res := by
  unfold step
  obtain ⟨m1, _⟩ := mg_fields n old tmp h0
  generalize makeGradient n old tmp = mg at *
  obtain ⟨g, grad, pos⟩ := mg
  dsimp only at *
  by_cases hz : g < zeroTol
  · exact ⟨0, (0, grad, pos), fun fuel _ => by rw [if_pos hz]⟩
  · have hz0 := zeroTol_pos
    have hpos : 0 < g := by linarith [not_lt.1 hz]
    have hf := first_start (grad := grad) hs h0 (show 0 < alfa * (4 / 5) by linarith) hpos
    simp only [if_neg hz]
    have key : ∀ {t1 g1 t2 g2 t3 g3 : ℚ} {p : V3}, Tri t1 g1 t2 g2 t3 g3 → InBox n (at' tmp grad t3) →
        InBox n p → ∃ N x, ∀ fuel ≥ N, third n tmp grad g tol fuel t1 g1 t2 g2 t3 g3 g p = some x := by
      intro t1 g1 t2 g2 t3 g3 p tri hb hp
      obtain ⟨N, hN⟩ := third_end (g0 := g) h0 ht tri hb hp hpos (Or.inr rfl)
      obtain ⟨x, hx⟩ := Option.ne_none_iff_exists'.1 (hN N (le_refl _))
      refine ⟨N, x, fun fuel hf => ?_⟩
      induction fuel, hf using Nat.le_induction with
      | base => exact hx
      | succ m _ ih => exact third_mono h0 ht m tri hb hp hpos (Or.inr rfl) ih
    cases hfe : first n tmp grad g 1001 (alfa * (4 / 5)) 0 g 0 g with
    | done r' p' => exact ⟨0, (r', grad, p'), fun fuel _ => rfl⟩
    | go t1 g1 t2 g2 t3 g3 steps p' =>
      rw [hfe] at hf
      obtain ⟨hb, hp, hc⟩ := hf
      dsimp only
      rcases hc with ⟨c1, c2, c3, c4, c5⟩ | ⟨c1, c2⟩
      · simp only [if_pos c1]
        have k1 : 0 ≤ t1 := by rw [c2]
        have k2 : t1 < t3 := by rw [c2]; exact c4
        have k3 : 0 < g1 := by rw [c3]; exact hpos
        have k4 : g1 ≤ g3 := by rw [c3]; exact c5
        obtain ⟨N, res, hN⟩ := second_ends (g0 := g) h0 ht k1 k2 k3 k4 hb
        rcases second_good h0 ht N k1 k2 k3 k4 hb (hN N (le_refl _)) with ⟨q, e1, hq⟩ |
            ⟨s1, e1, s2, e2, s3, e3, q, e4, tri, hq, hb'⟩
        · subst e1
          exact ⟨N, (0, grad, q), fun fuel hf => by rw [hN fuel hf]⟩
        · subst e4
          obtain ⟨M, x, hM⟩ := key tri hb' hq
          refine ⟨max N M, (x.1, grad, x.2), fun fuel hf => ?_⟩
          rw [hN fuel (le_trans (le_max_left _ _) hf)]
          dsimp only
          rw [hM fuel (le_trans (le_max_right _ _) hf)]
          rfl
      · simp only [if_neg c1]
        obtain ⟨M, x, hM⟩ := key c2 hb hp
        exact ⟨M, (x.1, grad, x.2), fun fuel hf => by rw [hM fuel hf]; rfl⟩

/-- **C440**: a step along the gradient ends: for a node in the allowed volume, any objective, and a positive
first step and tolerance, the number of rounds does not change the result once it is large enough. -/
theorem C440_ends (n : Node) (alfa tol : ℚ) (old tmp : V3) (hs : Sane n) (h0 : InBox n tmp) (ha : 0 < alfa)
    (ht : 0 < tol) : ∃ N res, ∀ fuel ≥ N, step fuel n alfa tol old tmp = some res :=
  step_ends hs h0 ha ht

/-- **C441**: after a step the node is in the allowed volume; a value returned other than 0 is the part of the
objective after the step by which the objective fell, and if it is positive the objective is smaller. -/
theorem C441_better (n : Node) (alfa tol : ℚ) (old tmp : V3) (hs : Sane n) (h0 : InBox n tmp) (ha : 0 < alfa)
    (ht : 0 < tol) (fuel : ℕ) (r : ℚ) (gr p : V3) (h : step fuel n alfa tol old tmp = some (r, gr, p)) :
    InBox n p ∧ (r ≠ 0 → r = (n.f tmp - n.f p) / n.f p) ∧ (0 < r → n.f p < n.f tmp) :=
  step_good hs h0 ha ht h

theorem second_fields {n : Node} {d : ℚ} (h : Sane n) : Sane { n with dxi := d } := h

/-- **C443**: the optimisation leaves a frozen node as it is; for another one in the allowed volume it ends,
with the node in the allowed volume. -/
theorem C443_optimize (n : Node) (d : V3 → ℚ) (old p : V3) (hs : Sane n) (h0 : InBox n p) :
    (∀ fuel, optimize fuel n d true old p = some (old, p)) ∧
    ∃ N gr q, (∀ fuel ≥ N, optimize fuel n d false old p = some (gr, q)) ∧ InBox n q := by
  refine ⟨fun fuel => rfl, ?_⟩
  have one : ∀ (alfa tol : ℚ) (gr q : V3), 0 < alfa → 0 < tol → InBox n q →
      ∃ N r gr' q', (∀ fuel ≥ N, step fuel { n with dxi := d q } alfa tol gr q = some (r, gr', q')) ∧
        InBox n q' := by
    intro alfa tol gr q ha ht hq
    obtain ⟨N, ⟨r, gr', q'⟩, hN⟩ := C440_ends { n with dxi := d q } alfa tol gr q hs hq ha ht
    exact ⟨N, r, gr', q', hN, (C441_better { n with dxi := d q } alfa tol gr q hs hq ha ht N r gr' q'
      (hN N (le_refl _))).1⟩
  have opt : ∀ (c : Prop) [Decidable c] (r : ℚ) (gr q : V3), InBox n q →
      ∃ N r' gr' q', (∀ fuel ≥ N, (if c then step fuel { n with dxi := d q } (3 / 100) (1 / 10000) gr q
        else some (r, gr, q)) = some (r', gr', q')) ∧ InBox n q' := by
    intro c _ r gr q hq
    by_cases hc : c
    · simp only [if_pos hc]
      exact one (3 / 100) (1 / 10000) gr q (by norm_num) (by norm_num) hq
    · simp only [if_neg hc]
      exact ⟨0, r, gr, q, fun _ _ => rfl, hq⟩
  obtain ⟨N1, r1, g1, q1, h1, b1⟩ := one (1 / 10) (1 / 500) old p (by norm_num) (by norm_num) h0
  obtain ⟨N2, r2, g2, q2, h2, b2⟩ := opt (r1 > 1 / 100) r1 g1 q1 b1
  obtain ⟨N3, r3, g3, q3, h3, b3⟩ := opt (r2 > 0) r2 g2 q2 b2
  refine ⟨max N1 (max N2 N3), g3, q3, fun fuel hf => ?_, b3⟩
  have e1 := h1 fuel (le_trans (le_max_left _ _) hf)
  have e2 := h2 fuel (le_trans (le_trans (le_max_left _ _) (le_max_right _ _)) hf)
  have e3 := h3 fuel (le_trans (le_trans (le_max_right _ _) (le_max_right _ _)) hf)
  unfold optimize
  simp only [Bool.false_eq_true, if_false]
  rw [e1]
  dsimp only
  rw [e2]
  dsimp only
  rw [e3]

/-- An objective with the smallest values near x = 1 and a large value exactly there. -/
def spike (p : V3) : ℚ := if p.x = 1 then 100 else 1 + 10000 / 4504 * ((p.x - 1) * (p.x - 1))

/-- **C442**, counterexample: the last place that is tried is worse than the start, and the node stays there
(the value returned is negative). -/
theorem C442_refuted : ∃ n : Node, Sane n ∧ InBox n ⟨0, 0, 0⟩ ∧ n.f ⟨0, 0, 0⟩ < 4 ∧
    step 50 n (1 / 10) (1 / 500) ⟨0, 0, 0⟩ ⟨0, 0, 0⟩ =
      some ((10000 / 4504 + 1 - 100) / 100, ⟨2 * (10000 / 4504), 0, 0⟩, ⟨1, 0, 0⟩) ∧
    n.f ⟨1, 0, 0⟩ = 100 := by
  refine ⟨exN spike, ?_, ?_, by decide +kernel, by decide +kernel, by decide +kernel⟩
  · unfold Sane exN; norm_num
  · unfold InBox exN; norm_num

/-- A step towards the smallest value of a parabola: the objective falls from 5 to 4. -/
def bowl (p : V3) : ℚ := 4 + (p.x - 1) * (p.x - 1)

example : Sane (exN bowl) ∧ InBox (exN bowl) ⟨0, 0, 0⟩ ∧
    step 50 (exN bowl) (1 / 10) (1 / 500) ⟨0, 0, 0⟩ ⟨0, 0, 0⟩ = some (1 / 4, ⟨2, 0, 0⟩, ⟨1, 0, 0⟩) ∧
    optimize 50 (exN bowl) (fun _ => 1 / 10000) false ⟨0, 0, 0⟩ ⟨0, 0, 0⟩ = some (⟨0, 0, 0⟩, ⟨1, 0, 0⟩) := by
  refine ⟨?_, ?_, by decide +kernel, by decide +kernel⟩
  · unfold Sane exN; norm_num
  · unfold InBox exN; norm_num

end Verif.PmaNode

import Verif.Cheat2.Model
import Mathlib.Algebra.Order.BigOperators.Group.List
import Mathlib.Data.List.Induction
import Mathlib.Data.List.Chain
import Mathlib.Tactic.Linarith
import Mathlib.Tactic.NormNum

/-!
# Properties C484-C486
-/

namespace Verif.Cheat2

/-! ### Hits -/

/-- Specification: the hit of a group of ticks with charges; `k` is added to the last tick.  The peak is the first of the
largest charges. -/
def IsHit (g : List (ℕ × ℚ)) (k : ℕ) (h : Hit) : Prop :=
  (∃ r q, g = (h.start, q) :: r) ∧ (∃ b t q, g = b ++ [(t, q)] ∧ h.stop = t + k) ∧
  h.charge = (g.map (·.2)).sum ∧
  ∃ a b, g = a ++ (h.peak, h.amp) :: b ∧ (∀ y ∈ a, y.2 < h.amp) ∧ ∀ y ∈ b, y.2 ≤ h.amp

/-- Specification: the ticks are cut where two that follow each other are more than `gap` apart, and there only. -/
inductive Groups (gap : ℕ) : List (ℕ × ℚ) → List (List (ℕ × ℚ)) → Prop
  | last (g : List (ℕ × ℚ)) (hne : g ≠ []) (hg : g.IsChain (fun a b => b.1 - a.1 ≤ gap)) : Groups gap g [g]
  | cons (g : List (ℕ × ℚ)) (y : ℕ × ℚ) (r : List (ℕ × ℚ)) (x : ℕ × ℚ) (xs : List (ℕ × ℚ)) (gs : List (List (ℕ × ℚ)))
      (hg : g.IsChain (fun a b => b.1 - a.1 ≤ gap)) (hlast : g = r ++ [y]) (hgap : gap < x.1 - y.1)
      (h : Groups gap (x :: xs) gs) : Groups gap (g ++ x :: xs) (g :: gs)

/-- Specification: one hit for each group; its end is its last tick, and one more for the last group. -/
inductive HitsOf : List (List (ℕ × ℚ)) → List Hit → Prop
  | last (g : List (ℕ × ℚ)) (h : Hit) (hh : IsHit g 1 h) : HitsOf [g] [h]
  | cons (g : List (ℕ × ℚ)) (h : Hit) (gs : List (List (ℕ × ℚ))) (hs : List Hit) (hh : IsHit g 0 h)
      (ht : HitsOf gs hs) : HitsOf (g :: gs) (h :: hs)

/-- The state holds the hit of the ticks since the last reset. -/
def Inv (g : List (ℕ × ℚ)) (s : St) : Prop := IsHit g 0 ⟨s.start, s.prev, s.peak, s.amp, s.charge⟩

theorem inv_shift (g : List (ℕ × ℚ)) (s : St) (k : ℕ) (h : Inv g s) :
    IsHit g k ⟨s.start, s.prev + k, s.peak, s.amp, s.charge⟩ := by
  obtain ⟨h1, ⟨b, t, q, h2, h3⟩, h4, h5⟩ := h
  simp only at h3
  exact ⟨h1, ⟨b, t, q, h2, by simp only; omega⟩, h4, h5⟩

theorem inv_first (x : ℕ × ℚ) (hx : -1 < x.2) (p pk : ℕ) : Inv [x] (accum ⟨x.1, p, pk, -1, 0⟩ x) := by
  unfold Inv accum
  refine ⟨⟨[], x.2, rfl⟩, ⟨[], x.1, x.2, rfl, rfl⟩, by simp, [], [], ?_, by simp, by simp⟩
  simp [hx]

theorem inv_accum (g : List (ℕ × ℚ)) (s : St) (x : ℕ × ℚ) (h : Inv g s) : Inv (g ++ [x]) (accum s x) := by
  obtain ⟨⟨r, q, h1⟩, _, h4, a, b, h5, h6, h7⟩ := h
  simp only at h1 h4 h5 h6 h7
  unfold Inv accum
  refine ⟨⟨r ++ [x], q, by rw [h1]; rfl⟩, ⟨g, x.1, x.2, rfl, rfl⟩, ?_, ?_⟩
  · simp only; rw [h4]; simp
  · by_cases hx : x.2 > s.amp
    · simp only [hx, if_true]
      refine ⟨g, [], rfl, fun y hy => ?_, by simp⟩
      rw [h5] at hy
      rcases List.mem_append.1 hy with hy | hy
      · exact lt_trans (h6 y hy) hx
      · rcases List.mem_cons.1 hy with rfl | hy
        · exact hx
        · exact lt_of_le_of_lt (h7 y hy) hx
    · simp only [hx, if_false]
      refine ⟨a, b ++ [x], by rw [h5]; simp, h6, fun y hy => ?_⟩
      rcases List.mem_append.1 hy with hy | hy
      · exact h7 y hy
      · have : y = x := by simpa using hy
        rw [this]; exact not_lt.1 hx

theorem chain_snoc (gap : ℕ) (g : List (ℕ × ℚ)) (x : ℕ × ℚ)
    (hg : g.IsChain (fun a b => b.1 - a.1 ≤ gap)) (r : List (ℕ × ℚ)) (y : ℕ × ℚ) (e : g = r ++ [y])
    (h : x.1 - y.1 ≤ gap) : (g ++ [x]).IsChain (fun a b => b.1 - a.1 ≤ gap) := by
  rw [List.isChain_append]
  refine ⟨hg, by simp, ?_⟩
  intro a ha b hb
  rw [e] at ha
  simp at ha hb
  rw [← ha, ← hb]; exact h

theorem emit_filter (m : ℚ) (k : ℕ) (s : St) (hs rest : List Hit) :
    emit m k s hs ++ rest.filter (fun h => m < h.charge) =
      hs ++ ((⟨s.start, s.prev + k, s.peak, s.amp, s.charge⟩ : Hit) :: rest).filter (fun h => m < h.charge) := by
  unfold emit
  by_cases h : s.charge > m
  · rw [if_pos h, List.filter_cons_of_pos (by simpa using h)]; simp
  · rw [if_neg h, List.filter_cons_of_neg (by simpa using h)]

theorem scan_spec (gap : ℕ) (m : ℚ) (xs : List (ℕ × ℚ)) (hx : ∀ x ∈ xs, -1 < x.2) (g : List (ℕ × ℚ)) (s : St)
    (hs : List Hit) (hg : g.IsChain (fun a b => b.1 - a.1 ≤ gap)) (hi : Inv g s) :
    ∃ gs hits, Groups gap (g ++ xs) gs ∧ HitsOf gs hits ∧
      scan gap m s hs xs = hs ++ hits.filter (fun h => m < h.charge) := by
  induction xs generalizing g s hs with
  | nil =>
    refine ⟨[g], [⟨s.start, s.prev + 1, s.peak, s.amp, s.charge⟩], ?_, .last _ _ (inv_shift g s 1 hi), ?_⟩
    · rw [List.append_nil]
      refine .last _ ?_ hg
      obtain ⟨⟨r, q, h⟩, _⟩ := hi
      rw [h]; simp
    · rw [scan, ← emit_filter]; simp
  | cons x r ih =>
    have hx' := fun y hy => hx y (List.mem_cons_of_mem _ hy)
    obtain ⟨b, t, q, h2, h3⟩ := hi.2.1
    simp only [Nat.add_zero] at h3
    rw [scan]
    by_cases hgp : x.1 - s.prev > gap
    · rw [if_pos hgp]
      obtain ⟨gs, hits, k1, k2, k3⟩ := ih hx' [x] (accum (reset x.1 s.prev) x) (emit m 0 s hs) (by simp)
        (inv_first x (hx x (by simp)) _ _)
      refine ⟨g :: gs, ⟨s.start, s.prev + 0, s.peak, s.amp, s.charge⟩ :: hits, ?_,
        .cons _ _ _ _ (inv_shift g s 0 hi) k2, ?_⟩
      · exact .cons g (t, q) b x r gs hg h2 (by simp only; omega) k1
      · rw [k3, emit_filter]
    · rw [if_neg hgp]
      obtain ⟨gs, hits, k1, k2, k3⟩ := ih hx' (g ++ [x]) (accum s x) hs
        (chain_snoc gap g x hg b (t, q) h2 (by simp only; omega)) (inv_accum g s x hi)
      exact ⟨gs, hits, by simpa using k1, k2, k3⟩

/-- **C484**: the ticks of a wire are cut where two are more than the gap apart, and only there; each group whose charge
is above the limit is a hit, which starts at its first tick and has the sum of its charges and the first of the largest
as the peak. -/
theorem C484_hits (gap : ℕ) (m : ℚ) (xs : List (ℕ × ℚ)) (hne : xs ≠ []) (hx : ∀ x ∈ xs, -1 < x.2) :
    ∃ gs hits, Groups gap xs gs ∧ HitsOf gs hits ∧
      wireHits gap m xs = hits.filter (fun h => m < h.charge) := by
  cases xs with
  | nil => exact absurd rfl hne
  | cons x r =>
    obtain ⟨gs, hits, h1, h2, h3⟩ := scan_spec gap m r (fun y hy => hx y (by simp [hy])) [x]
      (accum ⟨x.1, x.1, 0, -1, 0⟩ x) [] (by simp) (inv_first x (hx x (by simp)) _ _)
    refine ⟨gs, hits, h1, h2, ?_⟩
    rw [show wireHits gap m (x :: r) = scan gap m ⟨x.1, x.1, 0, -1, 0⟩ [] (x :: r) from rfl, scan,
      if_neg (by simp), h3, List.nil_append]

/-- The charge of the groups is that of the ticks. -/
theorem groups_sum (gap : ℕ) (xs : List (ℕ × ℚ)) (gs : List (List (ℕ × ℚ))) (h : Groups gap xs gs) :
    (gs.map (fun g => (g.map (·.2)).sum)).sum = (xs.map (·.2)).sum := by
  induction h with
  | last g _ _ => simp
  | cons g y r x xs gs _ _ _ _ ih => rw [List.map_cons, List.sum_cons, ih]; simp

theorem hits_sum (gs : List (List (ℕ × ℚ))) (hs : List Hit) (h : HitsOf gs hs) :
    (hs.map (·.charge)).sum = (gs.map (fun g => (g.map (·.2)).sum)).sum := by
  induction h with
  | last g h hh => simp [hh.2.2.1]
  | cons g h gs hs hh _ ih => rw [List.map_cons, List.sum_cons, List.map_cons, List.sum_cons, ih, hh.2.2.1]

/-- **C484**: with a limit below 0 no charge is lost. -/
theorem C484_charge (gap : ℕ) (m : ℚ) (xs : List (ℕ × ℚ)) (hm : m < 0) (hx : ∀ x ∈ xs, 0 ≤ x.2) :
    ((wireHits gap m xs).map (·.charge)).sum = (xs.map (·.2)).sum := by
  by_cases hne : xs = []
  · subst hne; rfl
  · obtain ⟨gs, hits, h1, h2, h3⟩ := C484_hits gap m xs hne (fun x h => lt_of_lt_of_le (by norm_num) (hx x h))
    have hall : ∀ g ∈ gs, 0 ≤ (g.map (·.2)).sum := by
      have : ∀ g ∈ gs, ∀ y ∈ g, y ∈ xs := by
        clear h2 h3 hits
        induction h1 with
        | last g _ _ => simp
        | cons g y r x xs gs _ _ _ _ ih =>
          intro g' hg' y' hy'
          rcases List.mem_cons.1 hg' with rfl | hg'
          · simp [hy']
          · exact List.mem_append_right _ (ih (fun z hz => hx z (List.mem_append_right _ hz)) (by simp) g' hg' y' hy')
      intro g hg
      exact List.sum_nonneg (fun q hq => by
        obtain ⟨y, hy, rfl⟩ := List.mem_map.1 hq
        exact hx y (this g hg y hy))
    have hf : hits.filter (fun h => m < h.charge) = hits := by
      rw [List.filter_eq_self]
      intro h hh
      have : ∀ h ∈ hits, 0 ≤ h.charge := by
        clear h1 h3 hh
        induction h2 with
        | last g h hh => intro h' h'e; rw [List.mem_singleton.1 h'e, hh.2.2.1]; exact hall g (by simp)
        | cons g h gs hs hh _ ih =>
          intro h' h'e
          rcases List.mem_cons.1 h'e with rfl | h'e
          · rw [hh.2.2.1]; exact hall g (by simp)
          · exact ih (fun g' hg' => hall g' (by simp [hg'])) h' h'e
      simpa using lt_of_lt_of_le hm (this h hh)
    rw [h3, hf, hits_sum gs hits h2, groups_sum gap xs gs h1]

/-- **C485** fails: the end of the last hit of a wire is after its last tick, that of the others is their last tick. -/
theorem C485_refuted : wireHits 3 1 [(10, 5), (11, 7), (12, 2), (40, 5), (41, 7), (42, 2)] =
    [⟨10, 12, 11, 7, 14⟩, ⟨40, 43, 41, 7, 14⟩] := by decide +kernel

example : wireHits 3 1 [(10, 5), (13, 7), (17, 1 / 2), (40, 5)] = [⟨10, 13, 13, 7, 12⟩, ⟨40, 41, 40, 5, 5⟩] := by
  decide +kernel

/-! ### Numbers of clusters -/

/-- **C486**, part: with planes, TPCs and cryostats below 10, the number of a cluster tells its particle, plane, TPC
and cryostat. -/
theorem C486_numbers_partial (e p t c e' p' t' c' : ℤ) (hp : 0 ≤ p ∧ p < 10) (ht : 0 ≤ t ∧ t < 10) (hc : 0 ≤ c ∧ c < 10)
    (hp' : 0 ≤ p' ∧ p' < 10) (ht' : 0 ≤ t' ∧ t' < 10) (hc' : 0 ≤ c' ∧ c' < 10) :
    eveID (clusterID e p t c) = e ∧
    (clusterID e p t c = clusterID e' p' t' c' → e = e' ∧ p = p' ∧ t = t' ∧ c = c') := by
  unfold eveID clusterID
  constructor
  · omega
  · intro h
    refine ⟨?_, ?_, ?_, ?_⟩ <;> omega

/-- **C486** fails for ten TPCs or more: two clusters of one particle have the same number, and with a hundred the
particle is another one. -/
theorem C486_refuted : clusterID 7 0 10 0 = clusterID 7 1 0 0 ∧ eveID (clusterID 7 0 100 0) = 8 := by decide

example : clusterID (-7) 2 3 1 = -6769 ∧ eveID (-6769) = -7 := by decide

end Verif.Cheat2

import Verif.Hit.CandShape
/-!
# Candidate hits from the derivative: lemmas
-/
namespace Verif.CandShape
open Verif Verif.Wave Verif.CandHit

/-- the derivative does not rise from `i` to `j` -/
def Falling (d : Nat → ℚ) (i j : Nat) : Prop := ∀ k, i ≤ k → k < j → d (k + 1) ≤ d k

theorem nearestMin_spec (d : Nat → ℚ) (stop : Nat) (k : Nat) : ∀ l, l < stop → stop - l ≤ k →
    l ≤ nearestMin d stop k l ∧ nearestMin d stop k l < stop ∧ Falling d l (nearestMin d stop k l) ∧
    (nearestMin d stop k l + 1 = stop ∨ d (nearestMin d stop k l) < d (nearestMin d stop k l + 1)) := by
  induction k with
  | zero => intro l h1 h2; omega
  | succ k ih =>
    intro l h1 h2
    rw [nearestMin]
    split
    · next h => exact ⟨le_refl _, h1, fun i h3 h4 => by omega, Or.inl h⟩
    · next h =>
      split
      · next h3 => exact ⟨le_refl _, h1, fun i h3 h4 => by omega, Or.inr h3⟩
      · next h3 =>
        obtain ⟨g1, g2, g3, g4⟩ := ih (l + 1) (by omega) (by omega)
        refine ⟨by omega, g2, ?_, g4⟩
        intro i h4 h5
        rcases Nat.eq_or_lt_of_le h4 with rfl | h6
        · exact not_lt.1 h3
        · exact g3 i h6 h5

theorem nearestMaxLoop_spec (d : Nat → ℚ) (start : Nat) (k : Nat) : ∀ l, start < l → l - start ≤ k →
    start < nearestMaxLoop d start k l ∧ nearestMaxLoop d start k l ≤ l ∧ Falling d (nearestMaxLoop d start k l) l ∧
    (nearestMaxLoop d start k l - 1 = start ∨ d (nearestMaxLoop d start k l - 1) < d (nearestMaxLoop d start k l)) := by
  induction k with
  | zero => intro l h1 h2; omega
  | succ k ih =>
    intro l h1 h2
    rw [nearestMaxLoop]
    split
    · next h => exact ⟨h1, le_refl _, fun i h3 h4 => by omega, Or.inl h⟩
    · next h =>
      split
      · next h3 => exact ⟨h1, le_refl _, fun i h3 h4 => by omega, Or.inr h3⟩
      · next h3 =>
        obtain ⟨g1, g2, g3, g4⟩ := ih (l - 1) (by omega) (by omega)
        refine ⟨g1, by omega, ?_, g4⟩
        intro i h4 h5
        rcases Nat.eq_or_lt_of_le (show i ≤ l - 1 by omega) with rfl | h6
        · rw [show l - 1 + 1 = l by omega]
          exact not_lt.1 h3
        · exact g3 i h4 h6

theorem startLoop_spec (d : Nat → ℚ) (start : Nat) (k : Nat) : ∀ l, start < l → l - start ≤ k →
    start < startLoop d start k l ∧ startLoop d start k l ≤ l ∧
    (∀ i, startLoop d start k l ≤ i → i < l → d i < d (i + 1) ∧ 0 ≤ d i) ∧
    (startLoop d start k l - 1 = start ∨ d (startLoop d start k l - 1) < 0 ∨
      d (startLoop d start k l) ≤ d (startLoop d start k l - 1)) := by
  induction k with
  | zero => intro l h1 h2; omega
  | succ k ih =>
    intro l h1 h2
    rw [startLoop]
    split
    · next h => exact ⟨h1, le_refl _, fun i h3 h4 => by omega, Or.inl h⟩
    · next h =>
      split
      · next h3 =>
        refine ⟨h1, le_refl _, fun i h3 h4 => by omega, Or.inr ?_⟩
        rcases h3 with h3 | h3
        · exact Or.inl h3
        · exact Or.inr (not_lt.1 h3)
      · next h3 =>
        rw [not_or, not_not] at h3
        obtain ⟨g1, g2, g3, g4⟩ := ih (l - 1) (by omega) (by omega)
        refine ⟨g1, by omega, ?_, g4⟩
        intro i h4 h5
        rcases Nat.eq_or_lt_of_le (show i ≤ l - 1 by omega) with rfl | h6
        · rw [show l - 1 + 1 = l by omega]
          exact ⟨h3.2, not_lt.1 h3.1⟩
        · exact g3 i h4 h6

theorem stopLoop_spec (d : Nat → ℚ) (stop : Nat) (k : Nat) : ∀ l, l < stop → stop - l ≤ k →
    l ≤ stopLoop d stop k l ∧ stopLoop d stop k l < stop ∧
    (∀ i, l ≤ i → i < stopLoop d stop k l → d i < d (i + 1) ∧ d (i + 1) ≤ 0) ∧
    (stopLoop d stop k l + 1 = stop ∨ 0 < d (stopLoop d stop k l + 1) ∨
      d (stopLoop d stop k l + 1) ≤ d (stopLoop d stop k l)) := by
  induction k with
  | zero => intro l h1 h2; omega
  | succ k ih =>
    intro l h1 h2
    rw [stopLoop]
    split
    · next h => exact ⟨le_refl _, h1, fun i h3 h4 => by omega, Or.inl h⟩
    · next h =>
      split
      · next h3 =>
        refine ⟨le_refl _, h1, fun i h3 h4 => by omega, Or.inr ?_⟩
        rcases h3 with h3 | h3
        · exact Or.inl h3
        · exact Or.inr (not_lt.1 h3)
      · next h3 =>
        rw [not_or, not_not] at h3
        obtain ⟨g1, g2, g3, g4⟩ := ih (l + 1) (by omega) (by omega)
        refine ⟨by omega, g2, ?_, g4⟩
        intro i h4 h5
        rcases Nat.eq_or_lt_of_le h4 with rfl | h6
        · exact ⟨h3.2, not_lt.1 h3.1⟩
        · exact g3 i h6 h5

/-- where the rise before a maximum begins: at the first position that can be tried, after a negative value, or at a local
minimum -/
def StartsAt (d : Nat → ℚ) (lo st : Nat) : Prop := st ≤ lo + 1 ∨ d (st - 1) < 0 ∨ d st ≤ d (st - 1)

/-- where the rise after a minimum ends: at the last position, before a positive value, or at a local maximum -/
def StopsAt (d : Nat → ℚ) (hi sp : Nat) : Prop := sp + 1 = hi ∨ 0 < d (sp + 1) ∨ d (sp + 1) ≤ d sp

theorem findStart_at (d : Nat → ℚ) {start m : Nat} : StartsAt d start (findStart d start m) := by
  unfold findStart
  split
  · next h1 =>
    obtain ⟨g1, -, -, g4⟩ := startLoop_spec d start (m - start) m h1 (le_refl _)
    rcases g4 with g | g | g
    · exact Or.inl (by omega)
    · exact Or.inr (Or.inl g)
    · exact Or.inr (Or.inr g)
  · exact Or.inl (by omega)

theorem findStop_at (d : Nat → ℚ) {stop m : Nat} (h : m < stop) : StopsAt d stop (findStop d stop m) := by
  unfold findStop
  split
  · exact (stopLoop_spec d stop (stop - m) m h (le_refl _)).2.2.2
  · exact Or.inl (by omega)

theorem findStart_spec (d : Nat → ℚ) {start m : Nat} (h : start ≤ m) :
    start ≤ findStart d start m ∧ findStart d start m ≤ m ∧ (start < m → start < findStart d start m) ∧
    (∀ i, findStart d start m ≤ i → i < m → d i < d (i + 1) ∧ 0 ≤ d i) := by
  unfold findStart
  split
  · next h1 =>
    obtain ⟨g1, g2, g3, -⟩ := startLoop_spec d start (m - start) m h1 (le_refl _)
    exact ⟨g1.le, g2, fun _ => g1, g3⟩
  · next h1 => exact ⟨le_refl _, h, fun h2 => by omega, fun i h2 h3 => by omega⟩

theorem findStop_spec (d : Nat → ℚ) {stop m : Nat} (h : m < stop) :
    m ≤ findStop d stop m ∧ findStop d stop m < stop ∧
    (∀ i, m ≤ i → i < findStop d stop m → d i < d (i + 1) ∧ d (i + 1) ≤ 0) := by
  unfold findStop
  split
  · next h1 =>
    obtain ⟨g1, g2, g3, -⟩ := stopLoop_spec d stop (stop - m) m h (le_refl _)
    exact ⟨g1, g2, g3⟩
  · next h1 => exact ⟨le_refl _, h, fun i h2 h3 => by omega⟩

/-- the last maximum and the first minimum -/
theorem extremes_spec (d : Nat → ℚ) {a b : Nat} (h : a < b) :
    a ≤ (extremes d a b).1 ∧ (extremes d a b).1 ≤ (extremes d a b).2 ∧ (extremes d a b).2 < b ∧
    Falling d (extremes d a b).1 (extremes d a b).2 := by
  have h1 := lastElt_best strict_max d a (b - a) (by omega)
  have h2 := bestElt_best strict_min d a (b - a) (by omega)
  rw [show a + (b - a) = b by omega] at h1 h2
  unfold extremes
  generalize lastElt ltMax d a (b - a) = mx at h1 ⊢
  generalize bestElt ltMin d a (b - a) = mn at h2 ⊢
  split
  · obtain ⟨g1, g2, g3, -⟩ := nearestMin_spec d b (b - mx) mx h1.2.1 (le_refl _)
    exact ⟨h1.1, g1, g2, g3⟩
  · unfold nearestMax
    split
    · next h3 =>
      obtain ⟨g1, g2, g3, -⟩ := nearestMaxLoop_spec d a (mn - a) mn h3 (le_refl _)
      exact ⟨g1.le, g2, h2.2.1, g3⟩
    · exact ⟨h2.1, le_refl _, h2.2.1, fun k h3 h4 => by simp only at h3 h4; omega⟩

theorem strict_abs : Strict ltAbs := by
  constructor <;> intro a <;> simp only [ltAbs, decide_eq_false_iff_not, decide_eq_true_eq, not_lt]
  · exact le_refl _
  · intro b h; exact h.le
  · intro b c h1 h2; exact h1.trans h2

/-- the position from which the centre is taken: the first one between maximum and minimum with the least absolute
derivative, moved by one towards the far side if one side is more than twice as long as the other -/
def CentreOf (d : Nat → ℚ) (mx mn c : Nat) : Prop :=
  ∃ p, mx ≤ p ∧ p < mn ∧ (∀ k, mx ≤ k → k < mn → |d p| ≤ |d k|) ∧
    c = if 2 * (mn - p) < p - mx then p - 1 else if 2 * (p - mx) < mn - p then p + 1 else p

theorem peakOf_centre (d : Nat → ℚ) {mx mn : Nat} (h : mx < mn) : CentreOf d mx mn (peakOf d mx mn) := by
  have h1 := bestElt_best strict_abs d mx (mn - mx) (by omega)
  rw [show mx + (mn - mx) = mn by omega] at h1
  refine ⟨_, h1.1, h1.2.1, ?_, rfl⟩
  intro k h2 h3
  have := h1.2.2 k h2 h3
  simpa [ltAbs] using this

theorem peakOf_spec (d : Nat → ℚ) {mx mn : Nat} (h : mx < mn) :
    mx ≤ peakOf d mx mn ∧ peakOf d mx mn ≤ mn ∧ (mx + 1 < mn → peakOf d mx mn < mn) := by
  have h1 := bestElt_best strict_abs d mx (mn - mx) (by omega)
  rw [show mx + (mn - mx) = mn by omega] at h1
  unfold peakOf balance
  generalize bestElt ltAbs d mx (mn - mx) = p at h1 ⊢
  obtain ⟨h2, h3, -⟩ := h1
  split
  · omega
  · split <;> omega

/-- what every candidate has: the derivative falls from the maximum to the minimum, the centre is half a tick after a
position between them. Positions count from the start of the vector, whose tick is `R`. -/
structure Pulse (n : Nat) (d : Nat → ℚ) (R : Nat) (h : Hit) (mx c mn : Nat) : Prop where
  order : mx < mn ∧ mn < n
  ticks : h.maxTick = R + mx ∧ h.minTick = R + mn
  centre : h.hitCenter = (R + c : Nat) + 1 / 2 ∧ mx ≤ c ∧ c ≤ mn ∧ (mx + 1 < mn → c < mn)
  sigma : h.hitSigma = ((mn : ℚ) - mx) / 2
  values : h.maxDerivative = d mx ∧ h.minDerivative = d mn
  fall : Falling d mx mn
  peak : CentreOf d mx mn c

theorem mkHit_pulse (d : Nat → ℚ) {n a R start mx mn sp : Nat} (h1 : a ≤ mx) (h2 : mx < mn) (h3 : mn < n)
    (hf : Falling d mx mn) : Pulse n d R (mkHit d a (R + a) start mx mn sp) mx (peakOf d mx mn) mn := by
  have hp := peakOf_spec d h2
  refine ⟨⟨h2, h3⟩, ⟨?_, ?_⟩, ⟨?_, hp⟩, ?_, ⟨rfl, rfl⟩, hf, peakOf_centre d h2⟩
  · simp only [mkHit]; omega
  · simp only [mkHit]; omega
  · simp only [mkHit]
    rw [show R + a + (peakOf d mx mn - a) = R + peakOf d mx mn by omega]
  · simp only [mkHit]
    rw [show R + a + (mn - a) = R + mn by omega, show R + a + (mx - a) = R + mx by omega]
    push_cast
    ring

/-- a candidate of the derivative tool between positions `st` and `sp`: the derivative is not negative and rises strictly
from the start to the maximum, is not positive and rises strictly from the minimum to the stop; the pulse meets the
thresholds, or those for merged pulses (2 ticks, any difference) -/
structure Cand (n : Nat) (d : Nat → ℚ) (minT : Int) (minP : ℚ) (R lo hi : Nat) (h : Hit) (st mx c mn sp : Nat) : Prop where
  pulse : Pulse n d R h mx c mn
  range : lo ≤ st ∧ st ≤ mx ∧ mn ≤ sp ∧ sp < hi
  ticks : h.startTick = R + st ∧ h.stopTick = R + sp
  rise : ∀ k, st ≤ k → k < mx → 0 ≤ d k ∧ d k < d (k + 1)
  tail : ∀ k, mn ≤ k → k < sp → d k < d (k + 1) ∧ d (k + 1) ≤ 0
  passes : (minT ≤ (mn : Int) - mx ∧ minP < d mx - d mn) ∨ (2 ≤ mn - mx ∧ d mn < d mx)

theorem Cand.widen {n : Nat} {d : Nat → ℚ} {minT : Int} {minP : ℚ} {R lo hi lo' hi' : Nat} {h : Hit} {st mx c mn sp : Nat}
    (hc : Cand n d minT minP R lo hi h st mx c mn sp) (h1 : lo' ≤ lo) (h2 : hi ≤ hi') :
    Cand n d minT minP R lo' hi' h st mx c mn sp :=
  ⟨hc.pulse, ⟨h1.trans hc.range.1, hc.range.2.1, hc.range.2.2.1, hc.range.2.2.2.trans_le h2⟩, hc.ticks, hc.rise, hc.tail, hc.passes⟩

theorem search_spec (n : Nat) (d : Nat → ℚ) (minT : Int) (minP : ℚ) (hT : 1 ≤ minT) (hP : 0 ≤ minP) (R : Nat) (fuel : Nat) :
    ∀ a b dT dP out, b - a < fuel → a < b → b ≤ n → ((dT, dP) = (minT, minP) ∨ (dT, dP) = (2, 0)) →
    ∃ new, search n d minT minP fuel a b (R + a) dT dP out = some (.ok (out ++ new)) ∧
      (∀ h ∈ new, ∃ st mx c mn sp, Cand n d minT minP R a b h st mx c mn sp) ∧ Ordered new := by
  induction fuel with
  | zero => intro a b dT dP out h; omega
  | succ fuel ih =>
    intro a b dT dP out hfuel hab hbn hthr
    obtain ⟨e1, e2, e3, e4⟩ := extremes_spec d hab
    rw [search, if_neg (by omega)]
    dsimp only
    generalize extremes d a b = p at e1 e2 e3 e4 ⊢
    obtain ⟨mx, mn⟩ := p
    simp only at e1 e2 e3 e4 ⊢
    have hdT : 1 ≤ dT ∧ 0 ≤ dP := by
      rcases hthr with h | h <;> (injection h with h1 h2; subst h1 h2; constructor <;> first | assumption | norm_num)
    have htr : ∀ m, 1 ≤ (thresholds minT minP m).1 ∧ (((thresholds minT minP m).1, (thresholds minT minP m).2) = (minT, minP) ∨
        ((thresholds minT minP m).1, (thresholds minT minP m).2) = (2, 0)) := by
      intro m
      cases m
      · exact ⟨hT, Or.inl rfl⟩
      · exact ⟨by simp [thresholds], Or.inr rfl⟩
    by_cases hc : dT ≤ (mn : Int) - mx ∧ dP < d mx - d mn
    swap
    · rw [if_neg hc]
      exact ⟨[], by simp, by simp, List.Pairwise.nil⟩
    rw [if_pos hc]
    have hlt : mx < mn := by
      have := hc.1
      omega
    obtain ⟨s1, s2, -, s4⟩ := findStart_spec d e1
    obtain ⟨t1, t2, t3⟩ := findStop_spec d e3
    generalize findStart d a mx = st at s1 s2 s4 ⊢
    generalize findStop d b mn = sp at t1 t2 t3 ⊢
    have hcand : Cand n d minT minP R a b (mkHit d a (R + a) (R + a + (st - a)) mx mn sp) st mx (peakOf d mx mn) mn sp := by
      refine ⟨mkHit_pulse d e1 hlt (by omega) e4, ⟨s1, s2, t1, t2⟩, ⟨?_, ?_⟩, fun k h1 h2 => (s4 k h1 h2).symm, t3, ?_⟩
      · simp only [mkHit]; omega
      · simp only [mkHit]; omega
      · rcases hthr with h | h <;> (injection h with h1 h2; subst h1 h2)
        · exact Or.inl hc
        · exact Or.inr ⟨by omega, by linarith [hc.2]⟩
    -- the left part
    have hleft : ∃ dT' new1,
        (if dT < (st : Int) - a then
            if st = 0 then some Res.ub
            else
              andThen (search n d minT minP fuel a (st + 1) (R + a) (thresholds minT minP (decide (0 < d (st - 1)))).1
                  (thresholds minT minP (decide (0 < d (st - 1)))).2 out) fun out1 =>
                some (.ok ((thresholds minT minP (decide (0 < d (st - 1)))).1, out1))
          else some (.ok (dT, out)) : Option (Res (Int × List Hit))) = some (.ok (dT', out ++ new1)) ∧ 1 ≤ dT' ∧
        (∀ h ∈ new1, ∃ st' mx c mn sp, Cand n d minT minP R a (st + 1) h st' mx c mn sp) ∧ Ordered new1 := by
      split
      · next h1 =>
        rw [if_neg (by omega)]
        obtain ⟨new1, g1, g2, g3⟩ := ih a (st + 1) _ _ out (by omega) (by omega) (by omega) (htr (decide (0 < d (st - 1)))).2
        exact ⟨_, new1, by rw [g1]; rfl, (htr _).1, g2, g3⟩
      · exact ⟨dT, [], by simp, hdT.1, by simp, List.Pairwise.nil⟩
    obtain ⟨dT', new1, g1, g2, g3, g4⟩ := hleft
    rw [g1]
    simp only [andThen]
    have hord : Ordered (new1 ++ [mkHit d a (R + a) (R + a + (st - a)) mx mn sp]) := by
      refine List.pairwise_append.2 ⟨g4, List.pairwise_singleton _ _, ?_⟩
      intro x hx y hy
      rw [List.mem_singleton.1 hy]
      obtain ⟨_, _, _, _, sp', hx'⟩ := g3 x hx
      rw [hx'.ticks.2, hcand.ticks.1]
      have := hx'.range
      omega
    split
    · next h1 =>
      rw [if_neg (by omega), show R + a + (sp - a) = R + sp by omega]
      obtain ⟨new2, k1, k2, k3⟩ := ih sp b _ _ (out ++ new1 ++ [mkHit d a (R + a) (R + a + (st - a)) mx mn sp]) (by omega)
        (by omega) hbn (htr (decide (d (sp + 1) < 0))).2
      refine ⟨new1 ++ [mkHit d a (R + a) (R + a + (st - a)) mx mn sp] ++ new2, by rw [k1]; simp, ?_, ?_⟩
      · intro h hh
        rcases List.mem_append.1 hh with hh | hh
        · rcases List.mem_append.1 hh with hh | hh
          · obtain ⟨_, _, _, _, _, g⟩ := g3 h hh
            exact ⟨_, _, _, _, _, g.widen (le_refl _) (by omega)⟩
          · rw [List.mem_singleton.1 hh]
            exact ⟨_, _, _, _, _, hcand⟩
        · obtain ⟨_, _, _, _, _, g⟩ := k2 h hh
          exact ⟨_, _, _, _, _, g.widen (by omega) (le_refl _)⟩
      · refine List.pairwise_append.2 ⟨hord, k3, ?_⟩
        intro x hx y hy
        obtain ⟨st', _, _, _, _, hy'⟩ := k2 y hy
        rw [hy'.ticks.1]
        have hr := hy'.range
        rcases List.mem_append.1 hx with hx | hx
        · obtain ⟨_, _, _, _, sp', hx'⟩ := g3 x hx
          rw [hx'.ticks.2]
          have := hx'.range
          omega
        · rw [List.mem_singleton.1 hx, hcand.ticks.2]
          omega
    · refine ⟨new1 ++ [mkHit d a (R + a) (R + a + (st - a)) mx mn sp], by simp, ?_, hord⟩
      intro h hh
      rcases List.mem_append.1 hh with hh | hh
      · obtain ⟨_, _, _, _, _, g⟩ := g3 h hh
        exact ⟨_, _, _, _, _, g.widen (le_refl _) (by omega)⟩
      · rw [List.mem_singleton.1 hh]
        exact ⟨_, _, _, _, _, hcand⟩

end Verif.CandShape

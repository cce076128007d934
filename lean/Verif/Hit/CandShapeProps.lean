import Verif.Hit.CandShapeProofs
import Mathlib.Tactic.IntervalCases
/-!
# Candidate hits from the derivative (C133) and their groups (C134)
-/
namespace Verif.CandShape
open Verif Verif.Wave Verif.CandHit

theorem smoothed_ok {w : List ℚ} (hw : w ≠ []) : ∃ d, smoothed w = .ok d ∧ d.length = w.length := by
  obtain ⟨r, h1, h2, -, -⟩ := C66_derivative_partial w [] hw
  unfold smoothed
  rw [h1, Res.bind]
  by_cases h4 : 4 < r.length
  · obtain ⟨s, h5, h6, -⟩ := C37_triangle r [] 0 h4 (by omega)
    exact ⟨s, h5, by omega⟩
  · exact ⟨r, C37_triangle_short r [] 0 (by omega), h2⟩

theorem floor_half (c : Nat) : ⌊((c : ℚ) + 1 / 2)⌋.toNat = c := by
  have : ⌊((c : ℚ) + 1 / 2)⌋ = (c : ℤ) := by
    rw [Int.floor_eq_iff]
    push_cast
    constructor <;> linarith
  rw [this]
  simp

theorem setHeights_ok {w : List ℚ} : ∀ {l : List Hit}, (∀ h ∈ l, ∃ c : Nat, h.hitCenter = (c : ℚ) + 1 / 2 ∧ c < w.length) →
    ∃ l', setHeights w l = .ok l' ∧ List.Forall₂ (fun h h' => h' = { h with hitHeight := h'.hitHeight } ∧
      w[⌊h.hitCenter⌋.toNat]? = some h'.hitHeight) l l' := by
  intro l
  induction l with
  | nil => intro _; exact ⟨[], rfl, List.Forall₂.nil⟩
  | cons h l ih =>
    intro hall
    obtain ⟨l', h1, h2⟩ := ih fun x hx => hall x (List.mem_cons_of_mem _ hx)
    obtain ⟨c, hc1, hc2⟩ := hall h (by simp)
    have hv : w[⌊h.hitCenter⌋.toNat]? = some w[c] := by
      rw [hc1, floor_half]
      exact List.getElem?_eq_getElem hc2
    refine ⟨{ h with hitHeight := w[c] } :: l', ?_, List.Forall₂.cons ⟨rfl, hv⟩ h2⟩
    rw [setHeights, hv]
    simp only
    rw [h1, Res.bind]

theorem forall2_mem {α β : Type} {P : α → β → Prop} {l : List α} {l' : List β} (h : List.Forall₂ P l l') :
    ∀ y ∈ l', ∃ x ∈ l, P x y := by
  induction h with
  | nil => simp
  | cons h1 _ ih =>
    intro y hy
    rcases List.mem_cons.1 hy with rfl | hy
    · exact ⟨_, by simp, h1⟩
    · obtain ⟨x, hx, hp⟩ := ih y hy
      exact ⟨x, List.mem_cons_of_mem _ hx, hp⟩

theorem forall2_mem_left {α β : Type} {P : α → β → Prop} {l : List α} {l' : List β} (h : List.Forall₂ P l l') :
    ∀ x ∈ l, ∃ y ∈ l', P x y := by
  induction h with
  | nil => simp
  | cons h1 _ ih =>
    intro y hy
    rcases List.mem_cons.1 hy with rfl | hy
    · exact ⟨_, by simp, h1⟩
    · obtain ⟨x, hx, hp⟩ := ih y hy
      exact ⟨x, List.mem_cons_of_mem _ hx, hp⟩

theorem forall2_ordered {l l' : List Hit} {P : Hit → Hit → Prop} (h : List.Forall₂ P l l')
    (hp : ∀ x y, P x y → y.startTick = x.startTick ∧ y.stopTick = x.stopTick) (ho : Ordered l) : Ordered l' := by
  induction h with
  | nil => exact List.Pairwise.nil
  | @cons a b l l' h1 h2 ih =>
    obtain ⟨g1, g2⟩ := List.pairwise_cons.1 ho
    refine List.pairwise_cons.2 ⟨?_, ih g2⟩
    intro y hy
    obtain ⟨x, hx, hxy⟩ := forall2_mem h2 y hy
    rw [(hp _ _ h1).2, (hp _ _ hxy).1]
    exact g1 x hx

/-- **C133.** With `MinDeltaTicks` at least 1 and `MinDeltaPeaks` not negative the derivative tool ends on every non-empty
region, reads nothing outside it, and gives candidates in time order that overlap at most in a boundary tick. In each, the
smoothed derivative rises (not negative) from the start to the maximum, falls to the minimum, rises (not positive) to the
stop; the centre is half a tick after a tick between maximum and minimum and the height is the sample of that tick. -/
theorem C133_candidates (w : List ℚ) (minT : Int) (minP : ℚ) (old : List Hit) (hT : 1 ≤ minT) (hP : 0 ≤ minP) (hw : w ≠ []) :
    ∃ d hits, smoothed w = .ok d ∧ d.length = w.length ∧ derivative w minT minP 0 old = some (.ok hits) ∧ Ordered hits ∧
      ∀ h ∈ hits, ∃ st mx c mn sp : Nat, Cand w.length (at' d) minT minP 0 0 w.length h st mx c mn sp ∧
        w[c]? = some h.hitHeight := by
  obtain ⟨d, hd1, hd2⟩ := smoothed_ok hw
  have hn : 0 < w.length := List.length_pos_iff.2 hw
  obtain ⟨new, h1, h2, h3⟩ := search_spec d.length (at' d) minT minP hT hP 0 (d.length + 1) 0 d.length minT minP []
    (by omega) (by omega) (le_refl _) (Or.inl rfl)
  have hc : ∀ h ∈ new, ∃ c : Nat, h.hitCenter = (c : ℚ) + 1 / 2 ∧ c < w.length := by
    intro h hh
    obtain ⟨st, mx, c, mn, sp, g⟩ := h2 h hh
    refine ⟨c, by rw [g.pulse.centre.1, Nat.zero_add], ?_⟩
    have := g.pulse.centre.2
    have := g.pulse.order
    omega
  obtain ⟨hits, k1, k2⟩ := setHeights_ok hc
  refine ⟨d, hits, hd1, hd2, ?_, ?_, ?_⟩
  · unfold derivative
    rw [hd1]
    simp only
    rw [h1]
    simp only [Option.map_some, Res.bind, List.nil_append, k1]
  · exact forall2_ordered k2 (fun x y hxy => by rw [hxy.1]; exact ⟨rfl, rfl⟩) h3
  · intro h' hh'
    obtain ⟨h, hh, he, hv⟩ := forall2_mem k2 h' hh'
    obtain ⟨st, mx, c, mn, sp, g⟩ := h2 h hh
    refine ⟨st, mx, c, mn, sp, ?_, ?_⟩
    · rw [he, ← hd2]
      exact ⟨⟨g.pulse.order, g.pulse.ticks, g.pulse.centre, g.pulse.sigma, g.pulse.values, g.pulse.fall, g.pulse.peak⟩, g.range, g.ticks,
        g.rise, g.tail, g.passes⟩
    · rw [g.pulse.centre.1, Nat.zero_add, floor_half] at hv
      exact hv

/-- two pulses, two candidates -/
example : (derivative [0, 0, 2, 6, 2, 0, 0, 0, 0, 3, 9, 3, 0, 0, 0] 1 (1 / 40) 0 []).map (fun r => r.bind fun l =>
    .ok (l.map fun h => ([h.startTick, h.maxTick, h.minTick, h.stopTick], h.hitCenter, h.hitHeight))) =
    some (.ok [([1, 1, 5, 6], 7 / 2, 6), ([7, 8, 12, 13], 21 / 2, 9)]) := by decide +kernel

/-- **C133, refuted for the default `MinDeltaTicks` of 0.** A pulse whose tail reaches the end of the region makes the tool
read one position after the end of the derivative. -/
theorem C133_default_refuted : derivative [0, 1, 3, 1, 0] 0 (1 / 40) 0 [] = some .ub := by decide +kernel

/-- **C133, refuted for negative `MinDeltaPeaks`.** The recursion never ends on a flat region of any length. -/
theorem C133_negative_peak_refuted (n : Nat) (hn : 2 ≤ n) (fuel : Nat) (out : List Hit) :
    search n (fun _ => 0) 0 (-1) fuel 0 n 0 0 (-1) out = none := by
  have hb : ∀ m, bestElt ltMin (fun _ => 0) 0 m = 0 := by
    intro m
    unfold bestElt
    generalize List.range' (0 + 1) (m - 1) = l
    induction l with
    | nil => rfl
    | cons x l ih => simp [ltMin]
  have he : extremes (fun _ => 0) 0 n = (0, 0) := by
    unfold extremes
    rw [if_neg (by simp)]
    simp [hb, nearestMax]
  have hst : findStart (fun _ => 0) 0 0 = 0 := by simp [findStart]
  have hsp : findStop (fun _ => 0) n 0 = 0 := by
    unfold findStop
    split
    · obtain ⟨k, hk⟩ : ∃ k, n - 0 = k + 1 := ⟨n - 1, by omega⟩
      rw [hk, stopLoop, if_neg (by omega), if_pos (by simp)]
    · rfl
  induction fuel generalizing out with
  | zero => rfl
  | succ fuel ih =>
    rw [search, if_neg (by omega)]
    simp only [he, hst, hsp]
    rw [if_pos (by norm_num), if_neg (by norm_num)]
    simp only [andThen]
    rw [if_pos (by omega), if_neg (by omega)]
    simp only [thresholds, lt_irrefl, decide_false, Bool.false_eq_true, if_false, Nat.zero_sub, Nat.add_zero]
    exact ih _

/-- **C133, refuted for a region that does not start at tick 0.** The centre is used as an index into the region: the tool
throws (region of 15 samples, start tick 100), or takes the height of another tick (start tick 3). -/
theorem C133_offset_refuted :
    derivative [0, 0, 2, 6, 2, 0, 0, 0, 0, 3, 9, 3, 0, 0, 0] 1 (1 / 40) 100 [] = some .throw ∧
    (derivative [0, 0, 2, 6, 2, 0, 0, 0, 0, 3, 9, 3, 0, 0, 0] 1 (1 / 40) 3 []).map (fun r => r.bind fun l =>
      .ok (l.map fun h => (h.hitCenter, h.hitHeight))) = some (.ok [(13 / 2, 0), (27 / 2, 0)]) := by
  constructor <;> decide +kernel

/-! ### The largest derivative is found -/

/-- `p` has the strictly largest absolute derivative -/
def Peak (n : Nat) (d : Nat → ℚ) (p : Nat) : Prop := p < n ∧ ∀ k, k < n → k ≠ p → |d k| < |d p|

theorem nearestMin_reaches {d : Nat → ℚ} {p q n k : Nat} (hp : p < n) (hq : q < n) (hpq : p ≤ q) (hf : Falling d p q) (hk : n - p ≤ k) :
    q ≤ nearestMin d n k p ∧ d (nearestMin d n k p) ≤ d q := by
  obtain ⟨h1, h2, h3, h4⟩ := nearestMin_spec d n k p hp hk
  have hle : q ≤ nearestMin d n k p := by
    by_contra hc
    push Not at hc
    rcases h4 with h4 | h4
    · omega
    · exact absurd (hf _ h1 hc) (not_le.2 h4)
  refine ⟨hle, ?_⟩
  have : ∀ j, q ≤ j → j ≤ nearestMin d n k p → d j ≤ d q := by
    intro j hj
    induction j, hj using Nat.le_induction with
    | base => intro _; exact le_refl _
    | succ j hj ih => intro h5; exact (h3 j (by omega) (by omega)).trans (ih (by omega))
  exact this _ hle (le_refl _)

theorem nearestMax_reaches {d : Nat → ℚ} {p q : Nat} (hq : 1 ≤ q) (hpq : q ≤ p) (hf : Falling d q p) :
    nearestMax d 0 p ≤ q ∧ d q ≤ d (nearestMax d 0 p) := by
  unfold nearestMax
  rw [if_pos (by omega)]
  obtain ⟨h1, h2, h3, h4⟩ := nearestMaxLoop_spec d 0 (p - 0) p (by omega) (le_refl _)
  generalize nearestMaxLoop d 0 (p - 0) p = r at h1 h2 h3 h4 ⊢
  have hle : r ≤ q := by
    by_contra hc
    push Not at hc
    rcases h4 with h4 | h4
    · omega
    · have := hf (r - 1) (by omega) (by omega)
      rw [show r - 1 + 1 = r by omega] at this
      exact absurd this (not_le.2 h4)
  refine ⟨hle, ?_⟩
  have : ∀ j, r ≤ j → j ≤ q → d j ≤ d r := by
    intro j hj
    induction j, hj using Nat.le_induction with
    | base => intro _; exact le_refl _
    | succ j hj ih => intro h5; exact (h3 j (by omega) (by omega)).trans (ih (by omega))
  exact this _ hle (le_refl _)

theorem extremes_peak_max {n : Nat} {d : Nat → ℚ} {p q : Nat} (hp : Peak n d p) (hpos : 0 < d p) (hpq : p < q) (hq : q < n) :
    (extremes d 0 n).1 = p ∧ (extremes d 0 n).2 = nearestMin d n (n - p) p := by
  have h1 := lastElt_best strict_max d 0 (n - 0) (by omega)
  have h2 := bestElt_best strict_min d 0 (n - 0) (by omega)
  have e1 : lastElt ltMax d 0 (n - 0) = p := by
    by_contra hc
    have hlt := h1.2.1
    have h3 := hp.2 _ (by omega) hc
    have h4 := h1.2.2 p (by omega) (by omega)
    simp only [ltMax, decide_eq_false_iff_not, not_lt] at h4
    rw [abs_of_pos hpos] at h3
    exact absurd (lt_of_le_of_lt (le_abs_self _) h3) (not_lt.2 h4)
  have e2 : |d (bestElt ltMin d 0 (n - 0))| < |d p| := by
    have hlt := h2.2.1
    refine hp.2 _ (by omega) ?_
    intro hc
    have h4 := h2.2.2 q (by omega) (by omega)
    simp only [ltMin, decide_eq_false_iff_not, not_lt, hc] at h4
    have h3 := hp.2 q hq (by omega)
    rw [abs_of_pos hpos] at h3
    exact absurd (lt_of_le_of_lt (le_abs_self _) h3) (not_lt.2 h4)
  unfold extremes
  rw [e1, if_pos e2]
  exact ⟨rfl, rfl⟩

theorem extremes_peak_min {n : Nat} {d : Nat → ℚ} {p : Nat} (hp : Peak n d p) (hneg : d p < 0) :
    (extremes d 0 n).2 = p ∧ (extremes d 0 n).1 = nearestMax d 0 p := by
  have h1 := lastElt_best strict_max d 0 (n - 0) (by have := hp.1; omega)
  have h2 := bestElt_best strict_min d 0 (n - 0) (by have := hp.1; omega)
  have hpn := hp.1
  have e2 : bestElt ltMin d 0 (n - 0) = p := by
    by_contra hc
    have hlt := h2.2.1
    have h3 := hp.2 _ (by omega) hc
    have h4 := h2.2.2 p (by omega) (by omega)
    simp only [ltMin, decide_eq_false_iff_not, not_lt] at h4
    rw [abs_of_neg hneg] at h3
    have := neg_abs_le (d (bestElt ltMin d 0 (n - 0)))
    linarith
  have e1 : ¬ |d p| < |d (lastElt ltMax d 0 (n - 0))| := by
    have hlt := h1.2.1
    by_cases hc : lastElt ltMax d 0 (n - 0) = p
    · rw [hc]; exact lt_irrefl _
    · exact not_lt.2 (hp.2 _ (by omega) hc).le
  unfold extremes
  rw [e2, if_neg e1]
  exact ⟨rfl, rfl⟩

/-- the first pair is among the candidates if it meets the thresholds -/
theorem search_first {n : Nat} {d : Nat → ℚ} {minT : Int} {minP : ℚ} (hT : 1 ≤ minT) (hP : 0 ≤ minP) (hn : 0 < n) {fuel : Nat}
    (hfuel : n < fuel) (h1 : minT ≤ ((extremes d 0 n).2 : Int) - (extremes d 0 n).1)
    (h2 : minP < d (extremes d 0 n).1 - d (extremes d 0 n).2) {new : List Hit}
    (h : search n d minT minP fuel 0 n 0 minT minP [] = some (.ok new)) :
    ∃ h ∈ new, (h.maxTick = (extremes d 0 n).1 ∧ h.minTick = (extremes d 0 n).2) ∧ StartsAt d 0 h.startTick ∧
      StopsAt d n h.stopTick := by
  obtain ⟨e1, e2, e3, e4⟩ := extremes_spec d hn
  obtain ⟨fuel, rfl⟩ : ∃ k, fuel = k + 1 := ⟨fuel - 1, by omega⟩
  rw [search, if_neg (by omega)] at h
  simp only at h
  rw [if_pos ⟨h1, h2⟩] at h
  generalize extremes d 0 n = p at *
  obtain ⟨mx, mn⟩ := p
  simp only at *
  obtain ⟨s1, s2, -, -⟩ := findStart_spec d e1
  obtain ⟨t1, t2, -⟩ := findStop_spec d e3
  have hs := findStart_at d (start := 0) (m := mx)
  have ht := findStop_at d e3
  generalize findStart d 0 mx = st at *
  generalize findStop d n mn = sp at *
  generalize (if minT < (st : Int) - (0 : Nat) then _ else _ : Option (Res (Int × List Hit))) = left at h
  have key : ∀ l : List Hit, ∃ h ∈ l ++ [mkHit d 0 0 (0 + (st - 0)) mx mn sp], (h.maxTick = mx ∧ h.minTick = mn) ∧
      StartsAt d 0 h.startTick ∧ StopsAt d n h.stopTick :=
    fun l => ⟨mkHit d 0 0 (0 + (st - 0)) mx mn sp, by simp, ⟨by simp [mkHit], by simp [mkHit]⟩,
      by simpa [mkHit] using hs, by simpa [mkHit] using ht⟩
  match left, h with
  | some (.ok r), h =>
    simp only [andThen] at h
    split at h
    · split at h
      · cases h
      · have htr : ∀ m, (((thresholds minT minP m).1, (thresholds minT minP m).2) = (minT, minP) ∨
            ((thresholds minT minP m).1, (thresholds minT minP m).2) = (2, 0)) := by
          intro m
          cases m
          · exact Or.inl rfl
          · exact Or.inr rfl
        obtain ⟨new2, g1, -, -⟩ := search_spec n d minT minP hT hP 0 fuel sp n _ _
          (r.2 ++ [mkHit d 0 0 (0 + (st - 0)) mx mn sp]) (by omega) t2 (le_refl _) (htr (decide (d (sp + 1) < 0)))
        rw [show 0 + sp = 0 + (sp - 0) by omega] at g1
        rw [g1] at h
        cases h
        obtain ⟨x, hx, hx2⟩ := key r.2
        exact ⟨x, List.mem_append_left _ hx, hx2⟩
    · cases h
      exact key r.2

/-- **C133.** If one tick has the strictly largest absolute derivative and the derivative falls far and long enough from it
(or, if it is negative, to it), the tick is the maximum (minimum) of a candidate, whose start and stop are as far out as
the rises go. -/
theorem C133_largest {w d : List ℚ} {minT : Int} {minP : ℚ} {old hits : List Hit} (hT : 1 ≤ minT) (hP : 0 ≤ minP)
    (hd : smoothed w = .ok d) (h : derivative w minT minP 0 old = some (.ok hits)) {p q : Nat} (hp : Peak d.length (at' d) p) :
    (0 < at' d p → p ≤ q → q < d.length → Falling (at' d) p q → minT ≤ (q : Int) - p → minP < at' d p - at' d q →
      ∃ h ∈ hits, h.maxTick = p ∧ StartsAt (at' d) 0 h.startTick ∧ StopsAt (at' d) d.length h.stopTick) ∧
    (at' d p < 0 → 1 ≤ q → q ≤ p → Falling (at' d) q p → minT ≤ (p : Int) - q → minP < at' d q - at' d p →
      ∃ h ∈ hits, h.minTick = p ∧ StartsAt (at' d) 0 h.startTick ∧ StopsAt (at' d) d.length h.stopTick) := by
  have hpn := hp.1
  obtain ⟨new, h1, h2, -⟩ := search_spec d.length (at' d) minT minP hT hP 0 (d.length + 1) 0 d.length minT minP []
    (by omega) (by omega) (le_refl _) (Or.inl rfl)
  have hw2 : setHeights w new = .ok hits := by
    unfold derivative at h
    rw [hd] at h
    simp only at h
    rw [h1] at h
    simpa [Res.bind] using h
  rw [Nat.add_zero, List.nil_append] at h1
  have key : ∀ {l l' : List Hit}, setHeights w l = .ok l' → ∀ x ∈ l, ∃ y ∈ l', y = { x with hitHeight := y.hitHeight } := by
    intro l
    induction l with
    | nil => simp
    | cons a l ih =>
      intro l' hl x hx
      rw [setHeights] at hl
      split at hl
      · next v hv =>
        cases hr : setHeights w l with
        | throw => rw [hr] at hl; cases hl
        | ub => rw [hr] at hl; cases hl
        | ok r =>
          rw [hr, Res.bind] at hl
          cases hl
          rcases List.mem_cons.1 hx with rfl | hx
          · exact ⟨_, List.mem_cons_self, rfl⟩
          · obtain ⟨y, hy, hy2⟩ := ih hr x hx
            exact ⟨y, List.mem_cons_of_mem _ hy, hy2⟩
      · cases hl
  constructor
  · intro hpos hpq hq hf ht hm
    obtain ⟨e1, e2⟩ := extremes_peak_max hp hpos (show p < q by omega) hq
    obtain ⟨r1, r2⟩ := nearestMin_reaches (k := d.length - p) hpn hq hpq hf (le_refl _)
    obtain ⟨x, hx, ⟨hx2, -⟩, hx3, hx4⟩ := search_first hT hP (by omega) (by omega) (by rw [e1, e2]; omega) (by rw [e1, e2]; linarith) h1
    obtain ⟨y, hy, hy2⟩ := key hw2 x hx
    refine ⟨y, hy, ?_⟩
    rw [hy2]
    exact ⟨by rw [← e1]; exact hx2, hx3, hx4⟩
  · intro hneg hq hpq hf ht hm
    obtain ⟨e1, e2⟩ := extremes_peak_min hp hneg
    obtain ⟨r1, r2⟩ := nearestMax_reaches hq hpq hf
    obtain ⟨x, hx, ⟨-, hx2⟩, hx3, hx4⟩ := search_first hT hP (by omega) (by omega) (by rw [e1, e2]; omega) (by rw [e1, e2]; linarith) h1
    obtain ⟨y, hy, hy2⟩ := key hw2 x hx
    refine ⟨y, hy, ?_⟩
    rw [hy2]
    exact ⟨by rw [← e1]; exact hx2, hx3, hx4⟩

/-- the derivative of this pulse is largest at tick 2 and falls to tick 3 -/
example : Peak 5 (at' [0, 1, 3, 0, -1]) 2 ∧ Falling (at' [0, 1, 3, 0, -1]) 2 4 := by
  constructor
  · refine ⟨by omega, fun k h1 h2 => ?_⟩
    interval_cases k <;> first | omega | (simp only [at', List.getD]; decide +kernel)
  · intro k h1 h2
    interval_cases k <;> (simp only [at', List.getD]; decide +kernel)

/-! ### C134: groups -/

/-- the hits in order, cut into non-empty groups exactly where the next start is more than `num` ticks after the stop -/
structure Grouped (num : Nat) (kept : List Hit) (gs : List (List Hit)) : Prop where
  join : gs.flatten = kept
  ne : ∀ g ∈ gs, g ≠ []
  close : ∀ g ∈ gs, g.IsChain fun x y => y.startTick ≤ x.stopTick + num
  far : gs.IsChain fun g g' => ∀ x ∈ g.getLast?, ∀ y ∈ g'.head?, x.stopTick + num < y.startTick

theorem groupLoop_spec (minH : ℚ) (num : Nat) (hs : List Hit) : ∀ (g : List Hit) (last : Nat) (merged : List (List Hit)),
    (∀ x ∈ g.getLast?, x.stopTick = last) → (g.IsChain fun x y => y.startTick ≤ x.stopTick + num) →
    ∃ gs, groupLoop minH num hs g last merged = merged ++ gs ∧
      Grouped num (g ++ hs.filter fun h => decide (minH < h.hitHeight)) gs ∧
      (∀ x ∈ g.head?, ∃ g' ∈ gs.head?, g'.head? = some x) := by
  induction hs with
  | nil =>
    intro g last merged hl hc
    rw [groupLoop]
    split
    · next h => subst h; exact ⟨[], by simp, ⟨rfl, by simp, by simp, List.IsChain.nil⟩, by simp⟩
    · next h =>
      refine ⟨[g], rfl, ⟨by simp, by simpa using h, by simpa using hc, List.IsChain.singleton _⟩, ?_⟩
      intro x hx
      exact ⟨g, rfl, hx⟩
  | cons h hs ih =>
    intro g last merged hl hc
    rw [groupLoop]
    split
    · next hh =>
      rw [List.filter_cons_of_pos (by simpa using hh)]
      split
      · next hf =>
        obtain ⟨gs, g1, g2, g3⟩ := ih [h] h.stopTick (merged ++ [g]) (by simp) (List.IsChain.singleton _)
        refine ⟨g :: gs, by rw [g1]; simp, ⟨?_, ?_, ?_, ?_⟩, ?_⟩
        · rw [List.flatten_cons, g2.join]; simp
        · intro x hx
          rcases List.mem_cons.1 hx with rfl | hx
          · exact hf.2
          · exact g2.ne x hx
        · intro x hx
          rcases List.mem_cons.1 hx with rfl | hx
          · exact hc
          · exact g2.close x hx
        · refine List.isChain_cons.2 ⟨?_, g2.far⟩
          intro g' hg' x hx y hy
          obtain ⟨g'', h1, h2⟩ := g3 h rfl
          rw [Option.mem_def] at h1 hg'
          rw [h1] at hg'
          cases hg'
          rw [Option.mem_def, h2] at hy
          cases hy
          rw [hl x hx]
          exact hf.1
        · intro x hx
          exact ⟨g, rfl, hx⟩
      · next hf =>
        obtain ⟨gs, g1, g2, g3⟩ := ih (g ++ [h]) h.stopTick merged (by simp) (by
          refine List.isChain_append.2 ⟨hc, List.IsChain.singleton _, ?_⟩
          intro x hx y hy
          cases hy
          rw [hl x hx]
          by_contra hcon
          refine hf ⟨by omega, ?_⟩
          rintro rfl
          simp at hx)
        refine ⟨gs, g1, ⟨by rw [g2.join]; simp, g2.ne, g2.close, g2.far⟩, ?_⟩
        intro x hx
        exact g3 x (by
          rw [Option.mem_def, List.head?_append, hx]
          rfl)
    · next hh =>
      rw [List.filter_cons_of_neg (by simpa using hh)]
      exact ih g last merged hl hc

/-- **C134.** The groups appended by `MergeHitCandidates` (both tools) are the candidates above the minimal height, in order,
cut exactly where the next start is more than `NumInterveningTicks` after the stop before. -/
theorem C134_groups (minH : ℚ) (num : Nat) (hits : List Hit) (merged : List (List Hit)) :
    ∃ gs, mergeHits minH num hits merged = merged ++ gs ∧ Grouped num (hits.filter fun h => decide (minH < h.hitHeight)) gs := by
  cases hits with
  | nil => exact ⟨[], by simp [mergeHits], ⟨rfl, by simp, by simp, List.IsChain.nil⟩⟩
  | cons h hs =>
    obtain ⟨gs, g1, g2, -⟩ := groupLoop_spec minH num (h :: hs) [] h.stopTick merged (by simp) List.IsChain.nil
    exact ⟨gs, g1, g2⟩

/-- three candidates, the second too low: two groups -/
example : mergeHits 2 6 [⟨0, 5, 1, 4, 1, -1, 2, 1, 9⟩, ⟨5, 9, 6, 8, 1, -1, 7, 1, 1⟩, ⟨12, 20, 13, 18, 1, -1, 15, 2, 9⟩] [] =
    [[⟨0, 5, 1, 4, 1, -1, 2, 1, 9⟩], [⟨12, 20, 13, 18, 1, -1, 15, 2, 9⟩]] := by decide +kernel

end Verif.CandShape

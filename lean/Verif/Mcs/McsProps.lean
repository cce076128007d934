import Verif.Mcs.McsModel
import Mathlib.Algebra.BigOperators.Group.List.Basic
import Mathlib.Algebra.Order.BigOperators.Group.List
import Mathlib.Algebra.Order.Field.Rat
import Mathlib.Algebra.Order.Archimedean.Basic
import Mathlib.Data.Rat.Floor
import Mathlib.Tactic.FieldSimp
import Mathlib.Tactic.NormNum
/-! # Properties C165–C168: the multiple-scattering momentum fit -/
namespace Verif.Mcs
open Verif

section
variable {R : Type} [Field R] [LinearOrder R] [IsStrictOrderedRing R]

/-! ## Specification -/

/-- `g` is the grid of momenta `pmin, pmin + step, …` up to `pmax` -/
structure IsGrid (pmin pmax step : R) (g : List R) : Prop where
  at_ : ∀ (k : Nat) (p : R), g[k]? = some p → p = pmin + k * step
  le : ∀ p ∈ g, p ≤ pmax
  all : ∀ k : Nat, pmin + k * step ≤ pmax → k < g.length

/-- `u` is the distance to the nearest of `n` neighbours at which `rise` holds, or -1 -/
def SideUnc (rise : Nat → Prop) (n : Nat) (step u : R) : Prop :=
  (∃ k, 1 ≤ k ∧ k ≤ n ∧ rise k ∧ (∀ j, 1 ≤ j → j < k → ¬ rise j) ∧ u = k * step) ∨
  ((∀ k, 1 ≤ k → k ≤ n → ¬ rise k) ∧ u = -1)

/-- what a scan of the grid `g` must return: the first momentum of least negative log-likelihood, and the larger of the
two one-sided uncertainties (distance to the nearest momentum where it is at least 0.5 above the minimum) -/
structure ScanSpec (L : R → R) (step : R) (g : List R) (i : Nat) (r : ScanRes R) : Prop where
  at_ : g[i]? = some r.p
  val : r.logL = L r.p
  least : ∀ p ∈ g, L r.p ≤ L p
  first : ∀ (j : Nat) (p : R), j < i → g[j]? = some p → L r.p < L p
  unc : ∃ lu ru, SideUnc (fun k => L r.p + 1 / 2 ≤ L ((g[i - k]?).getD 0)) i step lu ∧
    SideUnc (fun k => L r.p + 1 / 2 ≤ L ((g[i + k]?).getD 0)) (g.length - (i + 1)) step ru ∧ r.pUnc = max lu ru

/-! ## Lemmas -/

theorem gridLoop_spec (pmax step : R) (f : Nat) (p : R) (g : List R) (hs : 0 < step)
    (h : gridLoop pmax step f p = some g) : IsGrid p pmax step g := by
  induction f generalizing p g with
  | zero => simp [gridLoop] at h
  | succ f ih =>
    unfold gridLoop at h
    split at h
    · rename_i hp
      simp only [Option.map_eq_some_iff] at h
      obtain ⟨g', hg', rfl⟩ := h
      have := ih _ _ hg'
      refine ⟨?_, ?_, ?_⟩
      · intro k q hk
        cases k with
        | zero => simp at hk; simp [hk]
        | succ k =>
          rw [List.getElem?_cons_succ] at hk
          rw [this.at_ k q hk]; push_cast; ring
      · intro q hq
        rcases List.mem_cons.1 hq with rfl | hq
        · exact hp
        · exact this.le q hq
      · intro k hk
        cases k with
        | zero => simp
        | succ k =>
          have := this.all k (by push_cast at hk; linarith)
          simp; omega
    · rename_i hp
      simp at h; subst h
      refine ⟨by simp, by simp, ?_⟩
      intro k hk
      exfalso
      apply hp
      have : (0 : R) ≤ k * step := mul_nonneg (Nat.cast_nonneg k) hs.le
      linarith

theorem gridLoop_terminates [Archimedean R] (pmax step p : R) (hs : 0 < step) :
    ∃ f0, ∀ f, f0 ≤ f → ∃ g, gridLoop pmax step f p = some g := by
  obtain ⟨n, hn⟩ := Archimedean.arch (pmax - p) hs
  rw [nsmul_eq_mul] at hn
  have key : ∀ n : Nat, ∀ p : R, pmax - p ≤ n * step → ∀ f, n + 2 ≤ f → ∃ g, gridLoop pmax step f p = some g := by
    intro n
    induction n with
    | zero =>
      intro p hp f hf
      obtain ⟨f, rfl⟩ : ∃ f', f = f' + 2 := ⟨f - 2, by omega⟩
      unfold gridLoop
      split
      · unfold gridLoop
        have : ¬ p + step ≤ pmax := by push_cast at hp; intro h; linarith
        rw [if_neg this]; simp
      · exact ⟨_, rfl⟩
    | succ n ih =>
      intro p hp f hf
      obtain ⟨f, rfl⟩ : ∃ f', f = f' + 1 := ⟨f - 1, by omega⟩
      unfold gridLoop
      split
      · obtain ⟨g, hg⟩ := ih (p + step) (by push_cast at hp; linarith) f (by omega)
        rw [hg]; exact ⟨_, rfl⟩
      · exact ⟨_, rfl⟩
  exact ⟨n + 2, fun f hf => key n p hn f hf⟩

theorem gridLoop_mono (pmax step : R) (f f' : Nat) (hf : f ≤ f') (p : R) (g : List R)
    (h : gridLoop pmax step f p = some g) : gridLoop pmax step f' p = some g := by
  induction f generalizing p g f' with
  | zero => simp [gridLoop] at h
  | succ f ih =>
    obtain ⟨f', rfl⟩ : ∃ k, f' = k + 1 := ⟨f' - 1, by omega⟩
    unfold gridLoop at h ⊢
    split
    · rename_i hp
      rw [if_pos hp] at h
      simp only [Option.map_eq_some_iff] at h
      obtain ⟨g', hg', rfl⟩ := h
      rw [ih f' (by omega) _ _ hg']; rfl
    · rename_i hp
      rw [if_neg hp] at h; exact h

/-- invariant of the scan loop, with already scanned momenta `pre` -/
structure BestInv (L : R → R) (big : R) (pre : List R) (b : Best R) : Prop where
  none_ : b.idx = none → b.p = -1 ∧ b.logL = big ∧ ∀ p ∈ pre, big ≤ L p
  some_ : ∀ i, b.idx = some i → pre[i]? = some b.p ∧ b.logL = L b.p ∧ L b.p < big ∧ (∀ p ∈ pre, L b.p ≤ L p) ∧
    ∀ (j : Nat) (p : R), j < i → pre[j]? = some p → L b.p < L p

theorem bestLoop_inv (L : R → R) (big : R) (ps pre : List R) (b : Best R) (h : BestInv L big pre b) :
    BestInv L big (pre ++ ps) (bestLoop L ps pre.length b) := by
  induction ps generalizing pre b with
  | nil => simpa [bestLoop] using h
  | cons p ps ih =>
    unfold bestLoop
    have e : pre ++ p :: ps = (pre ++ [p]) ++ ps := by simp
    have el : pre.length + 1 = (pre ++ [p]).length := by simp
    rw [e, el]
    apply ih
    split
    · rename_i hlt
      refine ⟨by simp, ?_⟩
      intro i hi
      simp at hi; subst hi
      dsimp only
      have hall : ∀ q ∈ pre, L p < L q := by
        intro q hq
        cases hb : b.idx with
        | none => have := h.none_ hb; rw [this.2.1] at hlt; exact lt_of_lt_of_le hlt (this.2.2 q hq)
        | some i =>
          obtain ⟨_, h2, _, h4, _⟩ := h.some_ i hb
          rw [h2] at hlt
          exact lt_of_lt_of_le hlt (h4 q hq)
      refine ⟨by simp, rfl, ?_, ?_, ?_⟩
      · cases hb : b.idx with
        | none => rw [(h.none_ hb).2.1] at hlt; exact hlt
        | some i => obtain ⟨_, h2, h3, _⟩ := h.some_ i hb; rw [h2] at hlt; exact hlt.trans h3
      · intro q hq
        rcases List.mem_append.1 hq with hq | hq
        · exact (hall q hq).le
        · simp at hq; rw [hq]
      · intro j q hj hq
        rw [List.getElem?_append_left hj] at hq
        exact hall q (List.mem_of_getElem? hq)
    · rename_i hlt
      have hlt := not_lt.1 hlt
      refine ⟨?_, ?_⟩
      · intro hb
        obtain ⟨h1, h2, h3⟩ := h.none_ hb
        refine ⟨h1, h2, ?_⟩
        intro q hq
        rcases List.mem_append.1 hq with hq | hq
        · exact h3 q hq
        · simp at hq; rw [hq, ← h2]; exact hlt
      · intro i hb
        obtain ⟨h1, h2, h3, h4, h5⟩ := h.some_ i hb
        have hil : i < pre.length := (List.getElem?_eq_some_iff.1 h1).1
        refine ⟨by rw [List.getElem?_append_left hil]; exact h1, h2, h3, ?_, ?_⟩
        · intro q hq
          rcases List.mem_append.1 hq with hq | hq
          · exact h4 q hq
          · simp at hq; rw [hq, ← h2]; exact hlt
        · intro j q hj hq
          rw [List.getElem?_append_left (by omega)] at hq
          exact h5 j q hj hq

theorem leftLoop_spec (v : Nat → R) (b : Nat) (step : R) (j : Nat) (hj : j ≤ b)
    (hno : ∀ k, 1 ≤ k → k ≤ b - j → ¬ v b + 1 / 2 ≤ v (b - k)) :
    SideUnc (fun k => v b + 1 / 2 ≤ v (b - k)) b step (leftLoop v b step j) := by
  induction j with
  | zero => exact .inr ⟨fun k h1 h2 => hno k h1 (by omega), rfl⟩
  | succ j ih =>
    unfold leftLoop
    have e : b - (b - j) = j := by omega
    split
    · rename_i h
      refine .inl ⟨b - j, by omega, by omega, ?_, ?_, rfl⟩
      · show v b + 1 / 2 ≤ v (b - (b - j)); rw [e]; linarith
      · intro k h1 h2; exact hno k h1 (by omega)
    · rename_i h
      apply ih (by omega)
      intro k h1 h2
      rcases Nat.lt_or_ge k (b - j) with h3 | h3
      · exact hno k h1 (by omega)
      · have : k = b - j := by omega
        subst this
        rw [e]; intro hc; exact h (by linarith)

theorem rightLoop_spec (v : Nat → R) (b : Nat) (step : R) (n j tot : Nat) (hj : b + 1 ≤ j) (ht : tot = n + (j - (b + 1)))
    (hno : ∀ k, 1 ≤ k → b + k < j → ¬ v b + 1 / 2 ≤ v (b + k)) :
    SideUnc (fun k => v b + 1 / 2 ≤ v (b + k)) tot step (rightLoop v b step n j) := by
  induction n generalizing j with
  | zero => exact .inr ⟨fun k h1 h2 => hno k h1 (by omega), rfl⟩
  | succ n ih =>
    unfold rightLoop
    have e : b + (j - b) = j := by omega
    split
    · rename_i h
      refine .inl ⟨j - b, by omega, by omega, ?_, ?_, rfl⟩
      · show v b + 1 / 2 ≤ v (b + (j - b)); rw [e]; linarith
      · intro k h1 h2; exact hno k h1 (by omega)
    · rename_i h
      apply ih (j + 1) (by omega) (by omega)
      intro k h1 h2
      rcases Nat.lt_or_ge (b + k) j with h3 | h3
      · exact hno k h1 h3
      · have : b + k = j := by omega
        rw [this]; intro hc; exact h (by linarith)

theorem scan_cases (L : R → R) (big pmin pmax step : R) (fuel : Nat) (g : List R)
    (hg : gridLoop pmax step fuel pmin = some g) :
    ((∃ p ∈ g, L p < big) → ∃ i r, scan L big pmin pmax step fuel = some (.ok r) ∧ ScanSpec L step g i r ∧ r.logL < big) ∧
    ((∀ p ∈ g, big ≤ L p) → scan L big pmin pmax step fuel = if g = [] then some (.ok ⟨-1, -1, big⟩) else some .ub) := by
  have hinv := bestLoop_inv L big g [] ⟨none, -1, big⟩ ⟨fun _ => ⟨rfl, rfl, by simp⟩, by simp⟩
  simp only [List.nil_append, List.length_nil] at hinv
  have hscan : scan L big pmin pmax step fuel = 
      (match (bestLoop L g 0 ⟨none, -1, big⟩).idx with
      | none => if g.length = 0 then some (.ok ⟨(bestLoop L g 0 ⟨none, -1, big⟩).p, max (-1) (-1), (bestLoop L g 0 ⟨none, -1, big⟩).logL⟩) else some .ub
      | some i => some (.ok ⟨(bestLoop L g 0 ⟨none, -1, big⟩).p,
          max (leftLoop (fun k => L ((g[k]?).getD 0)) i step i)
            (rightLoop (fun k => L ((g[k]?).getD 0)) i step (g.length - (i + 1)) (i + 1)), (bestLoop L g 0 ⟨none, -1, big⟩).logL⟩)) := by
    unfold scan; rw [hg]; rfl
  generalize bestLoop L g 0 ⟨none, -1, big⟩ = b at hinv hscan
  constructor
  · rintro ⟨p, hp, hlt⟩
    cases hb : b.idx with
    | none => exact absurd ((hinv.none_ hb).2.2 p hp) (not_le.2 hlt)
    | some i =>
      obtain ⟨h1, h2, h3, h4, h5⟩ := hinv.some_ i hb
      rw [hb] at hscan
      refine ⟨i, _, hscan, ⟨h1, h2, h4, h5, ?_⟩, by rw [h2]; exact h3⟩
      dsimp only
      have hv : L ((g[i]?).getD 0) = L b.p := by rw [h1]; rfl
      have hl := leftLoop_spec (fun k => L ((g[k]?).getD 0)) i step i (le_refl _) (by intro k a c; omega)
      have hr := rightLoop_spec (fun k => L ((g[k]?).getD 0)) i step (g.length - (i + 1)) (i + 1) (g.length - (i + 1))
        (le_refl _) (by omega) (by intro k a c; omega)
      rw [hv] at hl hr
      exact ⟨_, _, hl, hr, rfl⟩
  · intro hall
    cases hb : b.idx with
    | none =>
      obtain ⟨h1, h2, _⟩ := hinv.none_ hb
      rw [hb] at hscan
      rw [hscan, h1, h2]
      simp only [List.length_eq_zero_iff, max_self]
    | some i =>
      obtain ⟨h1, _, h3, _⟩ := hinv.some_ i hb
      exact absurd (hall _ (List.mem_of_getElem? h1)) (not_le.2 h3)

/-! ## Property theorems -/

/-- **C165** For every likelihood function and positive step the scan ends, and if at least one scanned momentum has a
finite likelihood it returns the first momentum of least negative log-likelihood on the grid
`pmin, pmin + step, … ≤ pmax`, with the larger of the two one-sided uncertainties. -/
theorem C165_scan_finds_minimum [Archimedean R] (L : R → R) (big pmin pmax step : R) (hs : 0 < step) :
    ∃ fuel0, ∀ fuel, fuel0 ≤ fuel → ∃ g, IsGrid pmin pmax step g ∧
      ((∃ p ∈ g, L p < big) → ∃ i r, scan L big pmin pmax step fuel = some (.ok r) ∧ ScanSpec L step g i r) := by
  obtain ⟨f0, hf⟩ := gridLoop_terminates pmax step pmin hs
  refine ⟨f0, fun f h => ?_⟩
  obtain ⟨g, hg⟩ := hf f h
  refine ⟨g, gridLoop_spec pmax step f pmin g hs hg, ?_⟩
  intro hex
  obtain ⟨i, r, h1, h2, _⟩ := (scan_cases L big pmin pmax step f g hg).1 hex
  exact ⟨i, r, h1, h2⟩

/-- **C166 (partial)** The two-stage scan. If some coarse momentum has a finite likelihood, the coarse step is a
multiple of the fine step and the coarse scan found an uncertainty (a rise of 0.5 on at least one side), then the result
lies in `[pMin, pMax]`, is at most twice that uncertainty away from the coarse optimum, and is at least as likely as
*every* momentum of the coarse scan. Missing: coarse scans without uncertainty
(`C166_no_uncertainty_refuted`) and without any finite likelihood (`C166_all_rejected_refuted`). -/
theorem C166_two_stage_partial [Archimedean R] (L : R → R) (big : R) (c : ScanCfg R) (hf : 0 < c.fine) (m : Nat) (hm : 0 < m)
    (hc : c.coarse = m * c.fine) :
    ∃ fuel0, ∀ fuel, fuel0 ≤ fuel → ∃ g, IsGrid c.pMin c.pMax c.coarse g ∧
      ((∃ p ∈ g, L p < big) → ∃ i rc, scan L big c.pMin c.pMax c.coarse fuel = some (.ok rc) ∧ ScanSpec L c.coarse g i rc ∧
        (0 ≤ rc.pUnc → rc.pUnc < big - 1 → 
          ∃ fuel1, ∀ fuel', fuel1 ≤ fuel' → ∃ r, twoStage L big c fuel' = some (.ok r) ∧ r.logL = L r.p ∧
            c.pMin ≤ r.p ∧ r.p ≤ c.pMax ∧ rc.p - 2 * rc.pUnc ≤ r.p ∧ r.p ≤ rc.p + 2 * rc.pUnc ∧
            ∀ p ∈ g, L r.p ≤ L p)) := by
  have hmR : (0 : R) < m := Nat.cast_pos.2 hm
  have hcs : 0 < c.coarse := by rw [hc]; exact mul_pos hmR hf
  obtain ⟨f0, hterm⟩ := gridLoop_terminates c.pMax c.coarse c.pMin hcs
  refine ⟨f0, fun f h => ?_⟩
  obtain ⟨g, hg⟩ := hterm f h
  have hgrid := gridLoop_spec c.pMax c.coarse f c.pMin g hcs hg
  refine ⟨g, hgrid, ?_⟩
  intro hex
  obtain ⟨i, rc, h1, h2, h3⟩ := (scan_cases L big c.pMin c.pMax c.coarse f g hg).1 hex
  refine ⟨i, rc, h1, h2, ?_⟩
  intro hu0 hu1
  obtain ⟨f1, hterm1⟩ := gridLoop_terminates (min (rc.p + 2 * rc.pUnc) c.pMax) c.fine (max (rc.p - 2 * rc.pUnc) c.pMin) hf
  refine ⟨max f f1, fun f' hf' => ?_⟩
  have hgf' := gridLoop_mono _ _ f f' (le_trans (le_max_left _ _) hf') _ _ hg
  -- the coarse scan with the larger budget is the same
  have hsame : scan L big c.pMin c.pMax c.coarse f' = some (.ok rc) := by
    rw [← h1]; unfold scan; rw [hg, hgf']
  obtain ⟨g2, hg2⟩ := hterm1 f' (le_trans (le_max_right _ _) hf')
  have hgrid2 := gridLoop_spec _ _ f' _ g2 hf hg2
  -- the coarse optimum is on the fine grid
  have hp := hgrid.at_ i rc.p h2.at_
  have hple : rc.p ≤ c.pMax := hgrid.le _ (List.mem_of_getElem? h2.at_)
  obtain ⟨q, hq⟩ : ∃ q : Nat, rc.pUnc = q * c.coarse := by
    obtain ⟨lu, ru, hl, hr, e⟩ := h2.unc
    have key : ∀ {rise : Nat → Prop} {n : Nat} {u : R}, SideUnc rise n c.coarse u → 0 ≤ u → ∃ q : Nat, u = q * c.coarse := by
      rintro rise n u (⟨k, _, _, _, _, e⟩ | ⟨_, e⟩) h
      · exact ⟨k, e⟩
      · rw [e] at h; exfalso; linarith
    rcases max_choice lu ru with h | h
    · rw [h] at e; rw [e] at hu0 ⊢; exact key hl hu0
    · rw [h] at e; rw [e] at hu0 ⊢; exact key hr hu0
  have hon : ∃ k : Nat, rc.p = max (rc.p - 2 * rc.pUnc) c.pMin + k * c.fine := by
    rcases max_choice (rc.p - 2 * rc.pUnc) c.pMin with h | h
    · rw [h]
      exact ⟨2 * q * m, by rw [hq, hc]; push_cast; ring⟩
    · rw [h]
      exact ⟨i * m, by rw [hp, hc]; push_cast; ring⟩
  obtain ⟨k, hk⟩ := hon
  have hin : rc.p ∈ g2 := by
    have hkl := hgrid2.all k (by rw [← hk]; exact le_min (by linarith) hple)
    have := hgrid2.at_ k _ (List.getElem?_eq_getElem hkl)
    rw [hk, ← this]
    exact List.getElem_mem hkl
  obtain ⟨i2, r, k1, k2, _⟩ := (scan_cases L big _ _ c.fine f' g2 hg2).1 ⟨rc.p, hin, by rw [← h2.val]; exact h3⟩
  have hrm := List.mem_of_getElem? k2.at_
  have hr1 := hgrid2.le _ hrm
  have hr2 := hgrid2.at_ i2 r.p k2.at_
  have hnn : (0 : R) ≤ i2 * c.fine := mul_nonneg (Nat.cast_nonneg _) hf.le
  refine ⟨r, ?_, k2.val, ?_, (le_min_iff.1 hr1).2, ?_, (le_min_iff.1 hr1).1, ?_⟩
  · unfold twoStage
    rw [hsame]
    simp only [if_pos hu1]
    exact k1
  · have := le_max_right (rc.p - 2 * rc.pUnc) c.pMin; linarith
  · have := le_max_left (rc.p - 2 * rc.pUnc) c.pMin; linarith
  · intro p hp'
    exact (k2.least _ hin).trans (h2.least p hp')

/-- **C166 (refuted)** Whenever the coarse scan finds its minimum but no rise of 0.5 on either side, the second scan's
window is empty and the fit returns momentum −1 with the largest representable likelihood value, although the
coarse scan had found a finite optimum. -/
theorem C166_no_uncertainty_refuted (L : R → R) (big : R) (c : ScanCfg R) (fuel : Nat) (r : ScanRes R)
    (h : scan L big c.pMin c.pMax c.coarse fuel = some (.ok r)) (hu : r.pUnc = -1) (hb : 0 < big) (hf : 0 < fuel)
    (hp : c.pMin ≤ r.p) (hp' : r.p ≤ c.pMax) : 
    twoStage L big c fuel = some (.ok ⟨-1, -1, big⟩) := by
  unfold twoStage
  rw [h]
  have h1 : r.pUnc < big - 1 := by rw [hu]; linarith
  simp only [if_pos h1]
  rw [hu]
  have hlt : ¬ max (r.p - 2 * (-1)) c.pMin ≤ min (r.p + 2 * (-1)) c.pMax := by
    intro hle
    have h2 := le_max_left (r.p - 2 * (-1)) c.pMin
    have h3 := min_le_left (r.p + 2 * (-1)) c.pMax
    linarith
  have hg : gridLoop (min (r.p + 2 * (-1)) c.pMax) c.fine fuel (max (r.p - 2 * (-1)) c.pMin) = some [] := by
    obtain ⟨f, rfl⟩ : ∃ f, fuel = f + 1 := ⟨fuel - 1, by omega⟩
    unfold gridLoop; rw [if_neg hlt]
  rw [(scan_cases L big _ _ c.fine fuel [] hg).2 (by simp)]
  simp

/-- **C166 (refuted)** If every momentum of a non-empty coarse scan is rejected (the track is longer than the range of
the largest momentum, or the likelihood is not a number), the scan reads `vlogL[-1]`: undefined behaviour. -/
theorem C166_all_rejected_refuted (L : R → R) (big : R) (c : ScanCfg R) (fuel : Nat) (g : List R)
    (hg : gridLoop c.pMax c.coarse fuel c.pMin = some g) (hne : g ≠ []) (hall : ∀ p ∈ g, big ≤ L p) :
    twoStage L big c fuel = some .ub := by
  unfold twoStage
  rw [(scan_cases L big _ _ _ fuel g hg).2 hall, if_neg hne]

/-! ## Segmentation -/

/-- path length along a list of points -/
def pathLen (step : Nat → Nat → R) : List Nat → R
  | a :: b :: l => step a b + pathLen step (b :: l)
  | _ => 0

theorem pathLen_append (step : Nat → Nat → R) (l : List Nat) (a b : Nat) :
    pathLen step (l ++ [a, b]) = pathLen step (l ++ [a]) + step a b := by
  induction l with
  | nil => simp [pathLen]
  | cons x l ih =>
    cases l with
    | nil => simp [pathLen, add_comm]
    | cons y l =>
      simp only [List.cons_append, pathLen] at ih ⊢
      rw [ih]; ring

/-- loop invariant after the valid points `pre` -/
structure SegInv (step : Nat → Nat → R) (lim : R) (minHits : Nat) (pre : List Nat) (s : Seg R) : Prop where
  prev : pre.getLast? = some s.prev
  tot : s.totlen = pathLen step pre
  len1 : s.bps.length = s.rads.length + 1
  len2 : s.cums.length = s.bps.length
  head : s.bps.head? = pre.head?
  sorted : s.bps.Pairwise (· < ·)
  valid : ∀ b ∈ s.bps, b ∈ pre
  cum : ∀ (k b : Nat) (c : R), s.bps[k]? = some b → s.cums[k]? = some c → c = pathLen step (pre.filter (· ≤ b))
  np : ∀ b, s.bps.getLast? = some b → s.np = (pre.filter (b < ·)).length
  seg : ∀ (k b b' : Nat), s.bps[k]? = some b → s.bps[k + 1]? = some b' →
    (s.rads[k]? = some none ∧ (pre.filter (fun j => decide (b < j ∧ j ≤ b'))).length < minHits) ∨
    ∃ x, s.rads[k]? = some (some x) ∧ lim ≤ x ∧ minHits ≤ (pre.filter (fun j => decide (b < j ∧ j ≤ b'))).length
  mono : s.cums.Pairwise (· ≤ ·)
  le_tot : ∀ c ∈ s.cums, c ≤ s.totlen
  cum0 : s.cums.head? = some 0

theorem segStep_inv (proj : Nat → Nat → Nat → R) (step : Nat → Nat → R) (hst : ∀ a b, 0 ≤ step a b) (lim : R) (minHits : Nat)
    (pre : List Nat) (s : Seg R) (i : Nat) (h : SegInv step lim minHits pre s) (hi : ∀ j ∈ pre, j < i) :
    SegInv step lim minHits (pre ++ [i]) (segStep proj step lim minHits s i) := by
  have htot : pathLen step (pre ++ [i]) = s.totlen + step s.prev i := by
    obtain ⟨l, hl⟩ := List.getLast?_eq_some_iff.1 h.prev
    rw [h.tot, hl, List.append_assoc]
    exact pathLen_append step l s.prev i
  have hne : pre ≠ [] := by intro e; have := h.prev; rw [e] at this; simp at this
  have hhead : (pre ++ [i]).head? = pre.head? := by
    cases pre with
    | nil => exact absurd rfl hne
    | cons a l => rfl
  have hbl : ∀ b ∈ s.bps, b < i := fun b hb => hi b (h.valid b hb)
  have hbne : s.bps ≠ [] := by intro e; have := h.len1; rw [e] at this; simp at this
  obtain ⟨bl, hbl'⟩ : ∃ b, s.bps.getLast? = some b := ⟨_, List.getLast?_eq_some_getLast hbne⟩
  have hnp := h.np bl hbl'
  have hblm : bl ∈ s.bps := List.mem_of_getLast? hbl'
  have hblidx : s.bps[s.bps.length - 1]? = some bl := by rw [← List.getLast?_eq_getElem?]; exact hbl'
  have hcumold : ∀ (k b : Nat) (c : R), s.bps[k]? = some b → s.cums[k]? = some c →
      c = pathLen step ((pre ++ [i]).filter (· ≤ b)) := by
    intro k b c hb hc
    have := hbl b (List.mem_of_getElem? hb)
    rw [List.filter_append]
    have e : [i].filter (fun x => decide (x ≤ b)) = [] := by simp; omega
    rw [e, List.append_nil]
    exact h.cum k b c hb hc
  have hsegold : ∀ (k b b' : Nat), s.bps[k]? = some b → s.bps[k + 1]? = some b' →
      (s.rads[k]? = some none ∧ ((pre ++ [i]).filter (fun j => decide (b < j ∧ j ≤ b'))).length < minHits) ∨
      ∃ x, s.rads[k]? = some (some x) ∧ lim ≤ x ∧
        minHits ≤ ((pre ++ [i]).filter (fun j => decide (b < j ∧ j ≤ b'))).length := by
    intro k b b' hb hb'
    have := hbl b' (List.mem_of_getElem? hb')
    rw [List.filter_append]
    have e : [i].filter (fun j => decide (b < j ∧ j ≤ b')) = [] := by simp; omega
    rw [e, List.append_nil]
    exact h.seg k b b' hb hb'
  unfold segStep
  dsimp only
  generalize (if s.np = 0 then i else s.dir) = dd
  split
  · refine ⟨by simp, by rw [htot], by simp [h.len1], by simp [h.len2], ?_, ?_, ?_, ?_, ?_, ?_, ?_, ?_, ?_⟩
    · dsimp only
      rw [hhead, ← h.head]
      exact List.head?_append_of_ne_nil _ hbne
    · dsimp only
      rw [List.pairwise_append]
      exact ⟨h.sorted, by simp, by simpa using hbl⟩
    · intro b hb
      rcases List.mem_append.1 hb with hb | hb
      · exact List.mem_append_left _ (h.valid b hb)
      · exact List.mem_append_right _ hb
    · intro k b c hb hc
      dsimp only at hb hc
      rcases Nat.lt_or_ge k s.bps.length with hk | hk
      · rw [List.getElem?_append_left hk] at hb
        rw [List.getElem?_append_left (by rw [h.len2]; exact hk)] at hc
        exact hcumold k b c hb hc
      · have hk' : k = s.bps.length := by
          have := (List.getElem?_eq_some_iff.1 hb).1
          simp at this; omega
        subst hk'
        rw [← h.len2] at hc
        simp only [List.getElem?_concat_length, Option.some.injEq] at hb hc
        subst hb hc
        rw [← htot]
        congr 1
        symm
        rw [List.filter_eq_self]
        intro a ha
        rcases List.mem_append.1 ha with ha | ha
        · have := hi a ha; simp; omega
        · simp at ha; simp [ha]
    · intro b hb
      dsimp only at hb
      simp only [List.getLast?_concat, Option.some.injEq] at hb
      subst hb
      symm
      rw [List.length_eq_zero_iff, List.filter_eq_nil_iff]
      intro a ha
      rcases List.mem_append.1 ha with ha | ha
      · have := hi a ha; simp; omega
      · simp at ha; simp [ha]
    · intro k b b' hb hb'
      dsimp only at hb hb' ⊢
      rcases Nat.lt_or_ge (k + 1) s.bps.length with hk | hk
      · rw [List.getElem?_append_left (by omega)] at hb
        rw [List.getElem?_append_left hk] at hb'
        have hkr : k < s.rads.length := by have := h.len1; omega
        rw [List.getElem?_append_left hkr]
        exact hsegold k b b' hb hb'
      · have hk' : k + 1 = s.bps.length := by
          have := (List.getElem?_eq_some_iff.1 hb').1
          simp at this; omega
        have hkr : k = s.rads.length := by have := h.len1; omega
        rw [hk'] at hb'
        rw [List.getElem?_append_left (by omega), show k = s.bps.length - 1 by omega, hblidx] at hb
        simp only [List.getElem?_concat_length, Option.some.injEq] at hb hb'
        subst hb hb'
        have hcount : ((pre ++ [i]).filter (fun j => decide (bl < j ∧ j ≤ i))).length = s.np + 1 := by
          rw [hnp, List.filter_append, List.length_append]
          congr 1
          · congr 1
            apply List.filter_congr
            intro a ha
            have := hi a ha
            simp; omega
          · have := hbl bl hblm
            simp [this]
        rw [hcount, hkr, List.getElem?_concat_length]
        rename_i hlim
        by_cases hm : minHits ≤ s.np + 1
        · exact .inr ⟨_, by rw [if_pos hm], hlim, hm⟩
        · exact .inl ⟨by rw [if_neg hm], by omega⟩
    · dsimp only
      rw [List.pairwise_append]
      refine ⟨h.mono, by simp, ?_⟩
      intro a ha b hb
      simp at hb
      have := h.le_tot a ha
      have := hst s.prev i
      rw [hb]; linarith
    · intro c hc
      dsimp only at hc ⊢
      have hs := hst s.prev i
      rcases List.mem_append.1 hc with hc | hc
      · have := h.le_tot c hc; linarith
      · simp at hc; rw [hc]
    · dsimp only
      rw [← h.cum0]
      apply List.head?_append_of_ne_nil
      intro e
      have := h.cum0; rw [e] at this; simp at this
  · refine ⟨by simp, by rw [htot], h.len1, h.len2, by rw [hhead]; exact h.head, h.sorted, ?_, hcumold, ?_, hsegold, h.mono, ?_, h.cum0⟩
    · intro b hb; exact List.mem_append_left _ (h.valid b hb)
    · intro b hb
      dsimp only at hb ⊢
      rw [hbl'] at hb
      simp only [Option.some.injEq] at hb
      subst hb
      rw [List.filter_append, List.length_append, ← hnp]
      have := hbl bl hblm
      simp [this]
    · intro c hc
      have := h.le_tot c hc
      have := hst s.prev i
      dsimp only
      linarith

theorem seg_fold_inv (proj : Nat → Nat → Nat → R) (step : Nat → Nat → R) (hst : ∀ a b, 0 ≤ step a b) (lim : R) (minHits : Nat)
    (vs pre : List Nat) (s : Seg R) (h : SegInv step lim minHits pre s) (hs : (pre ++ vs).Pairwise (· < ·)) :
    SegInv step lim minHits (pre ++ vs) (vs.foldl (segStep proj step lim minHits) s) := by
  induction vs generalizing pre s with
  | nil => simpa using h
  | cons i vs ih =>
    have e : pre ++ i :: vs = (pre ++ [i]) ++ vs := by simp
    rw [List.foldl_cons, e]
    rw [e] at hs
    apply ih _ _ _ hs
    apply segStep_inv proj step hst lim minHits pre s i h
    rw [List.pairwise_append, List.pairwise_append] at hs
    intro j hj
    exact hs.1.2.2 j hj i (by simp)

/-- **Specification of a segmentation** of the valid points (ascending): break points ascend from the first valid
point; inner break points are valid points and their cumulative length is the path length up to them; a segment
between two valid break points is at least `lim` long unless it holds fewer than `minHits` points, in which case
it is marked; if there is a leftover the last break point is one past the last valid point, so that the segments
`[bps[k], bps[k+1])` cover every valid point. -/
structure Segmentation (step : Nat → Nat → R) (lim : R) (minHits : Nat) (valid : List Nat) (bps : List Nat)
    (rads : List (Option R)) (cums : List R) : Prop where
  len1 : bps.length = rads.length + 1
  len2 : cums.length = bps.length
  head : bps.head? = valid.head?
  sorted : bps.Pairwise (· < ·)
  inner : ∀ (k b : Nat), bps[k]? = some b → k + 1 < bps.length → b ∈ valid
  cum : ∀ (k b : Nat) (c : R), bps[k]? = some b → b ∈ valid → cums[k]? = some c → c = pathLen step (valid.filter (· ≤ b))
  seg : ∀ (k b b' : Nat), bps[k]? = some b → bps[k + 1]? = some b' → b' ∈ valid →
    (rads[k]? = some none ∧ (valid.filter (fun j => decide (b < j ∧ j ≤ b'))).length < minHits) ∨
    ∃ x, rads[k]? = some (some x) ∧ lim ≤ x ∧ minHits ≤ (valid.filter (fun j => decide (b < j ∧ j ≤ b'))).length
  last : ∀ b, bps.getLast? = some b → b ∉ valid → (∀ j ∈ valid, j < b) ∧ ∃ j ∈ valid, b = j + 1
  cumMono : cums.Pairwise (· ≤ ·)
  cum0 : cums.head? = some 0

/-- **C167** For every trajectory with at least one valid point the segmentation succeeds and meets the specification. -/
theorem C167_segmentation (proj : Nat → Nat → Nat → R) (step : Nat → Nat → R) (hst : ∀ a b, 0 ≤ step a b) (lim : R) (minHits : Nat)
    (valid : List Nat) (hne : valid ≠ []) (hs : valid.Pairwise (· < ·)) :
    ∃ bps rads cums, breakTraj proj step lim minHits valid = .ok (bps, rads, cums) ∧
      Segmentation step lim minHits valid bps rads cums := by
  match valid, hne, hs with
  | v :: vs, _, hs =>
    have h0 : SegInv step lim minHits [v] ⟨[v], [], [0], 0, 0, 0, v, v⟩ := by
      refine ⟨rfl, rfl, rfl, rfl, rfl, by simp, by simp, ?_, ?_, ?_, by simp, by simp, rfl⟩
      · intro k b c hb hc
        cases k with
        | zero => simp at hb hc; subst hb hc; simp [pathLen]
        | succ k => simp at hb
      · intro b hb; simp at hb; subst hb; simp
      · intro k b b' _ hb'; simp at hb'
    have h := seg_fold_inv proj step hst lim minHits vs [v] _ h0 (by simpa using hs)
    simp only [List.singleton_append] at h
    unfold breakTraj
    dsimp only
    generalize vs.foldl (segStep proj step lim minHits) ⟨[v], [], [0], 0, 0, 0, v, v⟩ = s at h
    have hlast : (v :: vs).getLastD 0 = (v :: vs).getLast (by simp) := by
      rw [List.getLastD_eq_getLast?, List.getLast?_eq_some_getLast (by simp), Option.getD_some]
    have hmax : ∀ j ∈ v :: vs, j ≤ (v :: vs).getLast (by simp) := by
      intro j hj
      obtain ⟨a, ha, rfl⟩ := List.getElem_of_mem hj
      rw [List.getLast_eq_getElem]
      rcases Nat.lt_or_ge a ((v :: vs).length - 1) with hlt | hge
      · exact (List.pairwise_iff_getElem.1 hs _ _ ha (by simp) hlt).le
      · have : a = (v :: vs).length - 1 := by omega
        subst this; exact le_refl _
    split
    · rename_i hpos
      rw [hlast]
      generalize hL : (v :: vs).getLast (by simp) = L at hmax
      have hLm : L ∈ v :: vs := by rw [← hL]; exact List.getLast_mem _
      have hnot : L + 1 ∉ v :: vs := fun hc => by have := hmax _ hc; omega
      have hbne : s.bps ≠ [] := by intro e; have := h.len1; rw [e] at this; simp at this
      refine ⟨_, _, _, rfl, by simp [h.len1], by simp [h.len2], ?_, ?_, ?_, ?_, ?_, ?_, ?_, ?_⟩
      · rw [← h.head]; exact List.head?_append_of_ne_nil _ hbne
      · rw [List.pairwise_append]
        refine ⟨h.sorted, by simp, ?_⟩
        intro a ha b hb
        simp at hb
        have := hmax a (h.valid a ha)
        omega
      · intro k b hb hk
        simp at hk
        rw [List.getElem?_append_left hk] at hb
        exact h.valid b (List.mem_of_getElem? hb)
      · intro k b c hb hbv hc
        rcases Nat.lt_or_ge k s.bps.length with hk | hk
        · rw [List.getElem?_append_left hk] at hb
          rw [List.getElem?_append_left (by rw [h.len2]; exact hk)] at hc
          exact h.cum k b c hb hc
        · have hk' : k = s.bps.length := by
            have := (List.getElem?_eq_some_iff.1 hb).1
            simp at this; omega
          subst hk'
          simp only [List.getElem?_concat_length, Option.some.injEq] at hb
          rw [← hb] at hbv
          exact absurd hbv hnot
      · intro k b b' hb hb' hbv
        rcases Nat.lt_or_ge (k + 1) s.bps.length with hk | hk
        · rw [List.getElem?_append_left (by omega)] at hb
          rw [List.getElem?_append_left hk] at hb'
          have hkr : k < s.rads.length := by have := h.len1; omega
          rw [List.getElem?_append_left hkr]
          exact h.seg k b b' hb hb'
        · have hk' : k + 1 = s.bps.length := by
            have := (List.getElem?_eq_some_iff.1 hb').1
            simp at this; omega
          rw [hk'] at hb'
          simp only [List.getElem?_concat_length, Option.some.injEq] at hb'
          rw [← hb'] at hbv
          exact absurd hbv hnot
      · intro b hb _
        simp only [List.getLast?_concat, Option.some.injEq] at hb
        subst hb
        exact ⟨fun j hj => by have := hmax j hj; omega, L, hLm, rfl⟩
      · rw [List.pairwise_append]
        refine ⟨h.mono, by simp, ?_⟩
        intro a ha b hb
        simp only [List.mem_singleton] at hb
        rw [hb]
        have hcne : s.cums ≠ [] := List.ne_nil_of_mem ha
        have : a ≤ s.cums.getLastD 0 := by
          rw [List.getLastD_eq_getLast?, List.getLast?_eq_some_getLast hcne, Option.getD_some]
          obtain ⟨j, hj, rfl⟩ := List.getElem_of_mem ha
          rw [List.getLast_eq_getElem]
          rcases Nat.lt_or_ge j (s.cums.length - 1) with hlt | hge
          · exact List.pairwise_iff_getElem.1 h.mono _ _ hj (by omega) hlt
          · have : j = s.cums.length - 1 := by omega
            subst this; exact le_refl _
        linarith
      · rw [← h.cum0]
        apply List.head?_append_of_ne_nil
        intro e
        have := h.cum0; rw [e] at this; simp at this
    · refine ⟨_, _, _, rfl, h.len1, h.len2, h.head, h.sorted, ?_, ?_, ?_, ?_, h.mono, h.cum0⟩
      · intro k b hb _; exact h.valid b (List.mem_of_getElem? hb)
      · intro k b c hb _ hc; exact h.cum k b c hb hc
      · intro k b b' hb hb' _; exact h.seg k b b' hb hb'
      · intro b hb hbv; exact absurd (h.valid b (List.mem_of_getLast? hb)) hbv

/-- **C167** (indices) With at least two segments, both lists of cumulative lengths have one entry per scattering
angle (number of segments − 1), all entries are non-negative, the forward list starts with 0 and does not decrease, the
backward list does not increase. -/
theorem C167_cumulative_lengths (step : Nat → Nat → R) (lim : R) (minHits : Nat) (valid bps : List Nat) (rads : List (Option R))
    (cums : List R) (h : Segmentation step lim minHits valid bps rads cums) (h2 : 2 ≤ rads.length) :
    (cumLens cums).1.length = rads.length - 1 ∧ (cumLens cums).2.length = rads.length - 1 ∧
    (∀ x ∈ (cumLens cums).1, 0 ≤ x) ∧ (∀ x ∈ (cumLens cums).2, 0 ≤ x) ∧
    (cumLens cums).1.head? = some 0 ∧ (cumLens cums).1.Pairwise (· ≤ ·) ∧ (cumLens cums).2.Pairwise (· ≥ ·) := by
  have hl : cums.length = rads.length + 1 := by rw [h.len2, h.len1]
  have hmono : ∀ a b, a ≤ b → b < cums.length → (cums[a]?).getD 0 ≤ (cums[b]?).getD 0 := by
    intro a b hab hb
    rw [List.getElem?_eq_getElem (by omega), List.getElem?_eq_getElem hb]
    rcases Nat.lt_or_ge a b with hlt | hge
    · exact List.pairwise_iff_getElem.1 h.cumMono a b (by omega) hb hlt
    · have : a = b := by omega
      subst this; exact le_refl _
  have h0 : (cums[0]?).getD 0 = 0 := by
    have := h.cum0
    rw [List.head?_eq_getElem?] at this
    rw [this]; rfl
  have hlast : cums.getLastD 0 = (cums[cums.length - 1]?).getD 0 := by
    rw [List.getLastD_eq_getLast?, List.getLast?_eq_getElem?]
  refine ⟨by simp [cumLens]; omega, by simp [cumLens]; omega, ?_, ?_, ?_, ?_, ?_⟩
  · intro x hx
    simp only [cumLens, List.mem_map, List.mem_range] at hx
    obtain ⟨i, hi, rfl⟩ := hx
    have := hmono 0 i (by omega) (by omega)
    rwa [h0] at this
  · intro x hx
    simp only [cumLens, List.mem_map, List.mem_range] at hx
    obtain ⟨i, hi, rfl⟩ := hx
    have := hmono (i + 2) (cums.length - 1) (by omega) (by omega)
    rw [hlast]; linarith
  · simp only [cumLens]
    rw [List.head?_eq_getElem?, List.getElem?_map, List.getElem?_range (by omega), Option.map_some, h0]
  · simp only [cumLens]
    rw [List.pairwise_map]
    refine List.Pairwise.imp_of_mem ?_ (List.pairwise_lt_range)
    intro a b ha hb hab
    rw [List.mem_range] at ha hb
    exact hmono a b hab.le (by omega)
  · simp only [cumLens]
    rw [List.pairwise_map]
    refine List.Pairwise.imp_of_mem ?_ (List.pairwise_lt_range)
    intro a b ha hb hab
    rw [List.mem_range] at ha hb
    have := hmono (a + 2) (b + 2) (by omega) (by omega)
    show _ ≥ _
    simp only [ge_iff_le]
    linarith

/-! ## Energy along the track -/

/-- **C168 (partial)** With a stepwise non-negative energy loss (modes 0 and 2), the energy at a segment is either 0,
which is rejected by the likelihood, or above the rest mass and at most the initial energy, and then it is accepted;
it is 0 exactly when the energy falls to the rest mass or below at some step. Missing: constant-loss mode 1
(`C168_mip_negative_energy_refuted`). -/
theorem C168_energy_partial (loss : R → R) (m : R) (hm : 0 ≤ m) (hl : ∀ e, m < e → 0 ≤ loss e) (n : Nat) (e0 : R) (h0 : m < e0) :
    (getELoop loss m n e0 = 0 ∧ energyAccepted m (getELoop loss m n e0) = false ∧
      ∃ k, k < n ∧ m < (fun e => e - loss e)^[k] e0 ∧ (fun e => e - loss e)^[k + 1] e0 ≤ m) ∨
    (m < getELoop loss m n e0 ∧ getELoop loss m n e0 ≤ e0 ∧ energyAccepted m (getELoop loss m n e0) = true ∧
      getELoop loss m n e0 = (fun e => e - loss e)^[n] e0) := by
  have acc : ∀ e, m < e → energyAccepted m e = true := by
    intro e he
    have : m * m < e * e := mul_self_lt_mul_self hm he
    simp [energyAccepted, this]
  induction n generalizing e0 with
  | zero => exact .inr ⟨h0, le_refl _, acc _ h0, rfl⟩
  | succ n ih =>
    unfold getELoop
    split
    · rename_i hle
      refine .inl ⟨rfl, ?_, 0, by omega, h0, hle⟩
      simp only [energyAccepted, mul_zero, Bool.not_eq_false', decide_eq_true_eq]
      exact mul_self_nonneg m
    · rename_i hle
      have hlt := not_le.1 hle
      rcases ih (e0 - loss e0) hlt with ⟨h1, h2, k, h3, h4, h5⟩ | ⟨h1, h2, h3, h4⟩
      · refine .inl ⟨h1, h2, k + 1, by omega, ?_, ?_⟩
        · rw [Function.iterate_succ_apply]; exact h4
        · rw [Function.iterate_succ_apply]; exact h5
      · refine .inr ⟨h1, ?_, h3, ?_⟩
        · have := hl e0 h0; linarith
        · rw [Function.iterate_succ_apply]; exact h4

/-- **C168 (refuted)** In constant-loss mode a momentum hypothesis whose energy is exhausted is *accepted* as soon as the
(negative) computed energy exceeds the mass in magnitude: a 0.2 GeV muon is accepted after 30 m, with an
"energy" of −6.115 GeV. -/
theorem C168_mip_negative_energy_refuted :
    ∃ (e0 len : Rat), getEMip (2105 / 1000000) e0 len < 0 ∧
      energyAccepted (105658 / 1000000) (getEMip (2105 / 1000000) e0 len) = true :=
  ⟨1 / 5, 3000, by norm_num [getEMip], by norm_num [getEMip, energyAccepted]⟩

end

/-! ## Concrete cases -/

/-- a likelihood with its minimum at 2 on the grid 1, 1.5, …, 3: rise of 0.5 two steps to either side -/
example : scan (fun p => (p - 2) * (p - 2)) (1000 : Rat) 1 3 (1 / 2) 10 = some (.ok ⟨2, 1, 0⟩) := by
  decide +kernel
example : twoStage (fun p => (p - 2) * (p - 2)) (1000 : Rat) ⟨1, 3, 1 / 2, 1 / 4, 1⟩ 20 = some (.ok ⟨2, 3 / 4, 0⟩) := by
  decide +kernel
/-- the flat likelihood: coarse minimum at `pMin`, no rise, result −1 -/
example : scan (fun _ => (5 : Rat)) 1000 1 2 (1 / 2) 10 = some (.ok ⟨1, -1, 5⟩) ∧
    twoStage (fun _ => (5 : Rat)) 1000 ⟨1, 2, 1 / 2, 1 / 2, 1⟩ 10 = some (.ok ⟨-1, -1, 1000⟩) := by decide +kernel
example : twoStage (fun _ => (2000 : Rat)) 1000 ⟨1, 2, 1 / 2, 1 / 2, 1⟩ 10 = some .ub := by decide +kernel

/-- points 0,2,3,5,6,9 one unit apart: segments of 2 with a leftover -/
example : breakTraj (fun _ _ _ => (1 : Rat)) (fun _ _ => 1) 2 2 [0, 2, 3, 5, 6, 9] =
    .ok ([0, 3, 6, 10], [some 2, some 2, some 1], [0, 2, 4, 5]) := by decide +kernel

end Verif.Mcs

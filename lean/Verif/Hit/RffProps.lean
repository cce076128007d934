import Verif.Hit.RffProofs
/-!
# The RFF hit fitter (C130), its estimates (C131), the hits it gives (C132)
-/
namespace Verif.Rff
open Verif Verif.GaussElim

/-! ### C131: the estimates -/

/-- **C131.** The fitter estimates a mean and a width at every inner tick at which the logarithmic derivative falls; the
estimates are kept in ascending order of the means. -/
theorem C131_estimates (sq : ℚ → ℚ) (s : List ℚ) :
    (estimates sq s []).Perm (((List.range' 1 (s.length - 2)).filter (fun i => decide (slopeAt s i < 0))).map fun i =>
      estimate sq s (slopeAt s i) i) ∧
    (estimates sq s []).Pairwise fun p q => p.1 ≤ q.1 := by
  unfold estimates
  split
  · next h =>
    rw [show s.length - 2 = 0 by omega]
    simp
  · have := estLoop_spec sq s (s.length - 2) 1 0 [] (le_refl _) (by simp) (by simp)
    simpa using this

/-- **C131.** Where the logarithmic derivative (half the difference of the neighbours, over the signal) is that of a Gaussian with mean `mu` and variance `v` (at a tick after the
first inner one and at the tick before), the estimate is exactly `mu` and the square root of `v`. -/
theorem C131_exact (sq : ℚ → ℚ) {s : List ℚ} {mu v : ℚ} (hv : 0 < v) {i : Nat} (h1 : 2 ≤ i) (h2 : i + 1 < s.length)
    (hi' : (s.getD (i + 1) 0 - s.getD (i - 1) 0) / (2 * s.getD i 0) = (mu - i) / v)
    (hp' : (s.getD i 0 - s.getD (i - 2) 0) / (2 * s.getD (i - 1) 0) = (mu - (i - 1 : ℕ)) / v) :
    (mu, sq v) ∈ estimates sq s [] := by
  have hi : dev s i = (mu - i) / v := by
    rw [← hi']
    unfold dev
    rw [one_div, ← div_eq_inv_mul, div_div]
  have hp : dev s (i - 1) = (mu - (i - 1 : ℕ)) / v := by
    rw [← hp']
    unfold dev
    rw [one_div, ← div_eq_inv_mul, div_div, show i - 1 + 1 = i by omega, show i - 1 - 1 = i - 2 by omega]
  have hc : ((i - 1 : ℕ) : ℚ) = (i : ℚ) - 1 := by push_cast [Nat.cast_sub (show 1 ≤ i by omega)]; ring
  have hs : slopeAt s i = -1 / v := by
    unfold slopeAt
    rw [if_neg (by omega), hi, hp, hc]
    field_simp
    ring
  have hneg : slopeAt s i < 0 := by
    rw [hs]
    exact div_neg_of_neg_of_pos (by norm_num) hv
  have he : estimate sq s (slopeAt s i) i = (mu, sq v) := by
    unfold estimate
    rw [hs, hi]
    have hv0 : v ≠ 0 := hv.ne'
    refine Prod.ext ?_ ?_
    · simp only
      field_simp
      ring
    · simp only
      congr 1
      field_simp
  rw [← he]
  refine (C131_estimates sq s).1.mem_iff.2 (List.mem_map.2 ⟨i, List.mem_filter.2 ⟨?_, by simpa using hneg⟩, rfl⟩)
  simp only [List.mem_range'_1]
  omega

/-- the signal 1, 2, 3, 2, 1 looks like a Gaussian with mean 2 and variance 2 at all its inner ticks -/
example : (∀ i, 1 ≤ i → i ≤ 3 → dev [1, 2, 3, 2, 1] i = (2 - i) / 2) ∧
    estimates (fun _ => 7) [1, 2, 3, 2, 1] [] = [(2, 7), (2, 7)] := by
  constructor
  · intro i h1 h2
    interval_cases i <;> decide +kernel
  · decide +kernel

/-- **C131, refuted for the first inner tick.** The derivative there is compared with 0 instead of the derivative before:
whenever the signal falls around tick 1, an estimate with mean exactly 0 is added, whatever the pulse is. -/
theorem C131_first_tick_refuted (sq : ℚ → ℚ) {s : List ℚ} (h : 3 ≤ s.length) (hd : dev s 1 < 0) :
    (0, sq (-1 / dev s 1)) ∈ estimates sq s [] := by
  have he : estimate sq s (slopeAt s 1) 1 = (0, sq (-1 / dev s 1)) := by
    unfold estimate slopeAt
    simp
  have hn : slopeAt s 1 < 0 := by
    unfold slopeAt
    simpa using hd
  rw [← he]
  refine (C131_estimates sq s).1.mem_iff.2 (List.mem_map.2 ⟨1, List.mem_filter.2 ⟨?_, by simpa using hn⟩, rfl⟩)
  simp only [List.mem_range'_1]
  omega

/-- a falling flank gives an estimate at tick 0 -/
example : dev [9, 6, 4, 3] 1 < 0 ∧ (0 : ℚ) ∈ (estimates (fun _ => 1) [9, 6, 4, 3] []).map (·.1) := by
  constructor <;> decide +kernel

/-! ### C130: the fit -/

/-- the groups the fitter makes of its estimates -/
def groups (sq : ℚ → ℚ) (f : Fitter) (s : List ℚ) : List (List (ℚ × ℚ)) :=
  mergeLoop f.match_ (estimates sq s []) (-9000000) []

/-- **C130.** The groups are the ascending estimates, cut exactly where neighbouring means differ by more than the match
threshold. -/
theorem C130_groups (sq : ℚ → ℚ) (f : Fitter) (s : List ℚ) : Grouped f.match_ (estimates sq s []) (groups sq f s) := by
  have := mergeLoop_spec f.match_ (estimates sq s []) [] (-9000000) [] ⟨rfl, by simp, by simp, by simp⟩ (by simp)
  simpa [groups] using this

/-- three estimates in two groups -/
example : Grouped 1 [(0, 1), (1, 1), (3, 1)] [[(0, 1), (1, 1)], [(3, 1)]] :=
  have := mergeLoop_spec 1 [(0, 1), (1, 1), (3, 1)] [] (-9000000) [] ⟨rfl, by simp, by simp, by simp⟩ (by simp)
  have e : mergeLoop 1 [(0, 1), (1, 1), (3, 1)] (-9000000) [] = [[(0, 1), (1, 1)], [(3, 1)]] := by decide +kernel
  e ▸ this

/-- a hit found by the fit: the group it comes from -/
structure FromGroup (sq : ℚ → ℚ) (f : Fitter) (s : List ℚ) (m sg me se : ℚ) (g : List (ℚ × ℚ)) : Prop where
  mem : g ∈ groups sq f s
  size : f.minMult ≤ g.length
  mean : m = avg (g.map (·.1))
  sigma : sg = avg (g.map (·.2))
  meanErr : me = spread sq (g.map (·.1))
  sigmaErr : se = spread sq (g.map (·.2))

/-- what a fit returns -/
structure Fit (sq : ℚ → ℚ) (eps : ℚ) (dist : ℚ → ℚ) (old : Nat → ℚ) (f : Fitter) (s : List ℚ) (f' : Fitter) : Prop where
  lengths : f'.sigma.length = f'.mean.length ∧ f'.meanErr.length = f'.mean.length ∧
    f'.sigmaErr.length = f'.mean.length ∧ f'.amp.length = f'.mean.length ∧
    f'.ampErr = List.replicate f'.mean.length 0
  params : f'.match_ = f.match_ ∧ f'.minMult = f.minMult ∧ f'.thr = f.thr
  inside : ∀ m ∈ f'.mean, 0 ≤ m ∧ m < s.length - 1
  ascending : f'.mean.Pairwise (· ≤ ·)
  above : ∀ a ∈ f'.amp, f.thr ≤ a
  source : ∃ gs : List (List (ℚ × ℚ)), gs.Sublist (groups sq f s) ∧ gs.length = f'.mean.length ∧
    ∀ i, i < f'.mean.length → FromGroup sq f s (f'.mean.getD i 0) (f'.sigma.getD i 0) (f'.meanErr.getD i 0)
      (f'.sigmaErr.getD i 0) (gs.getD i [])
  solved : ∃ hs, heights s f'.mean = .ok hs ∧ solveEquations eps dist f'.mean f'.sigma hs old = .ok f'.amp

theorem groups_ascending (sq : ℚ → ℚ) (f : Fitter) (s : List ℚ) :
    (groups sq f s).Pairwise fun g h => avg (g.map (·.1)) ≤ avg (h.map (·.1)) := by
  have hg := C130_groups sq f s
  have hsort := (C131_estimates sq s).2
  rw [← hg.join, List.pairwise_flatten] at hsort
  refine List.Pairwise.imp_of_mem ?_ hsort.2
  intro g h hgm hhm hp
  have hgn := hg.ne g hgm
  have hhn := hg.ne h hhm
  refine avg_le (by simpa using hgn) ?_
  intro x hx
  obtain ⟨a, ha, rfl⟩ := List.mem_map.1 hx
  refine le_avg (by simpa using hhn) ?_
  intro y hy
  obtain ⟨b, hb, rfl⟩ := List.mem_map.1 hy
  exact hp a ha b hb

theorem idx_map_eq {α : Type} {l : List α} {d : α} {idx : List Nat} (h : idx.Sublist (List.range l.length)) :
    (idx.map (l.getD · d)).Sublist l := by
  have h1 := h.map (l.getD · d)
  have h2 : (List.range l.length).map (l.getD · d) = l := by
    apply List.ext_getElem
    · simp
    · intro i h1 h2
      simp [h2]
  rw [h2] at h1
  exact h1

theorem map_getD_range {α : Type} (l : List α) (d : α) : (List.range l.length).map (l.getD · d) = l := by
  apply List.ext_getElem
  · simp
  · intro i h1 h2
    simp [h2]

theorem heights_at {s : List ℚ} {l hs : List ℚ} (h : heights s l = .ok hs) :
    hs.length = l.length ∧ ∀ (i : Nat), i < l.length → height s (l.getD i 0) = .ok (hs.getD i 0) := by
  induction l generalizing hs with
  | nil =>
    rw [heights] at h
    cases h
    simp
  | cons m l ih =>
    rw [heights] at h
    cases hm : height s m with
    | throw => rw [hm] at h; cases h
    | ub => rw [hm] at h; cases h
    | ok v =>
      rw [hm, Res.bind] at h
      cases hl : heights s l with
      | throw => rw [hl] at h; cases h
      | ub => rw [hl] at h; cases h
      | ok vs =>
        rw [hl, Res.bind] at h
        cases h
        obtain ⟨h1, h2⟩ := ih hl
        refine ⟨by simp [h1], ?_⟩
        intro i hi
        cases i with
        | zero => simpa using hm
        | succ i => simpa using h2 i (by simpa using hi)

theorem heights_of {s : List ℚ} {idx : List Nat} {m hs : Nat → ℚ} (h : ∀ i ∈ idx, height s (m i) = .ok (hs i)) :
    heights s (idx.map m) = .ok (idx.map hs) := by
  induction idx with
  | nil => rfl
  | cons i l ih =>
    rw [List.map_cons, heights, h i (by simp), Res.bind, ih fun j hj => h j (List.mem_cons_of_mem _ hj), Res.bind]
    rfl

/-- **C130.** Fitting a signal. If a group of enough estimates has its average exactly at the last tick, the fit throws.
Otherwise it ends (after no more rounds than there are groups) with vectors of equal length: one entry per hit, each hit
from its own group of enough estimates, with the averages and spreads of that group; the means ascend and lie before the
last tick; the amplitudes are the solution for exactly these hits and none is below the threshold. -/
theorem C130_fit (sq : ℚ → ℚ) (eps : ℚ) (dist : ℚ → ℚ) (old : Nat → ℚ) (f : Fitter) (s : List ℚ) (fuel : Nat)
    (hfuel : (groups sq f s).length < fuel) :
    ((∃ g ∈ groups sq f s, f.minMult ≤ g.length ∧ avg (g.map (·.1)) = s.length - 1) →
      runFitter sq (fun m sg h => solveEquations eps dist m sg h old) fuel f s = some .throw) ∧
    ((∀ g ∈ groups sq f s, f.minMult ≤ g.length → avg (g.map (·.1)) ≠ s.length - 1) →
      ∃ f', runFitter sq (fun m sg h => solveEquations eps dist m sg h old) fuel f s = some (.ok f') ∧
        Fit sq eps dist old f s f') := by
  -- the fitter before the amplitudes
  let K := (groups sq f s).filter (Kept f.minMult s.length ·)
  have hK : K = (groups sq f s).filter (Kept f.minMult s.length ·) := rfl
  let F : Fitter := { clear f with
    set := estimates sq s []
    merge := groups sq f s
    mean := K.map fun g => avg (g.map (·.1))
    sigma := K.map fun g => avg (g.map (·.2))
    meanErr := K.map fun g => spread sq (g.map (·.1))
    sigmaErr := K.map fun g => spread sq (g.map (·.2)) }
  have hrun : runFitter sq (fun m sg h => solveEquations eps dist m sg h old) fuel f s =
      amplitudes (fun m sg h => solveEquations eps dist m sg h old) fuel s F := by
    unfold runFitter
    simp only
    rw [mergedLoop_spec]
    rfl
  rw [hrun]
  have hFm : F.mean = K.map fun g => avg (g.map (·.1)) := rfl
  have hFs : F.sigma = K.map fun g => avg (g.map (·.2)) := rfl
  have hFme : F.meanErr = K.map fun g => spread sq (g.map (·.1)) := rfl
  have hFse : F.sigmaErr = K.map fun g => spread sq (g.map (·.2)) := rfl
  have hFt : F.thr = f.thr := rfl
  have hFp : F.match_ = f.match_ ∧ F.minMult = f.minMult := ⟨rfl, rfl⟩
  have hFe : F.ampErr = [] := rfl
  clear_value F
  have hKm : ∀ g ∈ K, g ∈ groups sq f s ∧ Kept f.minMult s.length g := by
    intro g hg
    rw [hK, List.mem_filter] at hg
    exact ⟨hg.1, by simpa using hg.2⟩
  have hbound : ∀ m ∈ F.mean, 0 ≤ m ∧ m ≤ s.length - 1 := by
    rw [hFm]
    intro m hm
    obtain ⟨g, hg, rfl⟩ := List.mem_map.1 hm
    exact ⟨(hKm g hg).2.2.1, (hKm g hg).2.2.2⟩
  have hKlen : K.length ≤ (groups sq f s).length := List.length_filter_le ..
  constructor
  · rintro ⟨g, hg, hl, he⟩
    have hs : s ≠ [] := by
      rintro rfl
      have : groups sq f [] = [] := by simp [groups, estimates, mergeLoop]
      rw [this] at hg
      simp at hg
    have hs1 : (1 : ℚ) ≤ s.length := by exact_mod_cast List.length_pos_iff.2 hs
    have hk : g ∈ K := by
      rw [hK, List.mem_filter]
      refine ⟨hg, ?_⟩
      simp only [decide_eq_true_eq]
      exact ⟨hl, by rw [he]; linarith, by rw [he]⟩
    unfold amplitudes
    rw [heights_throw hs hbound (by rw [hFm]; exact List.mem_map.2 ⟨g, hk, he⟩)]
  · intro hne
    have hb2 : ∀ m ∈ F.mean, 0 ≤ m ∧ m < s.length - 1 := by
      intro m hm
      refine ⟨(hbound m hm).1, lt_of_le_of_ne (hbound m hm).2 ?_⟩
      rw [hFm] at hm
      obtain ⟨g, hg, rfl⟩ := List.mem_map.1 hm
      exact hne g (hKm g hg).1 (hKm g hg).2.1
    obtain ⟨hs0, hh, hhl, -⟩ := heights_ok hb2
    have hlen : F.mean.length = K.length ∧ F.sigma.length = K.length ∧ F.meanErr.length = K.length ∧
        F.sigmaErr.length = K.length := by
      rw [hFm, hFs, hFme, hFse]; simp
    have hso : ∃ a, solveEquations eps dist F.mean F.sigma hs0 old = .ok a ∧ a.length = K.length := by
      unfold solveEquations
      rw [if_neg (by omega)]
      exact ⟨_, rfl, by simp [hlen.1]⟩
    obtain ⟨a, ha1, ha2⟩ := hso
    have hAt : At F hs0 (List.range K.length) { F with amp := a } hs0 := by
      refine ⟨?_, ?_, ?_, ?_, ?_, by simpa using ha2, rfl⟩
      · show F.mean = _; rw [← hlen.1, map_getD_range]
      · show F.sigma = _; rw [← hlen.2.1, map_getD_range]
      · show F.meanErr = _; rw [← hlen.2.2.1, map_getD_range]
      · show F.sigmaErr = _; rw [← hlen.2.2.2, map_getD_range]
      · rw [show K.length = hs0.length by omega, map_getD_range]
    obtain ⟨f1, hs1, idx, g1, g2, g3, g4, g5⟩ := dropLoop_spec eps dist old F hs0 fuel { F with amp := a } hs0 _ hAt
      (by simp; omega) ha1
    have hidx : ∀ i ∈ idx, i < K.length := fun i hi => by simpa using g3.subset hi
    have hae : f1.ampErr = [] := by rw [g2.rest]; exact hFe
    refine ⟨{ f1 with ampErr := List.replicate f1.amp.length 0 }, ?_, ?_⟩
    · unfold amplitudes
      rw [hh]
      simp only
      rw [ha1]
      simp only
      rw [g1]
      simp [Res.bind, amplitudes.resize, hae]
    · have hm1 : f1.mean.length = idx.length := by rw [g2.mean]; simp
      have hthr : f1.thr = f.thr := by rw [g2.rest]; exact hFt
      refine ⟨⟨?_, ?_, ?_, ?_, ?_⟩, ⟨?_, ?_, hthr⟩, ?_, ?_, ?_, ?_, ?_⟩
      · show f1.sigma.length = f1.mean.length
        rw [hm1, g2.sigma]; simp
      · show f1.meanErr.length = f1.mean.length
        rw [hm1, g2.meanErr]; simp
      · show f1.sigmaErr.length = f1.mean.length
        rw [hm1, g2.sigmaErr]; simp
      · show f1.amp.length = f1.mean.length
        rw [hm1, g2.len]
      · show List.replicate f1.amp.length 0 = List.replicate f1.mean.length 0
        rw [hm1, g2.len]
      · show f1.match_ = f.match_
        rw [g2.rest]; exact hFp.1
      · show f1.minMult = f.minMult
        rw [g2.rest]; exact hFp.2
      · intro m hm
        have hm : m ∈ f1.mean := hm
        rw [g2.mean] at hm
        have hsub : (idx.map (F.mean.getD · 0)).Sublist F.mean := idx_map_eq (by rw [hlen.1]; exact g3)
        exact hb2 m (hsub.subset hm)
      · show f1.mean.Pairwise (· ≤ ·)
        rw [g2.mean]
        have hsub : (idx.map (F.mean.getD · 0)).Sublist F.mean := idx_map_eq (by rw [hlen.1]; exact g3)
        refine List.Pairwise.sublist hsub ?_
        rw [hFm, List.pairwise_map]
        exact (groups_ascending sq f s).sublist (List.filter_sublist ..)
      · intro x hx
        rw [← hthr]
        exact g4 x hx
      · refine ⟨idx.map (K.getD · []), (idx_map_eq g3).trans (List.filter_sublist ..), by
          show _ = f1.mean.length; rw [hm1]; simp, ?_⟩
        intro i hi
        have hi : i < idx.length := by rw [← hm1]; exact hi
        have hj := hidx _ (List.getElem_mem hi)
        have e1 : (idx.map (K.getD · [])).getD i [] = K[idx[i]] := by simp [List.getD, hi, hj]
        rw [e1]
        have hmem := hKm _ (List.getElem_mem hj)
        refine ⟨hmem.1, hmem.2.1, ?_, ?_, ?_, ?_⟩
        · show f1.mean.getD i 0 = _
          rw [g2.mean, hFm]; simp [List.getD, hi, hj]
        · show f1.sigma.getD i 0 = _
          rw [g2.sigma, hFs]; simp [List.getD, hi, hj]
        · show f1.meanErr.getD i 0 = _
          rw [g2.meanErr, hFme]; simp [List.getD, hi, hj]
        · show f1.sigmaErr.getD i 0 = _
          rw [g2.sigmaErr, hFse]; simp [List.getD, hi, hj]
      · refine ⟨hs1, ?_, g5⟩
        show heights s f1.mean = _
        rw [g2.mean, g2.hs]
        apply heights_of
        intro i hi
        exact (heights_at hh).2 i (by rw [hlen.1]; exact hidx i hi)

/-- the fit of 1, 2, 3, 2, 1 -/
example : (groups (fun _ => 1) { match_ := 1, minMult := 2, thr := 1 } [1, 2, 3, 2, 1]).length < 2 ∧
    (runFitter (fun _ => 1) (fun m sg h => solveEquations (1 / 1000) exDist m sg h fun _ => 0) 2
      { match_ := 1, minMult := 2, thr := 1, mean := [9], amp := [9, 9] } [1, 2, 3, 2, 1]).map
      (fun r => r.bind fun f => .ok (f.mean, f.sigma, f.amp)) = some (.ok ([2], [1], [3])) := by
  constructor <;> decide +kernel

/-- **C130.** A fit does not depend on the fits made before with the same fitter. -/
theorem C130_fresh (sq : ℚ → ℚ) (solve : List ℚ → List ℚ → List ℚ → Res (List ℚ)) (fuel : Nat) (f g : Fitter) (s : List ℚ)
    (h1 : f.match_ = g.match_) (h2 : f.minMult = g.minMult) (h3 : f.thr = g.thr) :
    runFitter sq solve fuel f s = runFitter sq solve fuel g s := by
  have : clear f = clear g := by
    cases f; cases g
    simp only at h1 h2 h3
    simp [clear, h1, h2, h3]
  unfold runFitter
  rw [this]

/-- **C130, refuted: a fit can throw.** The signal -3, 1, 1, 3 gives one estimate, exactly at the last tick: "bin is out
of range". -/
theorem C130_last_tick_refuted :
    runFitter (fun x => x) (fun m sg h => solveEquations (1 / 1000) exDist m sg h fun _ => 0) 3
      { match_ := 1, minMult := 1, thr := 0 } [-3, 1, 1, 3] = some .throw := by
  refine (C130_fit (fun x => x) (1 / 1000) exDist (fun _ => 0) { match_ := 1, minMult := 1, thr := 0 } [-3, 1, 1, 3] 3
    (by decide +kernel)).1 ?_
  decide +kernel

/-! ### C132: hits -/

theorem sum_map_div (l : List Nat) (g : Nat → ℚ) (c t : ℚ) : (l.map fun i => c * (g i / t)).sum = c * ((l.map g).sum / t) := by
  induction l with
  | nil => simp
  | cons i l ih =>
    simp only [List.map_cons, List.sum_cons, ih]
    ring

/-- **C132.** The hits made from a fit: one per fitted pulse, numbered from 0, each with the number of all, its peak time
inside its interval; the shares of the summed signal add up to the summed signal whenever the total area is not zero. -/
theorem C132_hits (sq : ℚ → ℚ) (eps : ℚ) (dist : ℚ → ℚ) (old : Nat → ℚ) {f f' : Fitter} {s : List ℚ}
    (hf : Fit sq eps dist old f s f') (c summed : ℚ) (start : Int) :
    (emplaceHits c f' summed start (start + s.length)).length = f'.mean.length ∧
    (∀ (i : Nat) (h : Hit), (emplaceHits c f' summed start (start + s.length))[i]? = some h →
      h.index = i ∧ h.mult = f'.mean.length ∧ h.start = start ∧ h.stop = start + s.length ∧
      (h.start : ℚ) ≤ h.peak ∧ h.peak < (h.stop : ℚ) - 1 ∧ f.thr ≤ h.amp ∧
      h.integral = h.amp * h.rms * c) ∧
    (((List.range f'.mean.length).map (area c f')).sum ≠ 0 →
      ((emplaceHits c f' summed start (start + s.length)).map Hit.roiADC).sum = summed) := by
  refine ⟨by simp [emplaceHits], ?_, ?_⟩
  · intro i h hi
    unfold emplaceHits at hi
    simp only [List.getElem?_map, Option.map_eq_some_iff] at hi
    obtain ⟨j, hj, rfl⟩ := hi
    obtain ⟨hj1, hj2⟩ := List.getElem?_eq_some_iff.1 hj
    simp only [List.length_range] at hj1
    simp only [List.getElem_range] at hj2
    subst hj2
    have hm : f'.mean.getD i 0 ∈ f'.mean := by simp [List.getD, hj1]
    have ha : f'.amp.getD i 0 ∈ f'.amp := by
      have : i < f'.amp.length := by rw [hf.lengths.2.2.2.1]; exact hj1
      simp [List.getD, this]
    have hin := hf.inside _ hm
    refine ⟨rfl, rfl, rfl, rfl, ?_, ?_, hf.above _ ha, rfl⟩
    · simp only; linarith [hin.1]
    · simp only
      push_cast
      linarith [hin.2]
  · intro ht
    unfold emplaceHits
    rw [List.map_map]
    show ((List.range f'.mean.length).map fun i => summed * (area c f' i / _)).sum = summed
    rw [sum_map_div, div_self ht, mul_one]

theorem sum_pos' (l : List Nat) (g : Nat → ℚ) (hl : l ≠ []) (h : ∀ i ∈ l, 0 < g i) : 0 < (l.map g).sum := by
  induction l with
  | nil => exact absurd rfl hl
  | cons i l ih =>
    simp only [List.map_cons, List.sum_cons]
    have h1 := h i (by simp)
    rcases eq_or_ne l [] with rfl | hl'
    · simpa using h1
    · linarith [ih hl' fun j hj => h j (List.mem_cons_of_mem _ hj)]

/-- **C132.** With a positive amplitude threshold the total area is never zero, so the charge is always shared out
completely. -/
theorem C132_charge (sq : ℚ → ℚ) (hsq : ∀ x, 0 < x → 0 < sq x) (eps : ℚ) (dist : ℚ → ℚ) (old : Nat → ℚ) {f f' : Fitter}
    {s : List ℚ} (hf : Fit sq eps dist old f s f') (hthr : 0 < f.thr) {c : ℚ} (hc : 0 < c) (summed : ℚ) (start : Int)
    (hne : f'.mean ≠ []) :
    ((emplaceHits c f' summed start (start + s.length)).map Hit.roiADC).sum = summed := by
  refine (C132_hits sq eps dist old hf c summed start).2.2 (ne_of_gt (sum_pos' _ _ (by simpa using hne) ?_))
  intro i hi
  have hi : i < f'.mean.length := by simpa using hi
  unfold area
  have ha : f'.amp.getD i 0 ∈ f'.amp := by
    have : i < f'.amp.length := by rw [hf.lengths.2.2.2.1]; exact hi
    simp [List.getD, this]
  have h1 : 0 < f'.amp.getD i 0 := lt_of_lt_of_le hthr (hf.above _ ha)
  obtain ⟨gs, -, -, hgs⟩ := hf.source
  obtain ⟨hg, -, -, h3, -, -⟩ := hgs i hi
  have h2 : 0 < f'.sigma.getD i 0 := by
    rw [h3]
    have hG := C130_groups sq f s
    have hgn := hG.ne _ hg
    have hpos : ∀ x ∈ (gs.getD i []).map (·.2), 0 < x := by
      intro x hx
      obtain ⟨p, hp, rfl⟩ := List.mem_map.1 hx
      have hp' : p ∈ estimates sq s [] := by
        rw [← hG.join]
        exact List.mem_flatten.2 ⟨_, hg, hp⟩
      have := (C131_estimates sq s).1.mem_iff.1 hp'
      obtain ⟨j, hj, rfl⟩ := List.mem_map.1 this
      have hj := (List.mem_filter.1 hj).2
      simp only [decide_eq_true_eq] at hj
      unfold estimate
      exact hsq _ (div_pos_of_neg_of_neg (by norm_num) hj)
    unfold avg
    have hl : (gs.getD i []).map (·.2) ≠ [] := by simpa using hgn
    refine div_pos ?_ (by exact_mod_cast List.length_pos_iff.2 hl)
    have : ∀ l : List ℚ, l ≠ [] → (∀ x ∈ l, 0 < x) → 0 < l.sum := by
      intro l
      induction l with
      | nil => intro h; exact absurd rfl h
      | cons x l ih =>
        intro _ hx
        simp only [List.sum_cons]
        have h1 := hx x (by simp)
        rcases eq_or_ne l [] with rfl | hl'
        · simpa using h1
        · linarith [ih hl' fun y hy => hx y (List.mem_cons_of_mem _ hy)]
    exact this _ hl hpos
  positivity

/-- the fit of the example meets the hypotheses: one hit with all the charge -/
example : ∃ f', runFitter (fun _ => 1) (fun m sg h => solveEquations (1 / 1000) exDist m sg h fun _ => 0) 2
      { match_ := 1, minMult := 2, thr := 1 } [1, 2, 3, 2, 1] = some (.ok f') ∧ f'.mean = [2] ∧
      Fit (fun _ => 1) (1 / 1000) exDist (fun _ => 0) { match_ := 1, minMult := 2, thr := 1 } [1, 2, 3, 2, 1] f' ∧
      (emplaceHits (5 / 2) f' 9 100 105).map (fun h => (h.peak, h.roiADC, h.integral)) = [(102, 9, 15 / 2)] := by
  obtain ⟨f', h1, h2⟩ := (C130_fit (fun _ => 1) (1 / 1000) exDist (fun _ => 0) { match_ := 1, minMult := 2, thr := 1 }
    [1, 2, 3, 2, 1] 2 (by decide +kernel)).2 (by decide +kernel)
  have h3 : (runFitter (fun _ => 1) (fun m sg h => solveEquations (1 / 1000) exDist m sg h fun _ => 0) 2
      { match_ := 1, minMult := 2, thr := 1 } [1, 2, 3, 2, 1]).map
      (fun r => r.bind fun f => .ok (f.mean, (emplaceHits (5 / 2) f 9 100 105).map
        (fun h => (h.peak, h.roiADC, h.integral)))) = some (.ok ([2], [(102, 9, 15 / 2)])) := by decide +kernel
  rw [h1] at h3
  simp only [Option.map_some, Res.bind, Option.some.injEq, Res.ok.injEq, Prod.mk.injEq] at h3
  exact ⟨f', h1, h3.1, h2, h3.2⟩

/-- **C132, refuted for the default threshold 0.** A fit with amplitude 0 has total area 0: the code divides 0 by 0, and
the charge 5 is not shared out (0 in the model). -/
theorem C132_zero_area_refuted :
    (runFitter (fun x => x) (fun m sg h => solveEquations (1 / 1000) exDist m sg h fun _ => 0) 2
      { match_ := 1, minMult := 1, thr := 0 } [-2, 1, -1, 2]).map
      (fun r => r.bind fun f => .ok (f.mean, f.amp, ((List.range f.mean.length).map (area 2 f)).sum,
        ((emplaceHits 2 f 5 0 4).map Hit.roiADC).sum)) = some (.ok ([3 / 2], [0], 0, 0)) := by decide +kernel

/-- **C132.** The parameter vectors are accepted exactly when none is empty and each has one entry or at least one per
plane; then every plane has its parameters: its own, or the only one. -/
theorem C132_params (n : Nat) (m : List ℚ) (k : List Nat) (t : List ℚ) :
    (setParamsVectors n m k t ≠ .throw ↔
      (m.length = 1 ∨ (0 < m.length ∧ n ≤ m.length)) ∧ (k.length = 1 ∨ (0 < k.length ∧ n ≤ k.length)) ∧
      (t.length = 1 ∨ (0 < t.length ∧ n ≤ t.length))) ∧
    ∀ m' k' t', setParamsVectors n m k t = .ok (m', k', t') → ∀ p, p < n →
      (m'[p]? = if m.length = 1 then m[0]? else m[p]?) ∧ (k'[p]? = if k.length = 1 then k[0]? else k[p]?) ∧
      (t'[p]? = if t.length = 1 then t[0]? else t[p]?) ∧
      m'[p]? ≠ none ∧ k'[p]? ≠ none ∧ t'[p]? ≠ none := by
  have hsp : ∀ {α : Type} (l : List α) (p : Nat), p < n → (spreadVec n l)[p]? = if l.length = 1 then l[0]? else l[p]? := by
    intro α l p hp
    match l with
    | [] => simp [spreadVec]
    | [x] => simp [spreadVec, hp]
    | x :: y :: l => simp [spreadVec]
  constructor
  · unfold setParamsVectors
    split
    · next h => constructor
                · intro h'; exact absurd rfl h'
                · intro h'; omega
    · next h =>
      split
      · next h2 => constructor
                   · intro h'; exact absurd rfl h'
                   · intro h'; omega
      · next h2 => constructor
                   · intro _; omega
                   · intro _ h'; cases h'
  · intro m' k' t' h p hp
    unfold setParamsVectors at h
    split at h
    · cases h
    · next h1 =>
      split at h
      · cases h
      · next h2 =>
        cases h
        refine ⟨hsp m p hp, hsp k p hp, hsp t p hp, ?_, ?_, ?_⟩
        · rw [hsp m p hp]
          split
          · rw [Ne, List.getElem?_eq_none_iff]; omega
          · rw [Ne, List.getElem?_eq_none_iff]; omega
        · rw [hsp k p hp]
          split
          · rw [Ne, List.getElem?_eq_none_iff]; omega
          · rw [Ne, List.getElem?_eq_none_iff]; omega
        · rw [hsp t p hp]
          split
          · rw [Ne, List.getElem?_eq_none_iff]; omega
          · rw [Ne, List.getElem?_eq_none_iff]; omega

/-- one entry for three planes -/
example : setParamsVectors 3 [1] [2, 3, 4] [5] = .ok ([1, 1, 1], [2, 3, 4], [5, 5, 5]) := by decide +kernel

end Verif.Rff

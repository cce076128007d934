import Mathlib.Algebra.Order.Field.Rat
import Mathlib.Algebra.BigOperators.Group.List.Basic
import Mathlib.Algebra.Order.Floor.Ring
import Mathlib.Data.Rat.Floor
import Mathlib.Data.List.Perm.Basic

/-!
Model of `hit::GausHitFinder` (larreco/HitFinder/GausHitFinder_module.cc), of `hit::HitFilterAlg`
(larreco/HitFinder/HitFilterAlg.cxx) and of the parameters of the peak fitters
(larreco/HitFinder/HitFinderTools/PeakFitterMrqdt_tool.cc and PeakFitterGaussian_tool.cc).

Simplifications: numbers are rationals (no rounding); the fits themselves are not modelled, only what is given to them and
what is done with their result; ticks are relative to the region of interest.
-/

namespace Verif.Gaus

/-- conversion of a floating point number to an integer -/
def trunc (q : ℚ) : ℤ := if 0 ≤ q then ⌊q⌋ else -⌊-q⌋

/-! ### Long pulses -/

/-- number and width of the pieces of a pulse of `len` ticks, GausHitFinder_module.cc:369-377; `w` is the width and `m` the
number configured for the plane -/
def pieces (len w m : Nat) : Nat × Nat :=
  let n := len / w
  let p := if n > m then (m, len / m) else (n, w)
  if p.1 * p.2 < len then (p.1 + 1, p.2) else p

/-- the loop over the pieces, GausHitFinder_module.cc:379-412: first and last tick of each -/
def cut (w stop : Nat) : Nat → Nat → Nat → List (Nat × Nat)
  | 0, _, _ => []
  | k + 1, first, last => (first, last) :: cut w stop k last (min (last + w) stop)

/-- The pieces of the pulse from `start` to `stop`, GausHitFinder_module.cc:369-412. -/
def longPulse (w m start stop : Nat) : List (Nat × Nat) :=
  let p := pieces (stop - start) w m
  cut p.2 stop p.1 start (min (start + p.2) stop)

/-- what is used of `PeakFitParams_t`; `ok` is false if the amplitude is not a number -/
structure Peak where
  ok : Bool
  amp : ℚ
  center : ℚ
  sigma : ℚ
deriving DecidableEq, Repr

/-- sum of the samples from tick `lo` to tick `hi`, exclusive -/
def sumAdc (signal : ℤ → ℚ) (lo hi : ℤ) : ℚ := ((List.range (hi - lo).toNat).map fun (k : Nat) => signal (lo + (k : ℤ))).sum

/-- the parameters of a piece, GausHitFinder_module.cc:388-405 -/
def pieceParams (signal : ℤ → ℚ) (p : Nat × Nat) : Peak :=
  let sigma := ((p.2 : ℚ) - p.1) / 3
  ⟨true, 3989 / 10000 * sumAdc signal p.1 p.2 / sigma, ((p.1 : ℚ) + p.2) / 2, sigma⟩

/-! ### Hits of a pulse -/

/-- a hit: its local index, the position of its parameters, the ticks of its sum -/
structure GHit where
  idx : Nat
  pos : Nat
  lo : ℤ
  hi : ℤ
deriving DecidableEq, Repr

/-- the state of the loop over the peaks: `numHits`, `newleft`, `newright`, the hits -/
structure St where
  n : Nat
  left : ℚ
  right : ℚ
  out : List GHit
deriving DecidableEq, Repr

/-- the border between a peak and the next one, GausHitFinder_module.cc:489-492 and 498-501 -/
def borderQ (a b : Peak) : ℚ := a.center + (b.center - a.center) * (a.sigma / (a.sigma + b.sigma))

/-- the same as a position in the samples: both terms are converted on their own -/
def borderZ (a b : Peak) : ℤ := trunc a.center + trunc ((b.center - a.center) * (a.sigma / (a.sigma + b.sigma)))

/-- do the two sigma ranges of two peaks overlap?  GausHitFinder_module.cc:488 and 497 -/
def overlap (a b : Peak) : Bool := decide (b.center - 2 * b.sigma < a.center + 2 * a.sigma)

/-- start of the sum and `newleft`, GausHitFinder_module.cc:479-494 -/
def leftOf (nG : Nat) (ps : List Peak) (s : St) (p : Peak) : ℤ × ℚ :=
  let l0 := if s.n = 0 then -9999 else s.left
  match (if 1 < nG ∧ 0 < s.n then ps[s.n - 1]? else none) with
  | some q => if overlap q p then (borderZ q p, borderQ q p) else (trunc p.center - trunc (2 * p.sigma), l0)
  | none => (trunc p.center - trunc (2 * p.sigma), l0)

/-- end of the sum and `newright`, GausHitFinder_module.cc:481-503; `at(numHits + 1)` exists unless the number of Gaussians
is larger than the number of parameters -/
def rightOf (nG : Nat) (ps : List Peak) (s : St) (p : Peak) : ℤ × ℚ :=
  let r0 := if s.n = 0 then 9999 else s.right
  match (if 1 < nG ∧ s.n + 1 < nG then ps[s.n + 1]? else none) with
  | some q => if overlap p q then (borderZ p q, borderQ p q) else (trunc p.center + trunc (2 * p.sigma), r0)
  | none => (trunc p.center + trunc (2 * p.sigma), r0)

/-- One peak, GausHitFinder_module.cc:432-554.  A `continue` does not count the peak. -/
def peakStep (nG : Nat) (start stop : ℤ) (ps : List Peak) (s : St) (ip : Nat × Peak) : St :=
  if ip.2.ok = false then
    ⟨s.n, if s.n = 0 then -9999 else s.left, if s.n = 0 then 9999 else s.right, s.out⟩
  else
    let l := leftOf nG ps s ip.2
    let r := rightOf nG ps s ip.2
    if r.2 - l.2 < 0 then ⟨s.n, l.2, r.2, s.out⟩
    else
      let lo := if l.1 < start then start else l.1
      let hi := if r.1 > stop then stop else r.1
      if lo > hi then ⟨s.n, l.2, r.2, s.out⟩
      else ⟨s.n + 1, l.2, r.2, s.out ++ [⟨s.n, ip.1, lo, hi⟩]⟩

/-- The hits of a pulse, GausHitFinder_module.cc:418-555. -/
def pulseHits (nG : Nat) (start stop : ℤ) (ps : List Peak) : List GHit :=
  (((List.range ps.length).zip ps).foldl (peakStep nG start stop ps) ⟨0, 0, 0, []⟩).out

/-- charge by area without the factor sqrt(2 pi), GausHitFinder_module.cc:258-264 -/
def areaCharge (norm : ℚ) (amp sigma : ℚ) : ℚ := amp * sigma / norm

/-- error of the charge without the factor sqrt(pi), GausHitFinder_module.cc:468-469 -/
def chargeErr (ampErr sigmaErr : ℚ) : ℚ := ampErr * sigmaErr + sigmaErr * ampErr

/-! ### Filter -/

/-- what the filter reads of a hit -/
structure FHit where
  id : Nat
  amp : ℚ
  rms : ℚ
  time : ℚ
deriving DecidableEq, Repr

/-- is the hit too small?  GausHitFinder_module.cc:590-594 -/
def small (largest thr : ℚ) (h : FHit) : Bool := decide (h.amp < 8 ∧ h.amp / largest < thr)

/-- The cuts on the hits of a pulse, sorted by falling amplitude, before they are sorted by time,
GausHitFinder_module.cc:574-598. -/
def cutSorted (phCut widCut thr : ℚ) (sorted : List FHit) : List FHit :=
  match sorted with
  | [] => []
  | f :: t =>
    if f.amp < phCut ∨ f.rms < widCut then []
    else if t = [] then [f]
    else (f :: t).takeWhile fun h => !small f.amp thr h

/-- `IsGoodHit`, HitFilterAlg.cxx:16-37: `hs` and `ss` are the smallest heights and widths of the planes -/
def isGood (hs ss : List ℚ) (plane : Nat) (h : FHit) : Bool :=
  match hs[plane]?, ss[plane]? with
  | some a, some b => decide (h.amp > a ∧ h.rms > b)
  | _, _ => true

/-! ### Schedules -/

/-- The order in which the tasks (one per wire and region) append their hits to the concurrent vector,
GausHitFinder_module.cc:284-620: any task that is not done appends its next hit. -/
inductive Interleave {α : Type} : List (List α) → List α → Prop
  | done (ts : List (List α)) : (∀ l ∈ ts, l = []) → Interleave ts []
  | step (ts : List (List α)) (i : Nat) (a : α) (l out : List α) : ts[i]? = some (a :: l) →
      Interleave (ts.set i l) out → Interleave ts (a :: out)

/-! ### Products -/

/-- instances declared in the constructor, GausHitFinder_module.cc:158-166 -/
def declared (name : String) : List String := if name ≠ "" then [name, ""] else [name]

/-- instances put into the event, GausHitFinder_module.cc:634-650; `all` tells whether it is the collection of all hits -/
def putInto (filter : Bool) (name : String) : List (String × Bool) :=
  if filter then (if name = "" then [("", false)] else [("", false), (name, true)]) else [(name, true)]

/-- `FillOutHitParameterVector`, GausHitFinder_module.cc:173-191 -/
def fillOut (nPlanes : Nat) (v : List ℚ) : Option (List ℚ) :=
  if v.length = 0 then none
  else if v.length = 1 then some (List.replicate nPlanes (v.headD 0))
  else if v.length = nPlanes then some v else none

/-! ### Peak fitters -/

/-- a candidate: centre, width, height -/
structure Cand where
  center : ℚ
  sigma : ℚ
  height : ℚ
deriving DecidableEq, Repr

/-- configuration of the fitters -/
structure FitCfg where
  minWidth : ℚ
  maxWidthMult : ℚ
  peakRange : ℚ
  ampRange : ℚ

/-- parameters of a Gaussian: amplitude, mean, width -/
abbrev Par := ℚ × ℚ × ℚ

/-- start value, lower and upper limits given to the fit, PeakFitterMrqdt_tool.cc:86-107 (`shift` is 1/2) and
PeakFitterGaussian_tool.cc:277-301 (`shift` 0; the baseline is subtracted from the height) -/
def startPars (c : FitCfg) (shift start roi base : ℚ) (h : Cand) : Par × Par × Par :=
  let mean := h.center - shift - start
  let amp := h.height - base
  ((amp, mean, h.sigma),
   (amp * (1 / 10), max (mean - c.peakRange * h.sigma) 0, max c.minWidth (1 / 10 * h.sigma)),
   (amp * c.ampRange, min (mean + c.peakRange * h.sigma) roi, c.maxWidthMult * h.sigma))

/-- what is returned for the fitted parameters, PeakFitterMrqdt_tool.cc:139-147 -/
def fitted (shift start : ℚ) (p : Par) : Peak := ⟨true, p.1, p.2.1 + shift + start, |p.2.2|⟩

/-- state of `FindShiftedGaussian`: `minDiff` (`none`: the largest number) and the pair -/
abbrev ShSt := Option ℚ × Option (ℚ × ℚ)

/-- one pair of centres, PeakFitterGaussian_tool.cc:461-467 -/
def shiftStep (s : ShSt) (p : ℚ × ℚ) : ShSt :=
  match s.1 with
  | none => (some (p.1 - p.2), some p)
  | some m => if |p.1 - p.2| < m then (some (p.1 - p.2), some p) else s

/-- `FindShiftedGaussian`, PeakFitterGaussian_tool.cc:450-474 -/
def shifted (cands peaks : List ℚ) : Option (ℚ × ℚ) :=
  ((cands.flatMap fun c => peaks.map fun p => (c, p)).foldl shiftStep (none, none)).2

/-- The number of peaks returned by `PeakFitterGaussian`, PeakFitterGaussian_tool.cc:167-262: `fit` and `refit` are the
results of the fits (chi2 per degree of freedom; `none` if they fail), `cand` tells if there is a candidate to add. -/
def numPeaks (refitOn : Bool) (thr improve : ℚ) (n : Nat) (fit : Option ℚ) (cand : Bool) (refit : Option ℚ) : Nat :=
  match fit with
  | none => 0
  | some c =>
    if refitOn ∧ c > thr ∧ cand then
      match refit with
      | some c' => if c' * improve < c ∨ c' < thr then n + 1 else n
      | none => n
    else n

/-- Multiplicity given to the hits of a pulse, GausHitFinder_module.cc:345 and 383: the number of candidates, or of pieces
of a long pulse; `n` is `fMaxMultiHit`. -/
def multiplicity (maxMulti : Nat) (chi2Cut : ℚ) (cands : Nat) (chi2 : ℚ) (nPieces : Nat) : Nat :=
  if cands > maxMulti ∨ cands * chi2 > chi2Cut then nPieces else cands

end Verif.Gaus

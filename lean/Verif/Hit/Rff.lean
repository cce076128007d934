import Verif.Hit.GaussElim
import Mathlib.Algebra.BigOperators.Group.List.Basic
import Mathlib.Algebra.Order.BigOperators.Group.List
/-!
# Regions above threshold and the RFF hit fitter: model
Source: `/repo/larreco/HitFinder/RegionAboveThresholdFinder.cxx`, `RFFHitFitter.cxx`, `RFFHitFinderAlg.cxx`. Numbers are
exact rationals; the square root is an arbitrary function `sq`. A signal of 0 divides by zero: 0 in the model, infinity or
NaN in the code.
-/
namespace Verif.Rff
open Verif Verif.GaussElim

/-! ## Regions -/

/-- the loop of `FillStartAndEndTicks`, RegionAboveThresholdFinder.cxx:23-34, from tick `i` on -/
def regionLoop (thr : ℚ) : List ℚ → Nat → Bool → List Nat × List Nat → List Nat × List Nat
  | [], i, inRat, (st, en) => (st, if inRat then en ++ [i] else en)
  | x :: l, i, inRat, (st, en) =>
    if inRat = false ∧ thr ≤ x then regionLoop thr l (i + 1) true (st ++ [i], en)
    else if inRat = true ∧ x < thr then regionLoop thr l (i + 1) false (st, en ++ [i])
    else regionLoop thr l (i + 1) inRat (st, en)

/-- `FillStartAndEndTicks`, RegionAboveThresholdFinder.cxx:15-41; the old contents of the two vectors are cleared -/
def fillStartAndEndTicks (thr : ℚ) (signal : List ℚ) (_starts _ends : List Nat) : Res (List Nat × List Nat) :=
  let r := regionLoop thr signal 0 false ([], [])
  if r.2.length ≠ r.1.length then .throw else .ok r

/-! ## Fitter -/

/-- the members of `RFFHitFitter`, RFFHitFitter.h:66-87 -/
structure Fitter where
  match_ : ℚ
  minMult : Nat
  thr : ℚ
  mean : List ℚ := []
  sigma : List ℚ := []
  meanErr : List ℚ := []
  sigmaErr : List ℚ := []
  amp : List ℚ := []
  ampErr : List ℚ := []
  set : List (ℚ × ℚ) := []
  merge : List (List (ℚ × ℚ)) := []

/-- `ClearResults`, RFFHitFitter.cxx:184-194 -/
def clear (f : Fitter) : Fitter :=
  { f with
    mean := []
    sigma := []
    meanErr := []
    sigmaErr := []
    amp := []
    ampErr := []
    set := []
    merge := [] }

/-- `SetFitterParams`, RFFHitFitter.cxx:33-43 -/
def setParams (f : Fitter) (m : ℚ) (k : Nat) (t : ℚ) : Fitter :=
  clear { f with match_ := m, minMult := if k = 0 then 1 else k, thr := t }

/-- `this_dev`, RFFHitFitter.cxx:65 -/
def dev (s : List ℚ) (i : Nat) : ℚ := 1 / 2 * (s.getD (i + 1) 0 - s.getD (i - 1) 0) / s.getD i 0

/-- `std::multiset::insert` with the order of the means: after the elements with an equal mean -/
def insertUB (p : ℚ × ℚ) : List (ℚ × ℚ) → List (ℚ × ℚ)
  | [] => [p]
  | q :: l => if p.1 < q.1 then p :: q :: l else q :: insertUB p l

/-- the estimate at tick `i`, RFFHitFitter.cxx:70-75 -/
def estimate (sq : ℚ → ℚ) (s : List ℚ) (slope : ℚ) (i : Nat) : ℚ × ℚ :=
  (-1 * (dev s i - slope * i) / slope, sq (-1 / slope))

/-- the loop of `CalculateAllMeansAndSigmas`, RFFHitFitter.cxx:64-78, over the given ticks -/
def estLoop (sq : ℚ → ℚ) (s : List ℚ) : List Nat → ℚ → List (ℚ × ℚ) → List (ℚ × ℚ)
  | [], _, set => set
  | i :: l, prev, set =>
    if 0 ≤ dev s i - prev then estLoop sq s l (dev s i) set
    else estLoop sq s l (dev s i) (insertUB (estimate sq s (dev s i - prev) i) set)

/-- `CalculateAllMeansAndSigmas`, RFFHitFitter.cxx:54-79 -/
def estimates (sq : ℚ → ℚ) (s : List ℚ) (set : List (ℚ × ℚ)) : List (ℚ × ℚ) :=
  if s.length ≤ 2 then set else estLoop sq s (List.range' 1 (s.length - 2)) 0 set

/-- the loop of `CreateMergeVector`, RFFHitFitter.cxx:87-94 -/
def mergeLoop (m : ℚ) : List (ℚ × ℚ) → ℚ → List (List (ℚ × ℚ)) → List (List (ℚ × ℚ))
  | [], _, gs => gs
  | p :: l, prev, gs =>
    if m < |p.1 - prev| ∨ gs = [] then mergeLoop m l p.1 (gs ++ [[p]])
    else mergeLoop m l p.1 (gs.modify (gs.length - 1) (· ++ [p]))

/-- the average of a group, RFFHitFitter.cxx:111-119 -/
def avg (l : List ℚ) : ℚ := l.sum / l.length

/-- the spread of a group, RFFHitFitter.cxx:127-137 -/
def spread (sq : ℚ → ℚ) (l : List ℚ) : ℚ := sq ((l.map fun x => (x - avg l) * (x - avg l)).sum) / l.length

/-- the loop of `CalculateMergedMeansAndSigmas`, RFFHitFitter.cxx:104-138, for a signal of `n` ticks -/
def mergedLoop (sq : ℚ → ℚ) (n : Nat) (f : Fitter) : List (List (ℚ × ℚ)) → Fitter
  | [] => f
  | g :: gs =>
    if g.length < f.minMult then mergedLoop sq n f gs
    else if avg (g.map (·.1)) < 0 ∨ (n : ℚ) - 1 < avg (g.map (·.1)) then mergedLoop sq n f gs
    else
      mergedLoop sq n
        { f with
          mean := f.mean ++ [avg (g.map (·.1))]
          sigma := f.sigma ++ [avg (g.map (·.2))]
          meanErr := f.meanErr ++ [spread sq (g.map (·.1))]
          sigmaErr := f.sigmaErr ++ [spread sq (g.map (·.2))] } gs

/-- the tick below a mean, RFFHitFitter.cxx:147-152 -/
def binOf (n : Nat) (m : ℚ) : Nat := if m < 0 then 0 else if (n : ℚ) < m + 1 then n - 2 else ⌊m⌋.toNat

/-- the height at one mean, RFFHitFitter.cxx:147-160 -/
def height (s : List ℚ) (m : ℚ) : Res ℚ :=
  if s.length - 1 ≤ binOf s.length m then .throw
  else .ok (s.getD (binOf s.length m) 0 -
    (m - binOf s.length m) * (s.getD (binOf s.length m) 0 - s.getD (binOf s.length m + 1) 0))

/-- the loop over the means, RFFHitFitter.cxx:146-161 -/
def heights (s : List ℚ) : List ℚ → Res (List ℚ)
  | [] => .ok []
  | m :: l => (height s m).bind fun h => (heights s l).bind fun hs => .ok (h :: hs)

/-- erasing element `i` of all vectors, RFFHitFitter.cxx:168-173; `ub` = beyond the end of one of them -/
def eraseAt (f : Fitter) (hs : List ℚ) (i : Nat) : Res (Fitter × List ℚ) :=
  if i < f.mean.length ∧ i < f.meanErr.length ∧ i < f.sigma.length ∧ i < f.sigmaErr.length ∧ i < f.amp.length ∧
      i < hs.length then
    .ok ({ f with
        mean := f.mean.eraseIdx i
        meanErr := f.meanErr.eraseIdx i
        sigma := f.sigma.eraseIdx i
        sigmaErr := f.sigmaErr.eraseIdx i
        amp := f.amp.eraseIdx i }, hs.eraseIdx i)
  else .ub

/-- the inner loop, RFFHitFitter.cxx:166-175: after an erase the following element is skipped; the first argument
counts the rounds -/
def eraseLoop : Nat → Nat → Fitter → List ℚ → Res (Fitter × List ℚ)
  | 0, _, f, hs => .ok (f, hs)
  | k + 1, i, f, hs =>
    match f.amp[i]? with
    | none => .ok (f, hs)
    | some a => if a < f.thr then (eraseAt f hs i).bind fun r => eraseLoop k (i + 1) r.1 r.2 else eraseLoop k (i + 1) f hs

/-- the outer loop, RFFHitFitter.cxx:165-177; `solve` is `SolveEquations`; `none` = still running after the given number
of rounds -/
def dropLoop (solve : List ℚ → List ℚ → List ℚ → Res (List ℚ)) : Nat → Fitter → List ℚ → Option (Res Fitter)
  | 0, _, _ => none
  | k + 1, f, hs =>
    if f.amp.any (· < f.thr) then
      match eraseLoop f.amp.length 0 f hs with
      | .ok (f1, hs1) =>
        match solve f1.mean f1.sigma hs1 with
        | .ok a => dropLoop solve k { f1 with amp := a } hs1
        | .throw => some .throw
        | .ub => some .ub
      | .throw => some .throw
      | .ub => some .ub
    else some (.ok f)

/-- `CalculateAmplitudes`, RFFHitFitter.cxx:141-180 -/
def amplitudes (solve : List ℚ → List ℚ → List ℚ → Res (List ℚ)) (fuel : Nat) (s : List ℚ) (f : Fitter) :
    Option (Res Fitter) :=
  match heights s f.mean with
  | .ok hs =>
    match solve f.mean f.sigma hs with
    | .ok a =>
      (dropLoop solve fuel { f with amp := a } hs).map fun r =>
        r.bind fun f1 => .ok { f1 with ampErr := resize f1.ampErr f1.amp.length }
    | .throw => some .throw
    | .ub => some .ub
  | .throw => some .throw
  | .ub => some .ub
where
  /-- `std::vector::resize(n, 0.0)` -/
  resize (l : List ℚ) (n : Nat) : List ℚ := l.take n ++ List.replicate (n - l.length) 0

/-- `RunFitter`, RFFHitFitter.cxx:45-52 -/
def runFitter (sq : ℚ → ℚ) (solve : List ℚ → List ℚ → List ℚ → Res (List ℚ)) (fuel : Nat) (f : Fitter) (s : List ℚ) :
    Option (Res Fitter) :=
  let f0 := clear f
  let f1 := { f0 with set := estimates sq s f0.set }
  let f2 := { f1 with merge := mergeLoop f1.match_ f1.set (-9000000) [] }
  amplitudes solve fuel s (mergedLoop sq s.length f2 f2.merge)

/-! ## Hits -/

/-- the numbers of a `recob::Hit` that `EmplaceHit` computes -/
structure Hit where
  start : Int
  stop : Int
  peak : ℚ
  rms : ℚ
  amp : ℚ
  roiADC : ℚ
  integral : ℚ
  mult : Nat
  index : Nat
deriving DecidableEq

/-- the area of one hit, RFFHitFinderAlg.cxx:94; `c` stands for the square root of 2π -/
def area (c : ℚ) (f : Fitter) (i : Nat) : ℚ := f.amp.getD i 0 * f.sigma.getD i 0 * c

/-- `EmplaceHit`, RFFHitFinderAlg.cxx:79-126: the new hits. The errors of the areas are not modelled. -/
def emplaceHits (c : ℚ) (f : Fitter) (summed : ℚ) (start stop : Int) : List Hit :=
  let total := ((List.range f.mean.length).map (area c f)).sum
  (List.range f.mean.length).map fun i =>
    { start := start
      stop := stop
      peak := f.mean.getD i 0 + start
      rms := f.sigma.getD i 0
      amp := f.amp.getD i 0
      roiADC := summed * (area c f i / total)
      integral := area c f i
      mult := f.mean.length
      index := i }

/-- one of the three vectors in `SetFitterParamsVectors`, RFFHitFinderAlg.cxx:40-47 -/
def spreadVec {α : Type} (n : Nat) : List α → List α
  | [x] => List.replicate n x
  | l => l

/-- `SetFitterParamsVectors`, RFFHitFinderAlg.cxx:27-48 -/
def setParamsVectors (n : Nat) (m : List ℚ) (k : List Nat) (t : List ℚ) : Res (List ℚ × List Nat × List ℚ) :=
  if m.length = 0 ∨ k.length = 0 ∨ t.length = 0 then .throw
  else if (1 < m.length ∧ m.length < n) ∨ (1 < k.length ∧ k.length < n) ∨ (1 < t.length ∧ t.length < n) then .throw
  else .ok (spreadVec n m, spreadVec n k, spreadVec n t)

end Verif.Rff

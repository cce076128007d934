import Mathlib.Data.Rat.Floor
import Mathlib.Algebra.Order.Field.Rat
import Mathlib.Data.List.Sort

/-!
# `hit::CCHitFinderAlg`

Models larreco/RecoAlg/CCHitFinderAlg.cxx (without the study mode, `fStudyHits`).  The signal of a wire is a function
on ticks, of which the ticks `0 .. n - 1` exist.  Numbers are rational instead of floating point.  The Gaussian fits
(the fast one and that of ROOT) and the square root are arbitrary functions.
-/

namespace Verif.CCHit

/-- The parameters of one Gaussian: larreco/RecoAlg/CCHitFinderAlg.cxx:385-388 (`par`). -/
structure Par where
  amp : ℚ
  time : ℚ
  rms : ℚ
  deriving DecidableEq, Repr

/-- Settings for a plane, larreco/RecoAlg/CCHitFinderAlg.cxx:50-51. -/
structure PlaneCfg where
  minPeak : ℚ
  minRMS : ℚ

/-- Settings, larreco/RecoAlg/CCHitFinderAlg.cxx:50-54. -/
structure Cfg where
  planes : List PlaneCfg
  maxBumps : Nat
  maxXtra : Nat
  chiSplit : ℚ

/-- What is not modelled: the fit of a number of Gaussians to samples, giving their parameters and the chi square,
larreco/RecoAlg/CCHitFinderAlg.cxx:289-396; the square root; `Sqrt2Pi`. -/
structure Tools where
  fit : Nat → List ℚ → List Par × ℚ
  root : ℚ → ℚ
  c : ℚ

/-- The fields of a hit, larreco/RecoAlg/CCHitFinderAlg.cxx:544-562. -/
structure Hit where
  chan : Nat
  startTick : Nat
  endTick : Nat
  time : ℚ
  rms : ℚ
  amp : ℚ
  summed : ℚ
  integral : ℚ
  mult : Nat
  idx : Nat
  gof : ℚ
  dof : Int
  deriving DecidableEq, Repr

/-- The data members, larreco/RecoAlg/CCHitFinderAlg.h; the statistics are the lists of the numbers of Gaussians that were
counted. -/
structure St where
  par : List Par
  chidof : ℚ
  dof : Int
  hits : List Hit
  tried : List Nat
  final : List Nat
  deriving DecidableEq, Repr

/-- A new object. -/
def St.new : St := ⟨[], 0, 0, [], [], []⟩

/-- `maxtime`, an `unsigned short`: larreco/RecoAlg/CCHitFinderAlg.cxx:142. -/
def maxtime (n : Nat) : Nat := (n + 65534) % 65536

/-- `mintime`, larreco/RecoAlg/CCHitFinderAlg.cxx:144-150. -/
def mintime (s : Nat → ℚ) (n : Nat) (thr : ℚ) : Nat :=
  ((List.range' 3 (maxtime n - 3)).find? fun t => decide (s t < thr)).getD 3

/-- The loop that finds the regions above threshold, larreco/RecoAlg/CCHitFinderAlg.cxx:151-222: their first tick and the
tick after the last; `fuel` is at least the number of ticks left. -/
def ratLoop (s : Nat → ℚ) (thr : ℚ) (minS M : Nat) : Nat → Nat → Nat → Nat → List (Nat × Nat)
  | 0, _, _, _ => []
  | f + 1, time, nabove, tstart =>
    if time < M then
      if s time > thr then ratLoop s thr minS M f (time + 1) (nabove + 1) (if nabove = 0 then time else tstart)
      else if nabove > minS then
        if nabove > 1000 then [] else (tstart, time) :: ratLoop s thr minS M f (time + 1) 0 tstart
      else ratLoop s thr minS M f (time + 1) 0 tstart
    else []

/-- The regions of a wire. -/
def rats (s : Nat → ℚ) (n : Nat) (thr : ℚ) (minS : Nat) : List (Nat × Nat) :=
  ratLoop s thr minS (maxtime n) (maxtime n) (mintime s n thr) 0 0

/-- `minSamples`, larreco/RecoAlg/CCHitFinderAlg.cxx:133. -/
def minSamples (pc : PlaneCfg) : Nat := ⌊2 * pc.minRMS⌋.toNat

/-- The bumps of a region, larreco/RecoAlg/CCHitFinderAlg.cxx:167-178. -/
def bumps (s : Nat → ℚ) (a b : Nat) : List Nat :=
  (List.range (b - a)).filter fun i => decide (s (a + i) > s (a + i - 1) ∧ s (a + i - 1) > s (a + i - 2) ∧
    s (a + i) > s (a + i + 1) ∧ s (a + i + 1) > s (a + i + 2))

/-- The samples of a region, larreco/RecoAlg/CCHitFinderAlg.cxx:171-172. -/
def samples (s : Nat → ℚ) (a b : Nat) : List ℚ := (List.range' a (b - a)).map s

/-- Conversion to `short`, towards zero (larreco/RecoAlg/CCHitFinderAlg.cxx:437). -/
def trunc (x : ℚ) : Int := if 0 ≤ x then ⌊x⌋ else ⌈x⌉

/-- The order of `std::pair`, larreco/RecoAlg/CCHitFinderAlg.cxx:405. -/
def pairLE (x y : Nat × Nat) : Prop := x.1 < y.1 ∨ (x.1 = y.1 ∧ x.2 ≤ y.2)

instance : DecidableRel pairLE := fun x y => by unfold pairLE; infer_instance

/-- The Gaussians in the order of their times as `unsigned short`, larreco/RecoAlg/CCHitFinderAlg.cxx:399-430.  (Times that
do not fit into an `unsigned short` are refused afterwards in any order.) -/
def sortPar (p : List Par) : List Par :=
  ((p.zipIdx.map fun x => (⌊x.1.time⌋.toNat, x.2)).insertionSort pairLE).filterMap fun x => p[x.2]?

/-- The checks of a fit, larreco/RecoAlg/CCHitFinderAlg.cxx:433-464. -/
def fitOk (pc : PlaneCfg) (npt : Nat) (p : List Par) : Bool :=
  (List.range p.length).all fun i =>
    match p[i]? with
    | none => true
    | some q =>
      !(decide (trunc q.time < 0 ∨ trunc q.time > (npt : Int) - 1)) && !(decide (q.amp < pc.minPeak)) &&
      !(decide (q.rms < 1 / 2 * pc.minRMS ∨ q.rms > 5 * pc.minRMS)) &&
      (List.range p.length).all fun j =>
        j == i || match p[j]? with
          | none => true
          | some r => !(decide (|r.time - q.time| < 2))

/-- `FitNG`, larreco/RecoAlg/CCHitFinderAlg.cxx:284-474. -/
def fitNG (T : Tools) (pc : PlaneCfg) (sig : List ℚ) (bs : List Nat) (nG : Nat) (st : St) : St :=
  if (sig.length : Int) - 3 * nG < 3 then { st with dof := (sig.length : Int) - 3 * nG, chidof := 9999 }
  else if bs = [] then { st with dof := (sig.length : Int) - 3 * nG, chidof := 9999 }
  else
    let r := T.fit nG sig
    let p := if nG > 1 then sortPar r.1 else r.1
    if fitOk pc sig.length p then
      { st with par := p, chidof := r.2, dof := (sig.length : Int) - 3 * nG, tried := st.tried ++ [nG] }
    else { st with chidof := 9999, dof := -1, tried := st.tried ++ [nG] }

/-- `MakeCrudeHit`, larreco/RecoAlg/CCHitFinderAlg.cxx:477-508. -/
def crude (T : Tools) (sig : List ℚ) (st : St) : St :=
  let sumS := sig.sum
  let mean := (sig.zipIdx.map fun x => x.1 * (x.2 : ℚ)).sum / sumS
  let rms := T.root ((sig.zipIdx.map fun x => x.1 * ((x.2 : ℚ) - mean) * ((x.2 : ℚ) - mean)).sum / sumS)
  { st with par := [⟨sumS / (T.c * rms), mean, rms⟩], chidof := 9999, dof := -1 }

/-- `StoreHits`, larreco/RecoAlg/CCHitFinderAlg.cxx:511-562. -/
def store (T : Tools) (chan a : Nat) (sig : List ℚ) (st : St) : St :=
  let gsum := (st.par.map fun p => T.c * p.amp * p.rms).sum
  { st with hits := st.hits ++ st.par.zipIdx.map fun x =>
      ⟨chan, a, a + sig.length, x.1.time + a, x.1.rms, x.1.amp, sig.sum * (T.c * x.1.amp * x.1.rms) / gsum,
        T.c * x.1.amp * x.1.rms, st.par.length, x.2, st.chidof, st.dof⟩ }

/-- The loop of the fits, larreco/RecoAlg/CCHitFinderAlg.cxx:195-211; returns `HitStored`, `nHitsFit` and the object. -/
def tryFits (cfg : Cfg) (T : Tools) (pc : PlaneCfg) (chan a : Nat) (sig : List ℚ) (bs : List Nat) :
    Nat → Nat → St → Bool × Nat × St
  | 0, nG, st => (false, nG, st)
  | k + 1, nG, st =>
    let st1 := fitNG T pc sig bs nG st
    if st1.chidof < cfg.chiSplit then (true, nG, store T chan a sig st1)
    else tryFits cfg T pc chan a sig bs k (nG + 1) st1

/-- What is done with a region, larreco/RecoAlg/CCHitFinderAlg.cxx:164-219. -/
def region (cfg : Cfg) (T : Tools) (pc : PlaneCfg) (chan a : Nat) (sig : List ℚ) (bs : List Nat) (st : St) : St :=
  if bs.length > cfg.maxBumps then store T chan a sig (crude T sig st)
  else
    let r := tryFits cfg T pc chan a sig bs (cfg.maxXtra + 1) bs.length { st with chidof := 0, dof := -1 }
    if r.1 = false ∧ sig.length < 1000 then store T chan a sig (crude T sig r.2.2)
    else if r.2.1 > 0 then { r.2.2 with final := r.2.2.final ++ [r.2.1] } else r.2.2

/-- A wire. -/
structure Wire where
  chan : Nat
  bad : Bool
  plane : Nat
  n : Nat
  s : Nat → ℚ

/-- One wire, larreco/RecoAlg/CCHitFinderAlg.cxx:133-222. -/
def wire (cfg : Cfg) (T : Tools) (pc : PlaneCfg) (w : Wire) (st : St) : St :=
  (rats w.s w.n pc.minPeak (minSamples pc)).foldl
    (fun st r => region cfg T pc w.chan r.1 (samples w.s r.1 r.2) (bumps w.s r.1 r.2) st) st

/-- The loop over the wires, larreco/RecoAlg/CCHitFinderAlg.cxx:117-223; it ends at a plane without settings
(with no settings at all the check of the code wraps around, which is not modelled). -/
def wires (cfg : Cfg) (T : Tools) : List Wire → St → St
  | [], st => st
  | w :: t, st =>
    if w.bad then wires cfg T t st
    else match cfg.planes[w.plane]? with
      | none => st
      | some pc => wires cfg T t (wire cfg T pc w st)

/-- `RunCCHitFinder`, larreco/RecoAlg/CCHitFinderAlg.cxx:98-234. -/
def run (cfg : Cfg) (T : Tools) (ws : List Wire) (st : St) : St := wires cfg T ws { st with hits := [] }

/-- The statistics as printed: the number of fits with `k` Gaussians (`20`: or more), larreco/RecoAlg/CCHitFinderAlg.cxx:754-757. -/
def stat (l : List Nat) (k : Nat) : Nat := (l.map fun n => min n 20).count k

end Verif.CCHit

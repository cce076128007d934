import Verif.Basic
import Mathlib.Algebra.Order.Field.Basic
import Mathlib.Algebra.Order.Archimedean.Basic
/-!
# Model of the multiple-scattering momentum fit
Source: `/repo/larreco/RecoAlg/TrajectoryMCSFitter.cxx`.

Numbers are an ordered field; `float`/`double` rounding is not modelled. The geometry enters through arbitrary functions:
`proj d a b` is the component of the step from point `a` to point `b` along the direction at point `d`, `step a b`
its length (after the optional space-charge correction). The likelihood is an arbitrary function of the momentum;
values of at least `big` (`numeric_limits<float>::max()`) stand for rejected momenta.
-/
namespace Verif.Mcs
open Verif

section
variable {R : Type} [Field R] [LinearOrder R]

/-! ## Segmentation -/

/-- loop state of `breakTrajInSegments`; a radiation length of -999 is `none`; lengths in the vectors are kept in cm -/
structure Seg (R : Type) where
  bps : List Nat
  rads : List (Option R)
  cums : List R
  thislen : R
  totlen : R
  np : Nat
  dir : Nat
  prev : Nat

/-- one turn of the `while` loop, TrajectoryMCSFitter.cxx:111-151, for the valid point `i` -/
def segStep (proj : Nat → Nat → Nat → R) (step : Nat → Nat → R) (lim : R) (minHits : Nat) (s : Seg R) (i : Nat) : Seg R :=
  let dir := if s.np = 0 then i else s.dir
  let thislen := s.thislen + proj dir s.prev i
  let totlen := s.totlen + step s.prev i
  let np := s.np + 1
  if lim ≤ thislen then
    { bps := s.bps ++ [i], rads := s.rads ++ [if minHits ≤ np then some thislen else none],
      cums := s.cums ++ [totlen], thislen := 0, totlen := totlen, np := 0, dir := dir, prev := i }
  else { s with thislen := thislen, totlen := totlen, np := np, dir := dir, prev := i }

/-- the segment length used, TrajectoryMCSFitter.cxx:85-86 -/
def segLenUsed (trajlen segLen : R) (minNSegs : Nat) : R :=
  if segLen * minNSegs < trajlen then segLen else trajlen / minNSegs

/-- `breakTrajInSegments`, TrajectoryMCSFitter.cxx:74-159, on the list of valid points; without a valid point the
first access is out of range. `lim` is `thisSegLen - segLenTolerance_`. -/
def breakTraj (proj : Nat → Nat → Nat → R) (step : Nat → Nat → R) (lim : R) (minHits : Nat) (valid : List Nat) :
    Res (List Nat × List (Option R) × List R) :=
  match valid with
  | [] => .ub
  | v :: vs =>
    let s := vs.foldl (segStep proj step lim minHits) ⟨[v], [], [0], 0, 0, 0, v, v⟩
    if 0 < s.thislen then
      .ok (s.bps ++ [(v :: vs).getLastD 0 + 1], s.rads ++ [some s.thislen], s.cums ++ [s.cums.getLastD 0 + s.thislen])
    else .ok (s.bps, s.rads, s.cums)

/-- the cumulative lengths passed to the two scans, TrajectoryMCSFitter.cxx:52-55 (reached only with at least two
segments, :26) -/
def cumLens (cums : List R) : List R × List R :=
  ((List.range (cums.length - 2)).map (fun i => (cums[i]?).getD 0),
   (List.range (cums.length - 2)).map (fun i => cums.getLastD 0 - (cums[i + 2]?).getD 0))

/-! ## Likelihood scan -/

/-- momenta visited by `for (p = pmin; p <= pmax; p += pstep)`; `none`: step budget exhausted -/
def gridLoop (pmax step : R) : Nat → R → Option (List R)
  | 0, _ => none
  | f + 1, p => if p ≤ pmax then (gridLoop pmax step f (p + step)).map (p :: ·) else some []

/-- `best_idx` (`none` = -1), `best_p`, `best_logL` -/
structure Best (R : Type) where
  idx : Option Nat
  p : R
  logL : R

/-- scan loop, TrajectoryMCSFitter.cxx:175-183; `n` is `vlogL.size()` -/
def bestLoop (L : R → R) : List R → Nat → Best R → Best R
  | [], _, b => b
  | p :: ps, n, b => bestLoop L ps (n + 1) (if L p < b.logL then ⟨some n, p, L p⟩ else b)

/-- left uncertainty, TrajectoryMCSFitter.cxx:186-195: `j` counts down from `b - 1` -/
def leftLoop (v : Nat → R) (b : Nat) (step : R) : Nat → R
  | 0 => -1
  | j + 1 => if 1 / 2 ≤ v j - v b then ((b - j : Nat) : R) * step else leftLoop v b step j

/-- right uncertainty, TrajectoryMCSFitter.cxx:197-206: `n` entries remain from `j` on -/
def rightLoop (v : Nat → R) (b : Nat) (step : R) : Nat → Nat → R
  | 0, _ => -1
  | n + 1, j => if 1 / 2 ≤ v j - v b then ((j - b : Nat) : R) * step else rightLoop v b step n (j + 1)

/-- `ScanResult`, TrajectoryMCSFitter.h -/
structure ScanRes (R : Type) where
  p : R
  pUnc : R
  logL : R
deriving DecidableEq

/-- `doLikelihoodScan` over a given range, TrajectoryMCSFitter.cxx:161-208. If no momentum beats `big` the right-side
loop reads `vlogL[-1]`, unless nothing was scanned. -/
def scan (L : R → R) (big pmin pmax step : R) (fuel : Nat) : Option (Res (ScanRes R)) :=
  match gridLoop pmax step fuel pmin with
  | none => none
  | some g =>
    let b := bestLoop L g 0 ⟨none, -1, big⟩
    match b.idx with
    | none => if g.length = 0 then some (.ok ⟨b.p, max (-1) (-1), b.logL⟩) else some .ub
    | some i =>
      let v := fun k => L ((g[k]?).getD 0)
      some (.ok ⟨b.p, max (leftLoop v i step i) (rightLoop v i step (g.length - (i + 1)) (i + 1)), b.logL⟩)

/-- configuration of the two-stage scan -/
structure ScanCfg (R : Type) where
  pMin : R
  pMax : R
  coarse : R
  fine : R
  window : R

/-- the two-stage scan, TrajectoryMCSFitter.cxx:210-236 -/
def twoStage (L : R → R) (big : R) (c : ScanCfg R) (fuel : Nat) : Option (Res (ScanRes R)) :=
  match scan L big c.pMin c.pMax c.coarse fuel with
  | none => none
  | some .throw => some .throw
  | some .ub => some .ub
  | some (.ok r) =>
    let w := if r.pUnc < big - 1 then (max (r.p - 2 * r.pUnc) c.pMin, min (r.p + 2 * r.pUnc) c.pMax)
      else (max (r.p - c.window) c.pMin, min (r.p + c.window) c.pMax)
    scan L big w.1 w.2 c.fine fuel

/-! ## Energy along the track -/

/-- energy-loss mode `eLossMode_ == 1`, TrajectoryMCSFitter.cxx:399-403; `kcal` = 0.002105 -/
def getEMip (kcal e0 len : R) : R := e0 - kcal * len

/-- the other modes, TrajectoryMCSFitter.cxx:405-424: `n` remaining steps, `loss e` the loss in one step at energy `e` -/
def getELoop (loss : R → R) (m : R) : Nat → R → R
  | 0, e => e
  | n + 1, e => if e - loss e ≤ m then 0 else getELoop loss m n (e - loss e)

/-- the rejection test of `mcsLikelihood`, TrajectoryMCSFitter.cxx:337-344: is the momentum hypothesis kept? -/
def energyAccepted (m e : R) : Bool := !decide (e * e ≤ m * m)

end
end Verif.Mcs

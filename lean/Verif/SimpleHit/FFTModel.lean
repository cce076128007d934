import Mathlib.Data.Rat.Floor
import Mathlib.Algebra.Order.Field.Rat

/-!
# `hit::FFTHitFinder`

Models larreco/HitFinder/FFTHitFinder_module.cc.  The signal of a wire is a function `s` on ticks, of which the
ticks `0 .. n - 1` exist.  The fit is an arbitrary function.
-/

namespace Verif.FFTHit

/-- The variables of the search for extrema, larreco/HitFinder/FFTHitFinder_module.cc:96-103. -/
structure Scan where
  maxs : List Nat
  starts : List Nat
  ends : List Nat
  found : Bool
  hold : Nat
  deriving DecidableEq, Repr

/-- One tick: larreco/HitFinder/FFTHitFinder_module.cc:139-159. -/
def scanStep (s : Nat → ℚ) (thr : ℚ) (st : Scan) (t : Nat) : Scan :=
  if s t > s (t + 1) ∧ s (t + 1) < s (t + 2) then
    if st.found then { st with ends := st.ends ++ [t + 1], found := false, hold := t + 2 }
    else { st with hold := t + 1 }
  else if s t < s (t + 1) ∧ s (t + 1) > s (t + 2) ∧ s (t + 1) > thr then
    { st with found := true, maxs := st.maxs ++ [t + 1], starts := st.starts ++ [st.hold] }
  else st

/-- larreco/HitFinder/FFTHitFinder_module.cc:113-122 -/
def scan0 : Scan := ⟨[], [], [], false, 0⟩

/-- The loop over the signal, larreco/HitFinder/FFTHitFinder_module.cc:138-160. -/
def scan (s : Nat → ℚ) (n : Nat) (thr : ℚ) : Scan := (List.range (n - 2)).foldl (scanStep s thr) scan0

/-- The end times with those added at the end of the signal, larreco/HitFinder/FFTHitFinder_module.cc:162-164. -/
def ends (n : Nat) (st : Scan) : List Nat :=
  st.ends ++ List.replicate (st.maxs.length - st.ends.length) (n - 1)

/-- The loop that adds pulses to a group, larreco/HitFinder/FFTHitFinder_module.cc:197-205 (`k` is `numHits`). -/
def groupLen (s : Nat → ℚ) (thr : ℚ) (maxMulti : Int) (starts ends : List Nat) (h k : Nat) : Nat :=
  if ht : (k : Int) < maxMulti ∧ k + h < ends.length ∧ s (ends.getD (h + k - 1) 0) > thr / 2 ∧
      ((starts.getD (h + k) 0 : Nat) : Int) - (ends.getD (h + k - 1) 0 : Nat) < 2 then
    groupLen s thr maxMulti starts ends h (k + 1)
  else k
termination_by ends.length - k
decreasing_by omega

/-- The groups, as first hit and number of hits, larreco/HitFinder/FFTHitFinder_module.cc:186, 344; `fuel` is the
number of hits left (each group has a hit, so it does not end the loop). -/
def groups (s : Nat → ℚ) (thr : ℚ) (maxMulti : Int) (starts ends : List Nat) : Nat → Nat → List (Nat × Nat)
  | 0, _ => []
  | fuel + 1, h =>
    if h < starts.length then
      let k := groupLen s thr maxMulti starts ends h 1
      (h, k) :: groups s thr maxMulti starts ends fuel (h + k)
    else []

/-- The smallest peak of a group, larreco/HitFinder/FFTHitFinder_module.cc:190, 201-202. -/
def minPeak (s : Nat → ℚ) (maxs : List Nat) (h k : Nat) : ℚ :=
  ((List.range (k - 1)).map fun j => s (maxs.getD (h + (j + 1)) 0)).foldl (fun m x => if x < m then x else m)
    (s (maxs.getD h 0))

/-- `while (signal[startT] < minPeakHeight / 2) ++startT`, larreco/HitFinder/FFTHitFinder_module.cc:208-211;
`none`: beyond the signal. -/
def trimUp (s : Nat → ℚ) (n : Nat) (half : ℚ) (t : Nat) : Option Nat :=
  if t < n then if s t < half then trimUp s n half (t + 1) else some t else none
termination_by n - t

/-- `while (signal[endT] < minPeakHeight / 2) --endT`, larreco/HitFinder/FFTHitFinder_module.cc:214-217;
`none`: before the signal. -/
def trimDown (s : Nat → ℚ) (half : ℚ) : Nat → Option Nat
  | 0 => if s 0 < half then none else some 0
  | t + 1 => if s (t + 1) < half then trimDown s half t else some (t + 1)

/-- The window of a group: `startT`, `endT`. -/
def window (s : Nat → ℚ) (n : Nat) (st : Scan) (g : Nat × Nat) : Option (Nat × Nat) :=
  match trimUp s n (minPeak s st.maxs g.1 g.2 / 2) (st.starts.getD g.1 0),
    trimDown s (minPeak s st.maxs g.1 g.2 / 2) ((ends n st).getD (g.1 + g.2 - 1) 0) with
  | some a, some b => some (a, b)
  | _, _ => none

/-- What the fit gives for one pulse. -/
structure Pulse where
  amp : ℚ
  pos : ℚ
  width : ℚ

/-- The fields of a hit, larreco/HitFinder/FFTHitFinder_module.cc:318-337. -/
structure Hit where
  startTick : Nat
  endTick : Nat
  width : ℚ
  peakTime : ℚ
  peakAmp : ℚ
  summedADC : ℚ

/-- The hits of a group, larreco/HitFinder/FFTHitFinder_module.cc:218-343: `fit` gives the pulses, or `none` when the
decomposition of the matrix fails (which is only done for more than one pulse). -/
def groupHits (s : Nat → ℚ) (n : Nat) (thr minWidth : ℚ) (fit : Nat → Nat → Nat → Option (Nat → Pulse)) (st : Scan)
    (g : Nat × Nat) : List Hit :=
  match window s n st g with
  | none => []
  | some (a, b) =>
    match fit a b g.2 with
    | none => []
    | some p => ((List.range g.2).filter fun i => decide ((p i).amp > thr / 2 ∧ (p i).width > minWidth)).map fun i =>
        ⟨a, b, (p i).width, (p i).pos, (p i).amp, ((List.range' a (b - a)).map s).sum⟩

/-- The hits of a wire, larreco/HitFinder/FFTHitFinder_module.cc:137-345. -/
def wireHits (s : Nat → ℚ) (n : Nat) (thr minWidth : ℚ) (maxMulti : Int)
    (fit : Nat → Nat → Nat → Option (Nat → Pulse)) : List Hit :=
  let st := scan s n thr
  (groups s thr maxMulti st.starts (ends n st) st.starts.length 0).flatMap (groupHits s n thr minWidth fit st)

end Verif.FFTHit

import Mathlib.Data.Rat.Floor
import Mathlib.Algebra.Order.Field.Rat
import Mathlib.Data.List.Sort

/-!
# The hit finder of the dual phase detector

Models larreco/HitFinder/DPRawHitFinder_module.cc.  Numbers are rational instead of floating point.  A signal of `n` ticks is a function on the
integers: its values outside 0, ..., `n - 1` are what the program finds in the memory next to the vector.  The fit is an arbitrary function.
-/

namespace Verif.DPHit

/-- A candidate: start, maximum and end, larreco/HitFinder/DPRawHitFinder_module.cc:77. -/
structure Cand where
  start : Int
  max : Int
  stop : Int
  deriving DecidableEq, Repr

/-- `std::max_element` on `k + 1` ticks from `a`: the first of the highest (DPRawHitFinder_module.cc:1056). -/
def maxEl (s : Int → ℚ) (a : Int) : Nat → Int
  | 0 => a
  | k + 1 => let m := maxEl s a k; if s m < s (a + (k + 1)) then a + (k + 1) else m

/-- The check for the start of a peak, larreco/HitFinder/DPRawHitFinder_module.cc:1067-1075. -/
def isStart (s : Int → ℚ) (T : Nat) (i : Int) : Bool :=
  decide (s i ≤ 0) || (List.range T).all fun j => decide (s i < s (i - (j + 1)))

/-- The backward loop, larreco/HitFinder/DPRawHitFinder_module.cc:1066-1077; the number of turns is at most the first argument. -/
def stepBack (s : Int → ℚ) (T : Nat) (start : Int) : Nat → Int → Int
  | 0, i => i
  | f + 1, i => if i = start then i else if isStart s T i then i else stepBack s T start f (i - 1)

/-- The check for the end of a peak, larreco/HitFinder/DPRawHitFinder_module.cc:1090-1098. -/
def isEnd (s : Int → ℚ) (T : Nat) (i : Int) : Bool :=
  decide (s i ≤ 0) || (List.range T).all fun j => decide (s i < s (i + (j + 1)))

/-- The forward loop, larreco/HitFinder/DPRawHitFinder_module.cc:1089-1100. -/
def stepFwd (s : Int → ℚ) (T : Nat) (stop : Int) : Nat → Int → Int
  | 0, i => i
  | f + 1, i => if i = stop then i else if isEnd s T i then i else stepFwd s T stop f (i + 1)

/-- `findCandidatePeaks` on the ticks from `start` to before `stop`, larreco/HitFinder/DPRawHitFinder_module.cc:1047-1118.  The first
argument bounds the depth of the recursion (each call has a smaller window). -/
def find (s : Int → ℚ) (T : Nat) (minSig : ℚ) : Nat → Int → Int → Int → List Cand
  | 0, _, _, _ => []
  | f + 1, start, stop, firstTick =>
    if stop - start > 4 then
      let m := maxEl s start (stop - start - 1).toNat
      if s m ≥ minSig then
        let first0 := if m - start > 2 then m - 1 else start
        let first := stepBack s T start (first0 - start).toNat first0
        let last0 := if stop - m > 2 then m + 1 else stop - 1
        let last := stepFwd s T stop (stop - last0).toNat last0
        find s T minSig f start (first - 1) firstTick ++
          ⟨firstTick + (first - start), firstTick + (m - start), firstTick + (last - start)⟩ ::
          find s T minSig f (last + 1) stop (firstTick + (last + 1 - start))
      else []
    else []

/-- The call from `produce`, larreco/HitFinder/DPRawHitFinder_module.cc:388, 415. -/
def candidates (s : Int → ℚ) (T : Nat) (minSig : ℚ) (n : Nat) : List Cand := find s T minSig n 0 n 0

/-! ### Groups -/

/-- A peak of a group, larreco/HitFinder/DPRawHitFinder_module.cc:78-79. -/
structure Pk where
  max : Int
  wid : Int
  start : Int
  stop : Int
  deriving DecidableEq, Repr

/-- A group, larreco/HitFinder/DPRawHitFinder_module.cc:80-84. -/
structure Grp where
  start : Int
  stop : Int
  peaks : List Pk
  fluct : Nat
  deriving DecidableEq, Repr

/-- The first loop of `EstimateFluctuations`, larreco/HitFinder/DPRawHitFinder_module.cc:1256-1261: ticks `j`, `j - 1`, ... (as many as the
first argument). -/
def flLeft (s : Int → ℚ) : Nat → Int → Nat
  | 0, _ => 0
  | f + 1, j => if s j < 5 then 0 else (if s j > s (j + 1) then 1 else 0) + flLeft s f (j - 1)

/-- The second loop, larreco/HitFinder/DPRawHitFinder_module.cc:1263-1268. -/
def flRight (s : Int → ℚ) : Nat → Int → Nat
  | 0, _ => 0
  | f + 1, j => if s j < 5 then 0 else (if s j > s (j - 1) then 1 else 0) + flRight s f (j + 1)

/-- `EstimateFluctuations`, larreco/HitFinder/DPRawHitFinder_module.cc:1249-1271. -/
def fluct (s : Int → ℚ) (start mean stop : Int) : Nat :=
  flLeft s (mean - start).toNat (mean - 1) + flRight s (stop - mean).toNat (mean + 1)

/-- The settings of the grouping. -/
structure GCfg where
  minADC : ℚ
  maxDist : Int
  merge : Bool
  maxThr : ℚ
  sumThr : ℚ
  hLeft : ℚ
  hRight : ℚ
  limit : ℚ

/-- Lowest signal on `k + 1` ticks from `a`, larreco/HitFinder/DPRawHitFinder_module.cc:1158-1161. -/
def minSig (s : Int → ℚ) (a : Int) : Nat → ℚ
  | 0 => s a
  | k + 1 => let m := minSig s a k; if s (a + (k + 1)) < m then s (a + (k + 1)) else m

/-- Conversion to `int`: toward zero. -/
def trunc (x : ℚ) : Int := if 0 ≤ x then ⌊x⌋ else ⌈x⌉

/-- A sum with an `int` accumulator over `k` ticks from `a`, larreco/HitFinder/DPRawHitFinder_module.cc:1177-1185, 499-503: each partial sum is
converted to `int`. -/
def intSum (s : Int → ℚ) (a : Int) : Nat → Int
  | 0 => 0
  | k + 1 => trunc (intSum s a k + s (a + k))

/-- The state of the inner loop: the current peak (its width is that of the last entry of the list) and the peaks of the group so far. -/
structure St where
  start : Int
  max : Int
  stop : Int
  peaks : List Pk

/-- Are the next candidate and the current peak in one group?  larreco/HitFinder/DPRawHitFinder_module.cc:1156-1164. -/
def near (c : GCfg) (s : Int → ℚ) (stop nextStart : Int) : Bool :=
  decide (minSig s stop (nextStart - stop).toNat ≥ c.minADC ∧ nextStart - stop ≤ c.maxDist)

/-- Is the next peak absorbed by the current one?  larreco/HitFinder/DPRawHitFinder_module.cc:1189-1194. -/
def absorbNext (c : GCfg) (s : Int → ℚ) (t : St) (n : Cand) : Bool :=
  let cs : ℚ := intSum s t.start (t.stop + 1 - t.start).toNat
  let ns : ℚ := intSum s n.start (n.stop + 1 - n.start).toNat
  decide (s n.max ≤ s t.max ∧ ((s n.max < c.maxThr * s t.max ∧ ns < c.sumThr * cs) ∨ s n.max - s n.start < c.hRight * s t.max) ∧ s n.max ≤ c.limit)

/-- Is the current peak absorbed by the next one?  larreco/HitFinder/DPRawHitFinder_module.cc:1202-1207. -/
def absorbCur (c : GCfg) (s : Int → ℚ) (t : St) (n : Cand) : Bool :=
  let cs : ℚ := intSum s t.start (t.stop + 1 - t.start).toNat
  let ns : ℚ := intSum s n.start (n.stop + 1 - n.start).toNat
  decide (s n.max > s t.max ∧ ((s t.max < c.maxThr * s n.max ∧ cs < c.sumThr * ns) ∨ s t.max - s t.stop < c.hLeft * s n.max) ∧ s t.max ≤ c.limit)

/-- What happens to the next candidate of a group, larreco/HitFinder/DPRawHitFinder_module.cc:1165-1232. -/
def join (c : GCfg) (s : Int → ℚ) (t : St) (n : Cand) : St :=
  if c.merge then
    if absorbNext c s t n then ⟨t.start, t.max, n.stop, t.peaks.dropLast ++ [⟨t.max, n.stop - t.start, t.start, n.stop⟩]⟩
    else if absorbCur c s t n then ⟨t.start, n.max, n.stop, t.peaks.dropLast ++ [⟨n.max, n.stop - t.start, t.start, n.stop⟩]⟩
    else ⟨n.start, n.max, n.stop, t.peaks ++ [⟨n.max, n.stop - n.start, n.start, n.stop⟩]⟩
  else ⟨n.start, n.max, n.stop, t.peaks ++ [⟨n.max, n.stop - n.start, n.start, n.stop⟩]⟩

/-- The inner loop, larreco/HitFinder/DPRawHitFinder_module.cc:1152-1239: the peaks, the end and the fluctuations of the group, and the
candidates that are left. -/
def inner (c : GCfg) (s : Int → ℚ) (t : St) (final : Int) (fl : Nat) : List Cand → List Pk × Int × Nat × List Cand
  | [] => (t.peaks, final, fl, [])
  | n :: rest =>
    if near c s t.stop n.start then inner c s (join c s t n) n.stop (fl + fluct s n.start n.max n.stop) rest
    else (t.peaks, final, fl, n :: rest)

/-- `mergeCandidatePeaks`, larreco/HitFinder/DPRawHitFinder_module.cc:1123-1244; the first argument bounds the number of groups. -/
def groups (c : GCfg) (s : Int → ℚ) : Nat → List Cand → List Grp
  | 0, _ => []
  | _, [] => []
  | f + 1, a :: rest =>
    let r := inner c s ⟨a.start, a.max, a.stop, [⟨a.max, a.stop - a.start, a.start, a.stop⟩]⟩ a.stop (fluct s a.start a.max a.stop) rest
    ⟨a.start, r.2.1, r.1, r.2.2.1⟩ :: groups c s f r.2.2.2

/-! ### More peaks for a bad fit -/

/-- `std::sort` by the maximum, larreco/HitFinder/DPRawHitFinder_module.cc:1657-1662, 1699-1704. -/
def sortPk (l : List Pk) : List Pk := l.insertionSort (fun a b => a.max ≤ b.max)

/-- `AddPeak`, larreco/HitFinder/DPRawHitFinder_module.cc:1619-1665, for a peak number of the list. -/
def addPeak (i : Nat) (newMax : Int) (l : List Pk) : List Pk :=
  match l[i]? with
  | none => l
  | some p =>
    if newMax < p.max then
      let d := p.max - newMax
      let e := newMax + (d - d % 2) / 2
      let newEnd := if d % 2 = 0 then e - 1 else e
      sortPk (l.set i ⟨p.max, 0, newEnd + 1, p.stop⟩ ++ [⟨newMax, 0, p.start, newEnd⟩])
    else if p.max < newMax then
      let d := newMax - p.max
      let e := p.max + (d - d % 2) / 2
      let oldEnd := if d % 2 = 0 then e - 1 else e
      sortPk (l.set i ⟨p.max, 0, p.start, oldEnd⟩ ++ [⟨newMax, 0, oldEnd + 1, p.stop⟩])
    else l

/-- `SplitPeak`, larreco/HitFinder/DPRawHitFinder_module.cc:1668-1707. -/
def splitPeak (i : Nat) (l : List Pk) : List Pk :=
  match l[i]? with
  | none => l
  | some p =>
    let w := p.stop - p.start
    if w < 3 then l
    else
      let oldEnd := p.start + (w + w % 2) / 2
      let newStart := oldEnd + 1
      let wo := oldEnd - p.start
      let wn := p.stop - newStart
      sortPk (l.set i ⟨p.start + (wo - wo % 2) / 2, 0, p.start, oldEnd⟩ ++ [⟨newStart + (wn - wn % 2) / 2, 0, newStart, p.stop⟩])

/-- The tick of the largest negative deviation in a peak, other than the maximum (0: none), larreco/HitFinder/DPRawHitFinder_module.cc:1519-1539;
`g` is the fitted function minus the signal.  `k` ticks from the start. -/
def worst (g : Int → ℚ) (p : Pk) : Nat → ℚ × Int
  | 0 => (0, 0)
  | k + 1 =>
    let r := worst g p k
    let j := p.start + k
    if g j < r.1 ∧ j ≠ p.max then (g j, j) else r

/-- `FindPeakWithMaxDeviation`, larreco/HitFinder/DPRawHitFinder_module.cc:1495-1557: peak numbers and ticks.  The order is that of `rank`
(the chi2 per degree of freedom of each peak). -/
def peakDev (rank : Pk → ℚ) (g : Int → ℚ) (l : List Pk) : List (Nat × Int) :=
  ((l.zipIdx.filterMap fun p =>
      let r := worst g p.1 (p.1.stop + 1 - p.1.start).toNat
      if r.2 ≠ 0 then some (rank p.1, p.2, r.2) else none).insertionSort (fun a b => b.1 ≤ a.1)).map fun q => q.2

/-- The result of a fit: chi2 per degree of freedom, and the fitted function minus the signal. -/
structure Fit where
  chi2 : ℚ
  dev : Int → ℚ
  rank : Pk → ℚ

/-- The first candidate that makes the fit better, larreco/HitFinder/DPRawHitFinder_module.cc:594-621, 624-650. -/
def tryAll (fit : List Pk → Fit) (l : List Pk) (alt : Nat × Int → List Pk) : List (Nat × Int) → Option (List Pk)
  | [] => none
  | q :: rest => if (fit (alt q)).chi2 < (fit l).chi2 then some (alt q) else tryAll fit l alt rest

/-- The loop condition, larreco/HitFinder/DPRawHitFinder_module.cc:574-579: `b` the number before, `a` the number after the refits. -/
def again (retry factor : ℚ) (b a : Nat) (n : Nat) (chi2 : ℚ) : Bool :=
  decide ((n = 1 ∧ a < 3 * b ∧ chi2 > retry) ∨ (n > 1 ∧ a < 3 * b ∧ chi2 > factor * retry))

/-- The loop that adds peaks, larreco/HitFinder/DPRawHitFinder_module.cc:574-653.  The first argument bounds the number of turns. -/
def refit (fit : List Pk → Fit) (retry factor : ℚ) (b : Nat) : Nat → Nat → List Pk → List Pk
  | 0, _, l => l
  | f + 1, a, l =>
    if again retry factor b a l.length (fit l).chi2 then
      let devs := peakDev (fit l).rank (fit l).dev l
      match tryAll fit l (fun q => addPeak q.1 q.2 l) devs with
      | some l' => refit fit retry factor b f (a + 1) l'
      | none => match tryAll fit l (fun q => splitPeak q.1 l) devs with
        | some l' => refit fit retry factor b f (a + 1) l'
        | none => l
    else l

/-! ### Hits -/

/-- Number of hits and width in use for a group of `len` ticks that is not fitted, larreco/HitFinder/DPRawHitFinder_module.cc:895-902.
The width is a member of the module: the second number is its new value. -/
def longPlan (width maxHits len : Int) : Int × Int :=
  let n := len / width
  let (n, w) := if n > maxHits then (maxHits, len / maxHits) else (n, width)
  (if n * w < len then n + 1 else n, w)

/-- The loop over the hits of a long group, larreco/HitFinder/DPRawHitFinder_module.cc:904-905, 941, 1020-1021. -/
def longLoop (w endT : Int) : Nat → Int → Int → List (Int × Int)
  | 0, _, _ => []
  | k + 1, first, last => (first, last) :: longLoop w endT k (last + 1) (min (last + 1 + w - 1) endT)

/-- The ticks of the hits of a long group, and the new width, larreco/HitFinder/DPRawHitFinder_module.cc:895-1023. -/
def longHits (width maxHits startT endT : Int) : List (Int × Int) × Int :=
  let p := longPlan width maxHits (endT - startT + 1)
  (longLoop p.2 endT p.1.toNat startT (min endT (startT + p.2 - 1)), p.2)

/-- Sum of the signal on `k` ticks from `a` (`std::accumulate(..., 0.)`, larreco/HitFinder/DPRawHitFinder_module.cc:761, 951). -/
def ratSum (s : Int → ℚ) (a : Int) (k : Nat) : ℚ := ((List.range k).map fun i => s (a + (i : Nat))).sum

/-- The cuts of `produce`. -/
structure PCfg where
  minWidth : Int
  minSum : ℚ
  minMean : ℚ
  maxMulti : Nat
  maxLen : Int
  maxFluct : Nat
  maxHits : Int
  tryMore : Bool
  retry : ℚ
  factor : ℚ

/-- Is the group noise?  larreco/HitFinder/DPRawHitFinder_module.cc:498-504. -/
def noise (c : PCfg) (s : Int → ℚ) (g : Grp) : Bool :=
  let width := g.stop + 1 - g.start
  let sum := intSum s g.start width.toNat
  decide (width < c.minWidth ∨ (sum : ℚ) < c.minSum ∨ (sum : ℚ) / width < c.minMean)

/-- A hit: first and last tick, multiplicity, number in the group, summed ADC. -/
structure Hit where
  start : Int
  stop : Int
  mult : Nat
  idx : Nat
  sumADC : ℚ
  deriving DecidableEq, Repr

/-- Hits with their multiplicity and number, larreco/HitFinder/DPRawHitFinder_module.cc:703, 843-844, 862 and 941, 986-987. -/
def number (s : Int → ℚ) (l : List (Int × Int)) : List Hit :=
  l.mapIdx fun i p => ⟨p.1, p.2, l.length, i, ratSum s p.1 (p.2 + 1 - p.1).toNat⟩

/-- The hits of one group and the new width of long pulses, larreco/HitFinder/DPRawHitFinder_module.cc:467-1025.  A fit without a finite
chi2 gives `none` for `ok`: the group has no hits (line 556). -/
def groupHits (c : PCfg) (fit : List Pk → Fit) (ok : List Pk → Bool) (s : Int → ℚ) (width : Int) (g : Grp) : List Hit × Int :=
  if noise c s g then ([], width)
  else if g.peaks.length ≤ c.maxMulti ∧ g.stop + 1 - g.start ≤ c.maxLen ∧ g.fluct ≤ c.maxFluct then
    if ok g.peaks then
      let n := g.peaks.length
      let chi2 := (fit g.peaks).chi2
      let l := if c.tryMore && decide ((n = 1 ∧ chi2 > c.retry) ∨ (n > 1 ∧ chi2 > c.factor * c.retry)) then
          refit fit c.retry c.factor n (2 * n) n g.peaks
        else g.peaks
      (number s (l.map fun p => (p.start, p.stop)), width)
    else ([], width)
  else
    let r := longHits width c.maxHits g.start g.stop
    (number s r.1, r.2)

/-- The hits of the groups of a region of interest, larreco/HitFinder/DPRawHitFinder_module.cc:466-1027. -/
def roiHits (c : PCfg) (fit : List Pk → Fit) (ok : List Pk → Bool) (s : Int → ℚ) : Int → List Grp → List Hit
  | _, [] => []
  | width, g :: rest =>
    let r := groupHits c fit ok s width g
    r.1 ++ roiHits c fit ok s r.2 rest

/-! ### The fit function -/

/-- The parameters that the term of peak `i` uses: amplitude, time in the numerator, first time constant, time in the denominator, second
time constant: `CreateFitFunction`, larreco/HitFinder/DPRawHitFinder_module.cc:1560-1616. -/
def terms (same : Bool) (i : Nat) : Nat × Nat × Nat × Nat × Nat :=
  if same then (2 * (i + 1), 2 * (i + 1) + 1, 0, 2 * (i + 1) + 1, 1)
  else (4 * i + 2, 4 * i + 3, 4 * i, 2 * (i + 1) + 1, 4 * i + 1)

/-- The parameters that make up the hit of peak `i`: amplitude, time, first and second time constant,
larreco/HitFinder/DPRawHitFinder_module.cc:711-722. -/
def hitParams (same : Bool) (i : Nat) : Nat × Nat × Nat × Nat :=
  if same then (2 * (i + 1), 2 * (i + 1) + 1, 0, 1) else (4 * i + 2, 4 * i + 3, 4 * i, 4 * i + 1)

/-- The seed and the limits of the time of peak `i`, larreco/HitFinder/DPRawHitFinder_module.cc:1337-1374 (the same at 1402-1442). -/
def timeLimits (range : ℚ) (l : List Pk) (i : Nat) : Option (ℚ × ℚ × ℚ) :=
  match l[i]? with
  | none => none
  | some p =>
    let mean : ℚ := p.max
    let seed := mean - 2
    let lo := max ((p.start : ℚ) - 2) (seed - range)
    let hi := min (p.stop : ℚ) (seed + range)
    let lo' := match i with
      | 0 => lo
      | j + 1 => match l[j]? with
        | none => lo
        | some q => max lo (seed - (mean - q.max) / 2)
    let hi' := match l[i + 1]? with
      | none => hi
      | some q => min hi (seed + (q.max - mean) / 2)
    some (lo', seed, hi')

/-! ### Averaging -/

/-- One turn of `doBinAverage`, larreco/HitFinder/DPRawHitFinder_module.cc:1838-1850: the running sum and the number of ticks. -/
def avStep (s : Int → ℚ) (n h : Nat) (k : Nat) (run : ℚ) : ℚ × Nat :=
  let stopOff := n - k
  let count := min (2 * h) (min (k + h + 1) (h + stopOff - 1))
  let run := if k ≥ h then run - s ((k : Int) - h) else run
  let run := if stopOff > h then run + s ((k : Int) + h) else run
  (run, count)

/-- The running sum after tick `k`, larreco/HitFinder/DPRawHitFinder_module.cc:1828-1850. -/
def avRun (s : Int → ℚ) (n h : Nat) : Nat → ℚ
  | 0 => (avStep s n h 0 (ratSum s 0 h)).1
  | k + 1 => (avStep s n h (k + 1) (avRun s n h k)).1

/-- The output of `doBinAverage` at tick `k`, larreco/HitFinder/DPRawHitFinder_module.cc:1824-1854. -/
def average (s : Int → ℚ) (n bins k : Nat) : ℚ :=
  let h := bins / 2
  avRun s n h k / (avStep s n h k 0).2

end Verif.DPHit

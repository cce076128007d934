import Verif.Hit.CandHit
import Verif.Hit.WaveSmooth
/-!
# `CandHitDerivative` and `CandHitMorphological`: model
Source: `/repo/larreco/HitFinder/HitFinderTools/CandHitDerivative_tool.cc` (`D:` below) and `CandHitMorphological_tool.cc`
(`M:` below). The derivative and the other vectors are functions of the position; `n` is their length. Numbers are exact
rationals, ticks do not wrap. Histograms are left out.
-/
namespace Verif.CandShape
open Verif Verif.Wave Verif.CandHit

/-- continue if the first part ended without an exception -/
def andThen {α β : Type} : Option (Res α) → (α → Option (Res β)) → Option (Res β)
  | some (.ok a), f => f a
  | some .throw, _ => some .throw
  | some .ub, _ => some .ub
  | none, _ => none

/-! ## Searching around an extremum (both tools) -/

/-- the loop of `findNearestMin`, D:393-397, M:745-749; the first argument counts the rounds -/
def nearestMin (d : Nat → ℚ) (stop : Nat) : Nat → Nat → Nat
  | 0, l => l
  | k + 1, l => if l + 1 = stop then l else if d l < d (l + 1) then l else nearestMin d stop k (l + 1)

/-- the loop of `findNearestMax`, D:413-417, M:764-768 -/
def nearestMaxLoop (d : Nat → ℚ) (start : Nat) : Nat → Nat → Nat
  | 0, l => l
  | k + 1, l => if l - 1 = start then l else if d (l - 1) < d l then l else nearestMaxLoop d start k (l - 1)

/-- `findNearestMax`, D:403-421, M:755-773 -/
def nearestMax (d : Nat → ℚ) (start m : Nat) : Nat := if start < m then nearestMaxLoop d start (m - start) m else m

/-- the loop of `findStartTick`, D:437-444, M:787-794, with `l` the last position accepted -/
def startLoop (d : Nat → ℚ) (start : Nat) : Nat → Nat → Nat
  | 0, l => l
  | k + 1, l =>
    if l - 1 = start then l else if d (l - 1) < 0 ∨ ¬ d (l - 1) < d l then l else startLoop d start k (l - 1)

/-- `findStartTick`, D:423-450, M:775-801 -/
def findStart (d : Nat → ℚ) (start m : Nat) : Nat := if start < m then startLoop d start (m - start) m else start

/-- the loop of `findStopTick`, D:463-468, M:814-819, with `l` the last position accepted -/
def stopLoop (d : Nat → ℚ) (stop : Nat) : Nat → Nat → Nat
  | 0, l => l
  | k + 1, l =>
    if l + 1 = stop then l else if 0 < d (l + 1) ∨ ¬ d l < d (l + 1) then l else stopLoop d stop k (l + 1)

/-- `findStopTick`, D:452-472, M:803-823 -/
def findStop (d : Nat → ℚ) (stop m : Nat) : Nat := if m + 1 < stop then stopLoop d stop (stop - m) m else m

/-- the pair of maximum and minimum in `[a, b)`, D:248-258, M:654-663: `minmax_element` gives the last maximum and the
first minimum; the larger of the two stays, the other is searched for -/
def extremes (d : Nat → ℚ) (a b : Nat) : Nat × Nat :=
  if |d (bestElt ltMin d a (b - a))| < |d (lastElt ltMax d a (b - a))| then
    (lastElt ltMax d a (b - a),
      nearestMin d b (b - lastElt ltMax d a (b - a)) (lastElt ltMax d a (b - a)))
  else (nearestMax d a (bestElt ltMin d a (b - a)), bestElt ltMin d a (b - a))

/-- comparison of absolute values -/
def ltAbs (a b : ℚ) : Bool := decide (|a| < |b|)

/-- the check of the balance, D:302-305, M:515-518 -/
def balance (mx mn p : Nat) : Nat :=
  if 2 * (mn - p) < p - mx then p - 1 else if 2 * (p - mx) < mn - p then p + 1 else p

/-- the peak between maximum and minimum, D:296-305, M:509-518 -/
def peakOf (d : Nat → ℚ) (mx mn : Nat) : Nat := balance mx mn (bestElt ltAbs d mx (mn - mx))

/-- the candidate, D:307-316, M:532-541; `st`, `mx`, `mn`, `sp` are positions in the range that starts at `a`, where the
tick is `roi` -/
def mkHit (d : Nat → ℚ) (a roi start mx mn sp : Nat) : Hit where
  startTick := start
  stopTick := roi + (sp - a)
  maxTick := roi + (mx - a)
  minTick := roi + (mn - a)
  maxDerivative := d mx
  minDerivative := d mn
  hitCenter := ((roi + (peakOf d mx mn - a) : Nat) : ℚ) + 1 / 2
  hitSigma := 1 / 2 * (((roi + (mn - a) : Nat) : ℚ) - (roi + (mx - a) : Nat))
  hitHeight := 1 / 2 * (((roi + (mn - a) : Nat) : ℚ) - (roi + (mx - a) : Nat)) * (d mx - d mn) / (1213 / 1000)

/-! ## The derivative tool -/

/-- the thresholds for a neighbouring range, D:280-287 and 323-330 -/
def thresholds (minT : Int) (minP : ℚ) (merged : Bool) : Int × ℚ := if merged then (2, 0) else (minT, minP)

/-- recursive `findHitCandidates` on `[a, b)`, D:237-342. `none` = recursion budget exhausted; `ub` = a position outside the
vector is read (`*maxItr`, `*(newEndItr - 1)`, `*(newStartItr + 1)`). -/
def search (n : Nat) (d : Nat → ℚ) (minT : Int) (minP : ℚ) :
    Nat → Nat → Nat → Nat → Int → ℚ → List Hit → Option (Res (List Hit))
  | 0, _, _, _, _, _, _ => none
  | fuel + 1, a, b, roi, dT, dP, out =>
    if n ≤ a then some .ub
    else
      let p := extremes d a b
      if dT ≤ (p.2 : Int) - p.1 ∧ dP < d p.1 - d p.2 then
        let st := findStart d a p.1
        let sp := findStop d b p.2
        andThen
          (if dT < (st : Int) - a then
            if st = 0 then some .ub
            else
              andThen (search n d minT minP fuel a (st + 1) roi (thresholds minT minP (decide (0 < d (st - 1)))).1
                  (thresholds minT minP (decide (0 < d (st - 1)))).2 out) fun out1 =>
                some (.ok ((thresholds minT minP (decide (0 < d (st - 1)))).1, out1))
          else some (.ok (dT, out))) fun r =>
        if r.1 < (b : Int) - sp then
          if n ≤ sp + 1 then some .ub
          else
            search n d minT minP fuel sp b (roi + (sp - a)) (thresholds minT minP (decide (d (sp + 1) < 0))).1
              (thresholds minT minP (decide (d (sp + 1) < 0))).2
              (r.2 ++ [mkHit d a roi (roi + (st - a)) p.1 p.2 sp])
        else some (.ok (r.2 ++ [mkHit d a roi (roi + (st - a)) p.1 p.2 sp]))
      else some (.ok out)

/-- `*hitCenter` as an index, and the height there, D:164-168, M:248-252 -/
def setHeights (w : List ℚ) : List Hit → Res (List Hit)
  | [] => .ok []
  | h :: l =>
    match w[⌊h.hitCenter⌋.toNat]? with
    | some v => (setHeights w l).bind fun r => .ok ({ h with hitHeight := v } :: r)
    | none => .throw

/-- the smoothed derivative, D:130-137, M:200-207 (fresh vectors) -/
def smoothed (w : List ℚ) : Res (List ℚ) := (firstDerivative w []).bind fun r => triangleSmooth r [] 0

/-- public `findHitCandidates` of the derivative tool, D:121-168; the old candidates are cleared -/
def derivative (w : List ℚ) (minT : Int) (minP : ℚ) (roi : Nat) (_old : List Hit) : Option (Res (List Hit)) :=
  match smoothed w with
  | .ok d =>
    (search d.length (at' d) minT minP (d.length + 1) 0 d.length roi minT minP []).map fun r => r.bind (setHeights w)
  | .throw => some .throw
  | .ub => some .ub

/-! ## Grouping (both tools) -/

/-- the loop of `MergeHitCandidates`, D:360-379, M:712-731; `num` is `NumInterveningTicks` -/
def groupLoop (minH : ℚ) (num : Nat) : List Hit → List Hit → Nat → List (List Hit) → List (List Hit)
  | [], g, _, merged => if g = [] then merged else merged ++ [g]
  | h :: hs, g, last, merged =>
    if minH < h.hitHeight then
      if last + num < h.startTick ∧ g ≠ [] then groupLoop minH num hs [h] h.stopTick (merged ++ [g])
      else groupLoop minH num hs (g ++ [h]) h.stopTick merged
    else groupLoop minH num hs g last merged

/-- `MergeHitCandidates`, D:344-382, M:695-734 -/
def mergeHits (minH : ℚ) (num : Nat) (hits : List Hit) (merged : List (List Hit)) : List (List Hit) :=
  match hits with
  | [] => merged
  | h :: _ => groupLoop minH num hits [] h.stopTick merged

/-! ## The morphological tool -/

/-- `getListOfHitCandidates` on `[a, b)`, M:636-693: the flag and the list of (start, maximum, minimum, stop) -/
def listCands (n : Nat) (d : Nat → ℚ) (minT dT : Int) (dP : ℚ) :
    Nat → Nat → Nat → List (Nat × Nat × Nat × Nat) → Option (Res (Bool × List (Nat × Nat × Nat × Nat)))
  | 0, _, _, _ => none
  | fuel + 1, a, b, out =>
    if (b : Int) - a < minT then some (.ok (false, out))
    else if n ≤ a then some .ub
    else
      let p := extremes d a b
      if (p.2 : Int) - p.1 < 2 then some (.ok (false, out))
      else
        let st := findStart d a p.1
        let sp := findStop d b p.2
        andThen (listCands n d minT dT dP fuel a st out) fun r =>
        andThen (listCands n d minT dT dP fuel sp b (r.2 ++ [(st, p.1, p.2, sp)])) fun q =>
        some (.ok (decide (dT ≤ (p.2 : Int) - p.1 ∧ dP < d p.1 - d p.2) || r.1 || q.1, q.2))

/-- half of the gap between the last candidate and a start tick, M:523-530 (integer division of a positive number) -/
def halfGap (out : List Hit) (start : Nat) : Nat :=
  match out.getLast? with
  | some h => (start - h.stopTick) / 2
  | none => 0

/-- moving the stop of the last candidate, M:528 -/
def moveLast (out : List Hit) (k : Nat) : List Hit := out.modify (out.length - 1) fun h => { h with stopTick := h.stopTick + k }

/-- one candidate, M:500-544 -/
def addCand (d : Nat → ℚ) (a roi : Nat) (out : List Hit) (t : Nat × Nat × Nat × Nat) : List Hit :=
  moveLast out (halfGap out (roi + (t.1 - a))) ++
    [mkHit d a roi (roi + (t.1 - a) - halfGap out (roi + (t.1 - a))) t.2.1 t.2.2.1 t.2.2.2]

/-- differential `findHitCandidates` on `[a, b)`, M:484-545 -/
def diffHits (n : Nat) (d : Nat → ℚ) (minT : Int) (minP : ℚ) (a b roi : Nat) (out : List Hit) : Option (Res (List Hit)) :=
  andThen (listCands n d minT minT minP (n + 1) a b []) fun r =>
    some (.ok (if r.1 then r.2.foldl (addCand d a roi) out else out))

/-- search for the start of the region, M:412-422, with `prev` the value before; the first argument counts the rounds -/
def regionBack (d e : Nat → ℚ) (cut : ℚ) (a : Nat) : Nat → Nat → ℚ → Nat
  | 0, i, _ => i
  | k + 1, i, prev =>
    if i = a then i
    else if e i < cut ∧ d i * prev ≤ 0 ∧ 0 < prev then i
    else regionBack d e cut a k (i - 1) (d i)

/-- search for the end of the region, M:436-444 -/
def regionFwd (d e : Nat → ℚ) (cut : ℚ) (b : Nat) : Nat → Nat → ℚ → Nat
  | 0, i, _ => i
  | k + 1, i, prev =>
    if i = b then i
    else if e i ≤ cut ∧ d i * prev ≤ 0 ∧ prev < 0 then i
    else regionFwd d e cut b k (i + 1) (d i)

/-- the settings of the morphological tool, M:86-99 -/
structure Cfg where
  dilThr : ℚ := 4
  eroFrac : ℚ := 1 / 5
  minT : Int := 0
  minP : ℚ := 1 / 40
  se : Nat := 20
  nSigma : ℚ := 5

/-- recursive region search on `[a, b)`, M:376-482; `roi` is the tick of `a` -/
def regions (n : Nat) (d e l : Nat → ℚ) (c : Cfg) : Nat → Nat → Nat → Nat → List Hit → Option (Res (List Hit))
  | 0, _, _, _, _ => none
  | fuel + 1, a, b, roi, out =>
    if (b : Int) - a < c.minT then some (.ok out)
    else if n ≤ a then some .ub
    else
      let m := bestElt ltMax l a (b - a)
      if l m < c.dilThr then some (.ok out)
      else
        let rs := regionBack d e (c.eroFrac * l m) a (m - a + 1) m (-1)
        let re := regionFwd d e (c.eroFrac * l m) b (b - m + 1) m 1
        andThen (if c.minT < (rs : Int) - a then regions n d e l c fuel a rs roi out else some (.ok out)) fun out1 =>
        andThen (diffHits n d c.minT c.minP rs re (roi + (rs - a)) out1) fun out2 =>
        if c.minT < (b : Int) - re then regions n d e l c fuel re b (roi + (re - a)) out2 else some (.ok out2)

/-- limiting a candidate to the neighbourhood of its centre, M:238-245 -/
def limit (ns : ℚ) (h : Hit) : Hit :=
  if 0 < ns then
    { h with
      startTick :=
        if 0 ≤ h.hitCenter - ns * h.hitSigma then max h.startTick ⌊h.hitCenter - ns * h.hitSigma⌋.toNat else h.startTick
      stopTick := min h.stopTick ⌊h.hitCenter + ns * h.hitSigma⌋.toNat }
  else h

/-- public `findHitCandidates` of the morphological tool, M:191-252; the old candidates stay -/
def morphological (w : List ℚ) (c : Cfg) (roi : Nat) (old : List Hit) : Option (Res (List Hit)) :=
  match smoothed w with
  | .ok d =>
    match eroDil c.se w with
    | .ok (e, l, _, _) =>
      (regions d.length (at' d) (at' e) (at' l) c (d.length + 1) 0 d.length roi old).map fun r =>
        r.bind fun hits => setHeights w (hits.map (limit c.nSigma))
    | .throw => some .throw
    | .ub => some .ub
  | .throw => some .throw
  | .ub => some .ub

end Verif.CandShape

import Mathlib.Data.Rat.Defs
import Mathlib.Algebra.Order.Ring.Rat
import Mathlib.Data.List.Basic

/-!
# `trkf::TrackKalmanFitter` : which hits end up where

Models larreco/RecoAlg/TrackKalmanFitter.cxx.  The track state `K`, the propagator and the Kalman
algebra are parameters (`Oracle`): every theorem holds for whatever they answer.  Distances, residuals
and chi squares are rationals (NaN, infinities and float rounding are left out).
Hits are named by their position in the input hit vector.
-/

namespace Verif.KalFit

/-- The bits of `recob::TrajectoryPointFlags::Mask_t` the fitter reads or writes
(larreco/RecoAlg/TrackKalmanFitter.cxx:269-281, 387-389, 546-551).  Other bits are left out. -/
structure Flags where
  noPoint : Bool := false
  excluded : Bool := false
  rejected : Bool := false
  ignored : Bool := false
  merged : Bool := false
  shared : Bool := false
  deltaRay : Bool := false
  detIssue : Bool := false
  suspicious : Bool := false
  deriving DecidableEq, Repr

/-- larreco/RecoAlg/TrackKalmanFitter.cxx:387-389: the flags that make the by-plane loop skip a hit. -/
def Flags.out (f : Flags) : Bool := f.noPoint || f.excluded || f.rejected

/-- larreco/RecoAlg/TrackKalmanFitter.cxx:546-551 (and 637-642): the flags that keep a hit but do not
use it for the update. -/
def Flags.odd (f : Flags) : Bool :=
  f.ignored || f.merged || f.shared || f.deltaRay || f.detIssue || f.suspicious

/-- larreco/RecoAlg/TrackKalmanFitter.cxx:535-538, 559-562, 655-658, 774-777:
`set(ExcludedFromFit); set(NoPoint)`. -/
def Flags.exclude (f : Flags) : Flags := { f with excluded := true, noPoint := true }

/-- larreco/RecoAlg/TrackKalmanFitter.cxx:997-1001: the mask of a rejected hit in the output. -/
def Flags.reject (f : Flags) : Flags :=
  let g : Flags := { f with ignored := true, noPoint := true }
  if g.rejected = false then { g with excluded := true } else g

/-- The parts of a hit the fitter reads besides the oracle
(larreco/RecoAlg/TrackKalmanFitter.cxx:259-281, 324, 331-342). -/
structure Hit where
  plane : Nat
  wire : Nat
  mult : Int
  gof : ℚ

/-- The configuration (larreco/RecoAlg/TrackKalmanFitter.h, data members). -/
structure Cfg where
  nplanes : Nat
  byPlane : Bool := true
  skipNeg : Bool := false
  cleanZig : Bool := false
  rejMult : Bool := false
  rejGof : Bool := false
  pickBest : Bool := false
  tryNoSkip : Bool := false
  tryBoth : Bool := false
  minLen : Bool := false
  negTol : ℚ := 0
  maxResFirst : ℚ := 1000
  maxRes : ℚ := 1000
  maxChi2 : ℚ := 1000
  maxDist : ℚ := 1000

/-- A space vector (larreco/RecoAlg/TrackKalmanFitter.cxx:842-843 `position()`, `momentum()`). -/
structure V3 where
  x : ℚ
  y : ℚ
  z : ℚ

/-- Scalar product. -/
def V3.dot (a b : V3) : ℚ := a.x * b.x + a.y * b.y + a.z * b.z

/-- Difference. -/
def V3.sub (a b : V3) : V3 := ⟨a.x - b.x, a.y - b.y, a.z - b.z⟩

/-- What the propagator and the Kalman update answer, as functions of the state and of the hit
(larreco/RecoAlg/TrackKalmanFitter.cxx:402 `distanceToPlane`, 445 and 454 `propagateToPlane`,
`residual`, `chi2`, `updateWithHitState`, 735 `combineWithTrackState`, 693 `setCovariance`).  A `Bool`
in a result is the success code.  `res` is the absolute value of the residual, `pmag` the size of the
momentum. -/
structure Oracle (K : Type) where
  dist : K → Nat → ℚ × Bool
  fwd : K → Nat → K × Bool
  bwd : K → Nat → K × Bool
  res : K → Nat → ℚ
  chi2 : K → Nat → ℚ
  upd : K → Nat → K × Bool
  comb : K → K → K × Bool
  scale : K → K
  pos : K → V3
  mom : K → V3
  pmag : K → ℚ

/-! ## Input -/

/-- larreco/RecoAlg/TrackKalmanFitter.cxx:269-281: the mask of one hit.  `dflt` is
`DefaultFlagsMask()`. -/
def inputFlag (c : Cfg) (dflt : Flags) (fl : List Flags) (i : Nat) (h : Hit) : Flags :=
  let f0 := if fl.length > 0 ∧ i < fl.length then fl.getD i dflt else dflt
  let f1 : Flags := if c.rejMult && decide (h.mult > 1) then
    { f0 with merged := true, excluded := true } else f0
  if c.rejGof && decide (h.gof < 0) then { f1 with suspicious := true, excluded := true } else f1

/-- larreco/RecoAlg/TrackKalmanFitter.cxx:246-293, `setupInputStates`: the masks, one per hit.  The
`HitState`s are one per hit in the same order and are represented by the position of the hit. -/
def inputFlags (c : Cfg) (dflt : Flags) (fl : List Flags) : Nat → List Hit → List Flags
  | _, [] => []
  | i, h :: hs => inputFlag c dflt fl i h :: inputFlags c dflt fl (i + 1) hs

/-! ## Forward pass -/

/-- The vectors of `doFitWork` (larreco/RecoAlg/TrackKalmanFitter.cxx:295-318): `queues` is
`hitsInPlanes` from its iterators on. -/
structure St (K : Type) where
  tk : K
  flags : List Flags
  prd : List K
  upd : List K
  used : List Nat
  rej : List Nat
  queues : List (List Nat)

/-- What is left of a failed attempt: the track state and the flags, which are references
(larreco/RecoAlg/TrackKalmanFitter.cxx:175-199, 295-298). -/
abbrev Res (K α : Type) := Except (K × List Flags) α

/-- larreco/RecoAlg/TrackKalmanFitter.cxx:387-416: the hit at the head of a plane is rejected. -/
def leftOut {K : Type} (c : Cfg) (o : Oracle K) (skip : Bool) (s : St K) (i : Nat) : Bool :=
  (s.flags.getD i {}).out || !(o.dist s.tk i).2 ||
    (skip && c.skipNeg && !s.upd.isEmpty && decide ((o.dist s.tk i).1 < c.negTol))

/-- larreco/RecoAlg/TrackKalmanFitter.cxx:371-423: strip the rejected hits off the head of each plane and
find the plane with the smallest distance.  Returns the planes, the best plane with its distance, and
the rejected hits. -/
def scan (lo : Nat → Bool) (d : Nat → ℚ) :
    List (List Nat) → Nat → Option (Nat × ℚ) → List Nat →
      List (List Nat) × Option (Nat × ℚ) × List Nat
  | [], _, b, r => ([], b, r)
  | q :: qs, ip, b, r =>
    let q' := q.dropWhile lo
    let b' := match q' with
      | [] => b
      | i :: _ => match b with
        | none => some (ip, d i)
        | some (p, m) => if d i < m then some (ip, d i) else some (p, m)
    let t := scan lo d qs (ip + 1) b' (r ++ q.takeWhile lo)
    (q' :: t.1, t.2.1, t.2.2)

/-- larreco/RecoAlg/TrackKalmanFitter.cxx:489-515: among the following hits of the plane on the same
wire, keep the one with the best chi2.  Returns the hit kept, the hits left in the plane, and the hits
rejected.  The comparisons `ihit != jhit` always hold, because the hits of a plane are distinct. -/
def pickWire (wire : Nat → Nat) (chi2 : Nat → ℚ) (w : Nat) :
    Nat → ℚ → List Nat → Nat × List Nat × List Nat
  | i, _, [] => (i, [], [])
  | i, m, j :: q =>
    if wire j ≠ w then (i, j :: q, [])
    else if chi2 j < m then
      let t := pickWire wire chi2 w j (chi2 j) q
      (t.1, t.2.1, i :: t.2.2)
    else
      let t := pickWire wire chi2 w i m q
      (t.1, t.2.1, j :: t.2.2)

/-- larreco/RecoAlg/TrackKalmanFitter.cxx:443-461: forward propagation, then backward unless negative
propagation is being skipped. -/
def propagate {K : Type} (o : Oracle K) (onlyFwd : Bool) (k : K) (i : Nat) : K × Bool :=
  if (o.fwd k i).2 then ((o.fwd k i).1, true)
  else if onlyFwd then ((o.fwd k i).1, false)
  else o.bwd (o.fwd k i).1 i

/-- Set the mask of hit `i` (a reference into `hitflagsv`,
larreco/RecoAlg/TrackKalmanFitter.cxx:518). -/
def setFlag (fl : List Flags) (i : Nat) : List Flags := fl.set i (fl.getD i {}).exclude

/-- larreco/RecoAlg/TrackKalmanFitter.cxx:517-574: what is done with the hit chosen, once the propagation
has worked (`k` is the propagated state, `d` the distance). -/
def useHit {K : Type} (c : Cfg) (o : Oracle K) (skip : Bool) (start k : K) (d : ℚ) (s : St K)
    (i : Nat) : Res K (St K × Bool) :=
  if !s.upd.isEmpty && skip &&
      (decide (o.res k i > c.maxRes) || decide (o.chi2 k i > c.maxChi2) || decide (d > c.maxDist)) then
    .ok ({ s with tk := s.upd.getLastD start, rej := s.rej ++ [i], flags := setFlag s.flags i },
      false)
  else if (s.flags.getD i {}).odd then
    .ok ({ s with
            tk := s.upd.getLastD start
            used := s.used ++ [i]
            prd := s.prd ++ [k]
            upd := s.upd ++ [s.upd.getLastD start]
            flags := setFlag s.flags i }, false)
  else if (o.upd k i).2 then
    .ok ({ s with
            tk := (o.upd k i).1
            used := s.used ++ [i]
            prd := s.prd ++ [k]
            upd := s.upd ++ [(o.upd k i).1] }, true)
  else .error ((o.upd k i).1, s.flags)

/-- larreco/RecoAlg/TrackKalmanFitter.cxx:361-589: one turn of the by-plane loop.  The `Bool` tells
whether the turn reaches one of the tests `rejectedhsidx.size() + hitstateidx.size() ==
hitstatev.size()` (434, 588). -/
def step {K : Type} (c : Cfg) (o : Oracle K) (hits : List Hit) (skip : Bool) (start : K) (s : St K) :
    Res K (St K × Bool) :=
  let t := scan (leftOut c o skip s) (fun i => (o.dist s.tk i).1) s.queues 0 none s.rej
  match t.2.1 with
  | none => .ok ({ s with queues := t.1, rej := t.2.2 }, true)
  | some (mp, md) =>
    match t.1.getD mp [] with
    | [] => .ok ({ s with queues := t.1, rej := t.2.2 }, true)
    | i :: rest =>
      let k := propagate o (skip && !s.upd.isEmpty && c.skipNeg) s.tk i
      if !k.2 then
        .ok ({ s with
                tk := s.prd.getLastD start
                queues := t.1.set mp rest
                rej := t.2.2 ++ [i] }, false)
      else if skip && s.upd.isEmpty && decide (o.res k.1 i > c.maxResFirst) then
        .ok ({ s with tk := start, queues := t.1.set mp rest, rej := t.2.2 ++ [i] }, false)
      else
        let w := if c.pickBest then
            pickWire (fun j => (hits[j]?.map Hit.wire).getD 0) (o.chi2 k.1)
              ((hits[i]?.map Hit.wire).getD 0) i (o.chi2 k.1 i) rest
          else (i, rest, [])
        useHit c o skip start k.1 md
          { s with queues := t.1.set mp w.2.1, rej := t.2.2 ++ w.2.2 } w.1

/-- larreco/RecoAlg/TrackKalmanFitter.cxx:361, 433-438, 588: the by-plane loop, at most one turn per
hit, left when every hit is placed. -/
def planeLoop {K : Type} (c : Cfg) (o : Oracle K) (hits : List Hit) (skip : Bool) (start : K) :
    Nat → St K → Res K (St K)
  | 0, s => .ok s
  | m + 1, s => do
    let t ← step c o hits skip start s
    if t.2 && decide (t.1.rej.length + t.1.used.length = hits.length) then .ok t.1
    else planeLoop c o hits skip start m t.1

/-- larreco/RecoAlg/TrackKalmanFitter.cxx:319-346: the hits of each plane.  `order` stands for the
optional `std::sort` by wire of each plane.  A hit whose plane number is not below `MaxPlanes()`
would be written out of bounds; here it is in no plane. -/
def planes (c : Cfg) (hits : List Hit) (order : Nat → List Nat → List Nat) : List (List Nat) :=
  (List.range c.nplanes).map fun p =>
    order p ((List.range hits.length).filter fun i => decide ((hits[i]?.map Hit.plane) = some p))

/-- larreco/RecoAlg/TrackKalmanFitter.cxx:592-681: one turn of the loop that takes the hits as they
come. -/
def rowStep {K : Type} (c : Cfg) (o : Oracle K) (skip : Bool) (start : K) (s : St K) (i : Nat) :
    Res K (St K) :=
  let f := s.flags.getD i {}
  if f.excluded || f.rejected then .ok { s with rej := s.rej ++ [i] }
  else if skip && !s.upd.isEmpty && c.skipNeg &&
      (decide ((o.dist s.tk i).1 < 0) || !(o.dist s.tk i).2) then
    .ok { s with rej := s.rej ++ [i] }
  else
    let k := propagate o (skip && c.skipNeg) s.tk i
    if !k.2 then .ok { s with tk := s.prd.getLastD start, rej := s.rej ++ [i] }
    else if f.odd || (!s.upd.isEmpty && skip &&
        (decide (o.res k.1 i > c.maxRes) || decide (o.chi2 k.1 i > c.maxChi2) ||
          decide ((o.dist s.tk i).1 > c.maxDist))) then
      .ok { s with
              tk := s.upd.getLastD start
              used := s.used ++ [i]
              prd := s.prd ++ [k.1]
              upd := s.upd ++ [s.upd.getLastD start]
              flags := setFlag s.flags i }
    else if (o.upd k.1 i).2 then
      .ok { s with
              tk := (o.upd k.1 i).1
              used := s.used ++ [i]
              prd := s.prd ++ [k.1]
              upd := s.upd ++ [(o.upd k.1 i).1] }
    else .error ((o.upd k.1 i).1, s.flags)

/-- larreco/RecoAlg/TrackKalmanFitter.cxx:592-681, the loop. -/
def rowLoop {K : Type} (c : Cfg) (o : Oracle K) (skip : Bool) (start : K) :
    List Nat → St K → Res K (St K)
  | [], s => .ok s
  | i :: l, s => do
    let s' ← rowStep c o skip start s i
    rowLoop c o skip start l s'

/-- larreco/RecoAlg/TrackKalmanFitter.cxx:306-682: the forward pass from the state `k` and the masks
`fl`. -/
def forward {K : Type} (c : Cfg) (o : Oracle K) (hits : List Hit)
    (order : Nat → List Nat → List Nat) (skip : Bool) (k : K) (fl : List Flags) : Res K (St K) :=
  let s0 : St K := ⟨k, fl, [], [], [], [], []⟩
  if c.byPlane then
    planeLoop c o hits skip k hits.length { s0 with queues := planes c hits order }
  else rowLoop c o skip k (List.range hits.length) s0

/-! ## Backward pass -/

/-- larreco/RecoAlg/TrackKalmanFitter.cxx:697-789: the backward loop over the points, last first.
Returns the smoothed predicted and updated states (last first), the masks, the track state and the
number of hits used. -/
def backLoop {K : Type} (o : Oracle K) :
    List (Nat × K × K) → K → K → List Flags → Nat →
      Res K (List (K × K) × List Flags × K × Nat)
  | [], tk, _, fl, nv => .ok ([], fl, tk, nv)
  | (h, p, u) :: l, tk, start, fl, nv =>
    let k := if (o.bwd tk h).2 then ((o.bwd tk h).1, true) else o.fwd (o.bwd tk h).1 h
    if k.2 then
      if !(o.comb p k.1).2 then .error (k.1, fl)
      else if (fl.getD h {}).excluded = false then
        if !(o.comb u k.1).2 then .error (k.1, fl)
        else if !(o.upd k.1 h).2 then .error ((o.upd k.1 h).1, fl)
        else do
          let t ← backLoop o l (o.upd k.1 h).1 (o.upd k.1 h).1 fl (nv + 1)
          .ok (((o.comb p k.1).1, (o.comb u k.1).1) :: t.1, t.2)
      else do
        let t ← backLoop o l k.1 start fl nv
        .ok (((o.comb p k.1).1, (o.comb p k.1).1) :: t.1, t.2)
    else do
      let t ← backLoop o l start start (setFlag fl h) nv
      .ok ((p, u) :: t.1, t.2)

/-! ## Order of the output -/

/-- larreco/RecoAlg/TrackKalmanFitter.cxx:861-900: the turns of the loop that orders the points by the
smallest step along the direction.  `r` and `out` are `rejectedhsidx` and `sortedtksidx`. -/
def sortLoop (negTol : ℚ) (skipNeg : Bool) (P M : Nat → V3) (hsidx : Nat → Nat) :
    Nat → List (List Nat) → V3 → V3 → List Nat → List Nat → List Nat × List Nat
  | 0, _, _, _, r, out => (out, r)
  | m + 1, qs, pos, dir, r, out =>
    let t := scan (fun _ => false) (fun i => dir.dot ((P i).sub pos)) qs 0 none []
    match t.2.1 with
    | none => sortLoop negTol skipNeg P M hsidx m qs pos dir r out
    | some (mp, md) =>
      match qs.getD mp [] with
      | [] => sortLoop negTol skipNeg P M hsidx m qs pos dir r out
      | i :: rest =>
        if skipNeg && decide (md < negTol) && !out.isEmpty then
          sortLoop negTol skipNeg P M hsidx m (qs.set mp rest) pos dir (r ++ [hsidx i]) out
        else
          sortLoop negTol skipNeg P M hsidx m (qs.set mp rest) (P i) (M i) r (out ++ [i])

/-- larreco/RecoAlg/TrackKalmanFitter.cxx:914-930: position in the list of the first point at which the
path turns back.  The two directions are not divided by their lengths: this does not change the sign
of their product, and a zero length gives NaN in the code and 0 here, neither of them negative. -/
def zigAt (P : Nat → V3) : V3 → List Nat → Nat → Option Nat
  | pos0, a :: b :: l, i =>
    if ((P b).sub (P a)).dot ((P a).sub pos0) < 0 then some i else zigAt P (P a) (b :: l) (i + 1)
  | _, _, _ => none

/-- larreco/RecoAlg/TrackKalmanFitter.cxx:913-916: start of the search.  For an empty list the code reads
out of bounds; here nothing is found. -/
def firstZig (P : Nat → V3) : List Nat → Option Nat
  | [] => none
  | a :: l => zigAt P (P a) l 1

/-- larreco/RecoAlg/TrackKalmanFitter.cxx:908-936: take away one point at a time until the path does not
turn back.  The first argument bounds the number of turns of the `while`; the length of the list is
enough. -/
def cleanLoop (P : Nat → V3) (hsidx : Nat → Nat) : Nat → List Nat → List Nat → List Nat × List Nat
  | 0, l, r => (l, r)
  | m + 1, l, r =>
    match firstZig P l with
    | none => (l, r)
    | some i => cleanLoop P hsidx m (l.eraseIdx i) (r ++ [hsidx (l.getD i 0)])

/-- larreco/RecoAlg/TrackKalmanFitter.cxx:828-832: the points of each plane. -/
def pointPlanes (c : Cfg) (hits : List Hit) (used : List Nat) : List (List Nat) :=
  (List.range c.nplanes).map fun p =>
    (List.range used.length).filter fun i => decide ((hits[used.getD i 0]?.map Hit.plane) = some p)

/-- larreco/RecoAlg/TrackKalmanFitter.cxx:815-938, `sortOutput`: the order of the points and the rejected
hits.  `k0` only makes the accesses total. -/
def sortOutput {K : Type} (c : Cfg) (o : Oracle K) (hits : List Hit) (skip : Bool) (k0 : K)
    (fl : List Flags) (upd : List K) (used rej : List Nat) : List Nat × List Nat :=
  let P := fun i => o.pos (upd.getD i k0)
  let M := fun i => o.mom (upd.getD i k0)
  let H := fun i => used.getD i 0
  let a : List Nat × List Nat :=
    if c.minLen then
      let lead := used.takeWhile fun h => (fl.getD h {}).excluded
      let p := lead.length
      let q := if p < upd.length then p else 0
      sortLoop c.negTol (skip && c.skipNeg) P M H (upd.length - p) (pointPlanes c hits used) (P q) (M q)
        (rej ++ lead) []
    else (List.range upd.length, rej)
  if skip && c.cleanZig then cleanLoop P H a.1.length a.1 a.2 else a

/-! ## The fit -/

/-- The result of `doFitWork` (larreco/RecoAlg/TrackKalmanFitter.cxx:295-312). -/
structure Out (K : Type) where
  flags : List Flags
  prd : List K
  upd : List K
  used : List Nat
  rej : List Nat
  sorted : List Nat

/-- larreco/RecoAlg/TrackKalmanFitter.cxx:295-813, `doFitWork` from the state `k` and the masks `fl`. -/
def doFit {K : Type} (c : Cfg) (o : Oracle K) (hits : List Hit) (order : Nat → List Nat → List Nat)
    (skip : Bool) (k : K) (fl : List Flags) : Res K (Out K) := do
  let s ← forward c o hits order skip k fl
  let b ← backLoop o ((s.used.zip (s.prd.zip s.upd)).reverse) (o.scale s.tk) (o.scale s.tk) s.flags 0
  let prd := (b.1.map Prod.fst).reverse
  let upd := (b.1.map Prod.snd).reverse
  if b.2.2.2 < 4 then .error (b.2.2.1, b.2.1)
  else
    let t := sortOutput c o hits skip k b.2.1 upd s.used s.rej
    if (t.1.filter fun i => (b.2.1.getD (s.used.getD i 0) {}).excluded = false).length < 4 then
      .error (b.2.2.1, b.2.1)
    else .ok ⟨b.2.1, prd, upd, s.used, t.2, t.1⟩

/-- One point given to the track (larreco/RecoAlg/TrackKalmanFitter.cxx:981-986, 1014-1019): the input
hit and its position (the same number here), the mask, the chi2 and the fitted state (`none` for the
bogus values of a rejected hit). -/
structure Pt (K : Type) where
  hit : Nat
  flags : Flags
  chi2 : ℚ
  state : Option K

/-- larreco/RecoAlg/TrackKalmanFitter.cxx:958-1020: the points, fitted ones first, then the rejected ones.
The mask is a reference: a hit rejected twice has `reject` applied twice, which is the same as once. -/
def points {K : Type} (o : Oracle K) (k0 : K) (r : Out K) : List (Pt K) :=
  (r.sorted.map fun p =>
    let h := r.used.getD p 0
    let f := r.flags.getD h {}
    { hit := h, flags := f,
      chi2 := if f.excluded then -1 else o.chi2 (r.prd.getD p k0) h,
      state := some (r.upd.getD p k0) }) ++
  r.rej.map fun h => { hit := h, flags := (r.flags.getD h {}).reject, chi2 := -1, state := none }

/-- larreco/RecoAlg/TrackKalmanFitter.cxx:1042-1049: look for a valid point without momentum; the loop
ends at the first point that is not valid. -/
def momentumOk {K : Type} (o : Oracle K) (pts : List (Pt K)) : Bool :=
  (pts.takeWhile fun p => !p.flags.noPoint).all fun p =>
    match p.state with
    | some k => decide (¬ o.pmag k ≤ 1 / 1000000000)
    | none => true

/-- larreco/RecoAlg/TrackKalmanFitter.cxx:131-219: `fitTrack` from a start state `k` (the state made by
`setupInitialTrackState`).  Returns the success code and the points (the output hits and the track). -/
def fit {K : Type} (c : Cfg) (o : Oracle K) (hits : List Hit) (order : Nat → List Nat → List Nat)
    (dflt : Flags) (flags : List Flags) (k : K) : Bool × List (Pt K) :=
  if hits.length < 4 then (false, [])
  else
    let fl := inputFlags c dflt flags 0 hits
    let r1 := doFit c o hits order true k fl
    let r2 : Res K (Out K) := match r1 with
      | .ok r => .ok r
      | .error e => if (c.skipNeg || c.cleanZig) && c.tryNoSkip then
          doFit c o hits order false e.1 e.2 else .error e
    match r2 with
    | .error _ => (false, [])
    | .ok r => (momentumOk o (points o k r), points o k r)

/-- larreco/RecoAlg/TrackKalmanFitter.cxx:36-129: `fitTrack` of a trajectory.  `f` is the fit from a
position, a direction and a covariance; `V`, `E` the ends of the trajectory with their directions (as
the pairs passed on) and `neg` the opposite direction; `q` the number of valid points divided by length
times chi2 per degree of freedom. -/
def fitTraj {P D C R : Type} (tryBoth flip : Bool) (f : P → D → C → Option R) (q : R → ℚ)
    (neg : D → D) (vtx stop : P × D) (covVtx covEnd : C) : Option R :=
  if tryBoth then
    match f vtx.1 vtx.2 covVtx, f vtx.1 (neg vtx.2) covEnd with
    | none, none => none
    | some a, some b => if q a ≥ q b then some a else some b
    | some a, none => some a
    | none, some b => some b
  else if flip then f stop.1 (neg stop.2) covEnd
  else f vtx.1 vtx.2 covVtx

end Verif.KalFit

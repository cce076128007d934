import Mathlib.Data.Rat.Floor
import Mathlib.Algebra.Order.Field.Rat
import Mathlib.Data.List.Basic

/-!
# The merging, prohibiting, matching and priority algorithms of CMTool

Models larreco/RecoAlg/CMTool/CMTAlgMerge, CMTAlgMatch and CMTAlgPriority.  Numbers are rational instead of floating point (`abs` is the
absolute value of a floating point number).  The arc tangent, sine, cosine, square root, logarithm, and the functions of polygons are
arbitrary functions.
-/

namespace Verif.CMAlgos

/-- A hit of a cluster (`util::PxHit`). -/
structure PHit where
  w : ℚ
  t : ℚ
  charge : ℚ
  deriving DecidableEq, Repr

/-- What the algorithms read of a cluster: the hit vector and `GetParams()`
(larreco/RecoAlg/ClusterRecoUtil/ClusterParams.h:30-100); `polyArea` and `polyPerim` stand for the area and the perimeter of the
polygon. -/
structure Cl where
  plane : Nat
  hits : List PHit
  angle : ℚ
  opening : ℚ
  length : ℚ
  width : ℚ
  startW : ℚ
  startT : ℚ
  endW : ℚ
  endT : ℚ
  ep : ℚ
  charge : ℚ
  paramHits : ℚ
  hitDens : ℚ
  multiHit : ℚ
  poly : List (ℚ × ℚ)
  polyArea : ℚ
  deriving DecidableEq, Repr

/-- `GetNHits`, larreco/RecoAlg/ClusterRecoUtil/ClusterParamsAlg.h:229; also `GetHitVector().size()`. -/
def Cl.n (c : Cl) : Nat := c.hits.length

/-- `CBAlgoMergeAll::Bool`, larreco/RecoAlg/CMTool/CMTAlgMerge/CBAlgoMergeAll.cxx:11-20. -/
def mergeAll (a b : Cl) : Bool := decide (a.n ≠ 0 ∧ b.n ≠ 0)

/-- `CBAlgoPolyHitOverlap::Bool`, larreco/RecoAlg/CMTool/CMTAlgMerge/CBAlgoPolyHitOverlap.cxx:18-27. -/
def polyHitOverlap (a b : Cl) : Bool := if a.n ≠ 0 ∧ b.n ≠ 0 then false else false

/-- `CBAlgoProhibitBigClusters::Bool`, larreco/RecoAlg/CMTool/CMTAlgMerge/CBAlgoProhibitBigClusters.cxx:18-27. -/
def prohibitBig (minHits : Nat) (a b : Cl) : Bool := decide (a.n > minHits ∧ b.n > minHits)

/-- `CBAlgoProhibitAllTracks::Bool`, larreco/RecoAlg/CMTool/CMTAlgMerge/CBAlgoProhibitAllTracks.cxx:46-60. -/
def prohibitTracks (minEP : ℚ) (a b : Cl) : Bool := decide (a.ep > minEP ∨ b.ep > minEP)

/-- `CBAlgoPolyContain::Bool`, larreco/RecoAlg/CMTool/CMTAlgMerge/CBAlgoPolyContain.cxx:18-33; `inside p q`: polygon `p` contains `q`. -/
def polyContain (inside : List (ℚ × ℚ) → List (ℚ × ℚ) → Bool) (a b : Cl) : Bool :=
  if a.poly.length < 3 ∨ b.poly.length < 3 then false
  else if inside a.poly b.poly ∨ inside b.poly a.poly then true else false

/-- `CBAlgoPolyOverlap::Bool`, larreco/RecoAlg/CMTool/CMTAlgMerge/CBAlgoPolyOverlap.cxx:21-55. -/
def polyOverlap (over : List (ℚ × ℚ) → List (ℚ × ℚ) → Bool) (minHits : Nat) (a b : Cl) : Bool :=
  if a.paramHits < minHits ∨ b.paramHits < minHits then false
  else if a.poly.length < 2 ∨ b.poly.length < 2 then false
  else over a.poly b.poly

/-- `CBAlgoStartNearEnd::Bool`, larreco/RecoAlg/CMTool/CMTAlgMerge/CBAlgoStartNearEnd.cxx:16-52. -/
def startNearEnd (maxOpen : ℚ) (minHits : Nat) (sep : ℚ) (a b : Cl) : Bool :=
  if a.opening < maxOpen ∧ a.n > minHits ∧
    (b.startW - a.endW) * (b.startW - a.endW) + (b.startT - a.endT) * (b.startT - a.endT) < sep then true
  else if b.opening < maxOpen ∧ b.n > minHits ∧
    (a.startW - b.endW) * (a.startW - b.endW) + (a.startT - b.endT) * (a.startT - b.endT) < sep then true
  else false

/-- The comparison of two angles shared by three algorithms: CBAlgoAngleAlign.cxx:47-55, CBAlgoAngleIncompat.cxx:50-56,
CBAlgoAngleCompat.cxx:77-83 (all in larreco/RecoAlg/CMTool/CMTAlgMerge). -/
def angles (ambig : Bool) (cut x y : ℚ) : Bool :=
  if ambig then decide (|x - y| < cut ∨ |x - y - 180| < cut ∨ |x - y + 180| < cut) else decide (|x - y| < cut)

/-- The settings of the angle algorithms. -/
structure ACfg where
  minHits : Nat
  minLength : ℚ
  ambig : Bool
  useOpening : Bool
  cut : ℚ

/-- The cut in use: CBAlgoAngleIncompat.cxx:43-48, CBAlgoAngleCompat.cxx:71-75. -/
def theCut (c : ACfg) (a b : Cl) : ℚ := if c.useOpening then min a.opening b.opening else c.cut

/-- `CBAlgoAngleAlign::Bool`, larreco/RecoAlg/CMTool/CMTAlgMerge/CBAlgoAngleAlign.cxx:18-63. -/
def angleAlign (c : ACfg) (a b : Cl) : Bool :=
  if a.n < c.minHits ∨ b.n < c.minHits then false
  else if a.angle < -998 ∨ b.angle < -998 then false
  else angles c.ambig c.cut a.angle b.angle

/-- `CBAlgoAngleCompat::Bool`, larreco/RecoAlg/CMTool/CMTAlgMerge/CBAlgoAngleCompat.cxx:28-94. -/
def angleCompat (c : ACfg) (a b : Cl) : Bool :=
  if c.minHits ≠ 0 ∧ (a.n < c.minHits ∨ b.n < c.minHits) then false
  else if a.angle < -998 ∨ b.angle < -998 then false
  else angles c.ambig (theCut c a b) a.angle b.angle

/-- `CBAlgoAngleIncompat::Bool`, larreco/RecoAlg/CMTool/CMTAlgMerge/CBAlgoAngleIncompat.cxx:25-66. -/
def angleIncompat (c : ACfg) (a b : Cl) : Bool :=
  if a.n < c.minHits ∨ b.n < c.minHits then false
  else if a.length < c.minLength ∨ b.length < c.minLength then false
  else if a.angle < -998 ∨ b.angle < -998 then false
  else !angles c.ambig (theCut c a b) a.angle b.angle

/-- Are two points of the polygons closer than the cut?  The double loop of CBAlgoMergeTinyWithBig.cxx:72-87 and
CBAlgoPolyShortestDist.cxx:74-94. -/
def polysNear (cut : ℚ) (p q : List (ℚ × ℚ)) : Bool :=
  p.any fun x => q.any fun y => decide ((y.1 - x.1) ^ 2 + (y.2 - x.2) ^ 2 < cut)

/-- The settings of `CBAlgoMergeTinyWithBig`. -/
structure TCfg where
  minBig : Nat
  maxBig : Nat
  minSmall : Nat
  maxSmall : Nat
  distCut : ℚ

/-- The defaults, larreco/RecoAlg/CMTool/CMTAlgMerge/CBAlgoMergeTinyWithBig.cxx:8-18. -/
def TCfg.default : TCfg := ⟨50, 99999, 0, 15, 0⟩

/-- `CBAlgoMergeTinyWithBig::Bool`, larreco/RecoAlg/CMTool/CMTAlgMerge/CBAlgoMergeTinyWithBig.cxx:26-90. -/
def tinyWithBig (c : TCfg) (a b : Cl) : Bool :=
  let s1 := decide (a.n > c.minSmall ∧ a.n < c.maxSmall)
  let s2 := decide (b.n > c.minSmall ∧ b.n < c.maxSmall)
  let b1 := decide (a.n > c.minBig ∧ a.n < c.maxBig)
  let b2 := decide (b.n > c.minBig ∧ b.n < c.maxBig)
  if !s1 && !s2 then false
  else if !b1 && !b2 then false
  else if s1 && s2 then false
  else if b1 && b2 then false
  else polysNear c.distCut a.poly b.poly

/-- `CBAlgoPolyShortestDist::Bool`, larreco/RecoAlg/CMTool/CMTAlgMerge/CBAlgoPolyShortestDist.cxx:51-97 (without the record of the
smallest distance, which nothing reads). -/
def polyShortest (minHits maxHits : Nat) (cut : ℚ) (a b : Cl) : Bool :=
  if a.n < minHits ∨ b.n < minHits then false
  else if a.n > maxHits ∨ b.n > maxHits then false
  else if a.poly.length < 2 ∨ b.poly.length < 2 then false
  else polysNear cut a.poly b.poly

/-- The settings of `CBAlgoStartTrack`. -/
structure SCfg where
  minHits : Nat
  minWidth : ℚ
  minOpen : ℚ
  minEP : ℚ
  inside : List (ℚ × ℚ) → ℚ × ℚ → Bool

/-- `IsStartTrack`, larreco/RecoAlg/CMTool/CMTAlgMerge/CBAlgoStartTrack.cxx:130-136. -/
def isStartTrack (c : SCfg) (a : Cl) : Bool := decide (a.ep > c.minEP)

/-- `IsOverlappingBlob`, larreco/RecoAlg/CMTool/CMTAlgMerge/CBAlgoStartTrack.cxx:138-146. -/
def isBlob (c : SCfg) (a : Cl) : Bool := decide (a.width > c.minWidth ∧ a.opening > c.minOpen ∧ a.ep < c.minEP)

/-- `CBAlgoStartTrack::Bool`, larreco/RecoAlg/CMTool/CMTAlgMerge/CBAlgoStartTrack.cxx:51-123. -/
def startTrack (c : SCfg) (a b : Cl) : Bool :=
  if a.n < c.minHits ∨ b.n < c.minHits then false
  else if isStartTrack c a && isBlob c b then c.inside b.poly (a.endW, a.endT)
  else if isStartTrack c b && isBlob c a then c.inside a.poly (b.endW, b.endT)
  else false

/-- `CBAlgoAngleSeparate::Bool`, larreco/RecoAlg/CMTool/CMTAlgMerge/CBAlgoAngleSeparate.cxx:19-97; `slopeAngle` is
`atan(slope) * 180 / 3.14` as a function of the two differences (it covers the division by zero).  The hits of cluster 2 are read from
cluster 1 (line 36).  `(int)angle % 360` is that of C++ (truncated). -/
def angleSeparate (slopeAngle : ℚ → ℚ → ℚ) (maxAngle minLen : ℚ) (minHits : Nat) (a b : Cl) : Bool :=
  let hits1 := a.n
  let hits2 := a.n
  if hits1 < minHits ∨ hits2 < minHits ∨ a.angle < -360 ∨ b.angle < -360 then false
  else
    let ang := if b.startT - a.startT = 0 then 0 else slopeAngle (b.startT - a.startT) (b.startW - a.startW)
    let sep := |ang - a.angle|
    if ((sep > maxAngle ∧ sep < 180 - maxAngle) ∨ (sep > 180 + maxAngle ∧ sep < 360 - maxAngle)) ∧ hits2 > minHits ∧ a.length > minLen then
      true
    else
      let ang2 : ℚ := (((if 0 ≤ ang + 180 then ⌊ang + 180⌋ else ⌈ang + 180⌉).tmod 360 : Int) : ℚ)
      let sep2 := |ang2 - b.angle|
      decide (((sep2 > maxAngle ∧ sep2 < 180 - maxAngle) ∨ (sep2 > 180 + maxAngle ∧ sep2 < 360 - maxAngle)) ∧ hits1 > minHits ∧ b.length > minLen)

/-- `ShortestDistanceSquared`, larreco/RecoAlg/CMTool/CMTAlgMerge/CBAlgoCenterOfMass.cxx:142-200 (the same text in
CBAlgoCenterOfMassSmall.cxx:140-198). -/
def shortest2 (px py sx sy ex ey : ℚ) : ℚ :=
  let l2 := (ex - sx) ^ 2 + (ey - sy) ^ 2
  if l2 < 1 / 10 then (px - sx) ^ 2 + (py - sy) ^ 2
  else
    let t := ((px - sx) * (ex - sx) + (py - sy) * (ey - sy)) / l2
    if t < 0 then (px - sx) ^ 2 + (py - sy) ^ 2
    else if t > 1 then (px - ex) ^ 2 + (py - ey) ^ 2
    else (px - (sx + t * (ex - sx))) ^ 2 + (py - (sy + t * (ey - sy))) ^ 2

/-- The centre of charge (wire, time), CBAlgoCenterOfMassSmall.cxx:73-80, CBAlgoCenterOfMass.cxx:91-97. -/
def com (l : List PHit) : ℚ × ℚ :=
  let r := l.foldl (fun s h => (s.1 + h.w * h.charge, s.2.1 + h.t * h.charge, s.2.2 + h.charge)) ((0, 0, 0) : ℚ × ℚ × ℚ)
  (r.1 / r.2.2, r.2.1 / r.2.2)

/-- The settings of the two centre-of-mass algorithms. -/
structure MCfg where
  minHits : Nat
  maxHits : Nat
  maxDist : ℚ
  maxCOM : ℚ
  reach : ℚ
  usePoly : Bool
  useCone : Bool
  useClose : Bool
  useNear : Bool
  inside : List (ℚ × ℚ) → ℚ × ℚ → Bool
  cos : ℚ → ℚ
  sin : ℚ → ℚ

/-- `CBAlgoCenterOfMassSmall::Bool`, larreco/RecoAlg/CMTool/CMTAlgMerge/CBAlgoCenterOfMassSmall.cxx:22-133. -/
def comSmall (c : MCfg) (a b : Cl) : Bool :=
  if a.n > c.maxHits ∨ b.n > c.maxHits then false
  else
    let p := com a.hits
    let q := com b.hits
    if (c.inside b.poly p && c.usePoly) || (c.inside a.poly q && c.usePoly) then true
    else if c.useClose && decide ((p.1 - q.1) * (p.1 - q.1) + (p.2 - q.2) * (p.2 - q.2) < c.maxCOM) then true
    else c.useNear && (decide (shortest2 p.1 p.2 b.startW b.startT b.endW b.endT < c.maxDist) ||
      decide (shortest2 q.1 q.2 a.startW a.startT a.endW a.endT < c.maxDist))

/-- `CBAlgoCenterOfMass::Bool`, larreco/RecoAlg/CMTool/CMTAlgMerge/CBAlgoCenterOfMass.cxx:23-135: `s` the small, `g` the big cluster.
`cos` and `sin` take degrees. -/
def comBig (c : MCfg) (a b : Cl) : Bool :=
  let go (s g : Cl) : Bool :=
    let p := com s.hits
    let rw := (p.1 - g.startW) * c.cos g.angle + (p.2 - g.startT) * c.sin g.angle
    let rt := -(p.1 - g.startW) * c.sin g.angle + (p.2 - g.startT) * c.cos g.angle
    if c.inside g.poly p && c.usePoly then true
    else if c.useCone && decide (rw < g.length * c.reach ∧ rw > 0 ∧ |rt| < |rw * c.sin (g.opening * (18000 / 314))|) then true
    else c.useNear && decide (shortest2 p.1 p.2 g.startW g.startT g.endW g.endT < c.maxDist)
  if a.n > c.minHits ∧ b.n < c.maxHits then go b a
  else if b.n > c.minHits ∧ a.n < c.maxHits then go a b
  else false

/-! ### Matching -/

/-- `CFAlgoQRatio::Float`, larreco/RecoAlg/CMTool/CMTAlgMatch/CFAlgoQRatio.cxx:18-66.  If all charges are zero the quotient is not a
number, the comparison with the cut fails and -1 is returned. -/
def qRatio (cut : ℚ) (cls : List Cl) : ℚ :=
  if cls.length = 2 then -1
  else if cls.any (fun c => decide (c.charge < 0)) then -1
  else
    let qmax := cls.foldl (fun m c => if m < c.charge then c.charge else m) (-1)
    if qmax = 0 then -1
    else
      let r := cls.foldl (fun r c => r * (c.charge / qmax)) 1
      if r > cut then r else -1

/-- Start, end and length in wires of a cluster, CFAlgoZOverlap.cxx:42-53: halved but on plane 2. -/
def zStart (c : Cl) : ℚ := if c.plane ≠ 2 then 1 / 2 * c.startW else c.startW
def zEnd (c : Cl) : ℚ := if c.plane ≠ 2 then 1 / 2 * c.endW else c.endW
def zLen (c : Cl) : ℚ := if zEnd c - zStart c < 0 then (zEnd c - zStart c) * -1 else zEnd c - zStart c

/-- `CFAlgoZOverlap::Float`, larreco/RecoAlg/CMTool/CMTAlgMatch/CFAlgoZOverlap.cxx:18-99.  If all lengths are zero the recorded end is that of the
first cluster, whose quotient is not a number, and -1 is returned. -/
def zOverlap (cut : ℚ) (cls : List Cl) : ℚ :=
  if cls.length = 2 then -1
  else
    let m := cls.foldl (fun (s : ℚ × ℚ) c => if s.1 < zLen c then (zLen c, zEnd c) else s) (-1, -1)
    if m.1 = 0 then -1
    else
      let r := cls.foldl (fun r c => r * if zStart c ≤ m.2 then zLen c / m.1 else 1 / 10) 1
      if r > cut then r else -1

/-- First and last time of a cluster, larreco/RecoAlg/CMTool/CMTAlgMatch/CFAlgoTimeOverlap.cxx:80-87. -/
def tStart (c : Cl) : ℚ := if c.startT > c.endT then c.endT else c.startT
def tEnd (c : Cl) : ℚ := if c.startT > c.endT then c.startT else c.endT

/-- The two largest numbers of hits, larreco/RecoAlg/CMTool/CMTAlgMatch/CFAlgoTimeOverlap.cxx:46-47, 61-66. -/
def twoLargest (cls : List Cl) : ℚ × ℚ :=
  cls.foldl (fun (m : ℚ × ℚ) c => if c.paramHits > m.1 then (c.paramHits, m.1) else if c.paramHits > m.2 then (m.1, c.paramHits) else m) (0, 0)

/-- The largest time difference, larreco/RecoAlg/CMTool/CMTAlgMatch/CFAlgoTimeOverlap.cxx:53-57. -/
def maxTime (cls : List Cl) : ℚ :=
  cls.foldl (fun m c => let d := if c.startT - c.endT < 0 then (c.startT - c.endT) * -1 else c.startT - c.endT
    if m < d then d else m) 0

/-- One turn of the second loop, larreco/RecoAlg/CMTool/CMTAlgMatch/CFAlgoTimeOverlap.cxx:71-113, without the factor of the last turn: the
ratio, and start and end of the cluster before (0: none yet, or a cluster that starts or ends at 0). -/
def timeStep (tcut mt : ℚ) (s : ℚ × ℚ × ℚ) (c : Cl) : ℚ × ℚ × ℚ :=
  let ps := if s.2.1 = 0 then tStart c else s.2.1
  let pe := if s.2.2 = 0 then tEnd c else s.2.2
  let r := s.1 * ((tEnd c - tStart c) / mt)
  let f : ℚ := if (tStart c > ps - tcut ∧ tStart c < ps + tcut) ∨ (tEnd c > pe - tcut ∧ tEnd c < pe + tcut) ∨
      (c.length > 25 ∧ tStart c > ps - 2 * tcut ∧ tStart c < ps + 2 * tcut) then 1 else 1 / 1000
  (r * f, tStart c, tEnd c)

/-- `CFAlgoTimeOverlap::Float`, larreco/RecoAlg/CMTool/CMTAlgMatch/CFAlgoTimeOverlap.cxx:22-137.  A quotient by zero is not a number and -1 is
returned; this is only met for a list that is not empty. -/
def timeOverlap (three : Bool) (tcut cut : ℚ) (cls : List Cl) : ℚ :=
  if three && decide (cls.length = 2) then -1
  else if cls.length = 0 then (if 1 > cut then 1 else -1)
  else
    let mt := maxTime cls
    let h := twoLargest cls
    if mt = 0 ∨ h.1 = 0 then -1
    else
      let r := (cls.foldl (timeStep tcut mt) (1, 0, 0)).1 * (h.2 / h.1)
      if r > cut then r else -1

/-- `CFAlgoShowerCompat::Float`, larreco/RecoAlg/CMTool/CMTAlgMatch/CFAlgoShowerCompat.cxx:39-95, without the analysis tree; `rms` stands for
the root of the mean of the squares. -/
def showerCompat (rms : ℚ → ℚ → ℚ) (cls : List Cl) : ℚ :=
  let maxOA := cls.foldl (fun m c => if c.opening > m then c.opening else m) (-99999)
  let minOA := cls.foldl (fun m c => if c.opening < m then c.opening else m) 99999
  let maxLW := cls.foldl (fun m c => if c.length / c.width > m then c.length / c.width else m) (-9999)
  let minOL := cls.foldl (fun m c => if c.opening / c.length < m then c.opening / c.length else m) 9999
  let ok1 := if minOL < 7 / 10000 then false else true
  let ok2 := if (minOA + maxOA) / 2 * rms minOA maxOA < 1 / 100 then false else ok1
  let ok3 := if maxLW > 20 then false else ok2
  if ok3 then 1 else -1

/-! ### Priorities -/

/-- `CPAlgoNHits::Priority`, larreco/RecoAlg/CMTool/CMTAlgPriority/CPAlgoNHits.cxx:13-19. -/
def prioHits (minHits : Nat) (c : Cl) : ℚ := if c.n < minHits then -1 else c.n

/-- `CPAlgoQSum::Priority`, larreco/RecoAlg/CMTool/CMTAlgPriority/CPAlgoQSum.cxx:13-19. -/
def prioQ (cut : ℚ) (c : Cl) : ℚ := if c.charge < cut then -1 else c.charge

/-- `CPAlgoPolyArea::Priority`, larreco/RecoAlg/CMTool/CMTAlgPriority/CPAlgoPolyArea.cxx:13-20. -/
def prioArea (cut : ℚ) (c : Cl) : ℚ := if c.polyArea < cut then -1 else c.polyArea

/-- `CPAlgoIgnoreTracks::Priority` and `IsTrack`, larreco/RecoAlg/CMTool/CMTAlgPriority/CPAlgoIgnoreTracks.cxx:24-54. -/
def prioTracks (log : ℚ → ℚ) (minDens minMulti minPrin : ℚ) (c : Cl) : ℚ :=
  if c.hitDens < minDens ∨ c.multiHit < minMulti ∨ log (1 - c.ep) < minPrin then -1 else c.n

end Verif.CMAlgos

import Verif.Shower.EmHitModel
import Mathlib.Data.List.Perm.Basic
import Mathlib.Data.Rat.Floor

/-!
Model of the functions of `shower::EMShowerAlg` (larreco/RecoAlg/EMShowerAlg.cxx) that make the space points, the initial
track and the shower itself, and of its fits.

Simplifications: numbers are rationals, an undefined division is `none`; the geometry (projections, closeness of a point to a
hit, distances, pitches) is given by arbitrary functions or numbers; a vector is made a unit vector by an arbitrary function.
-/

namespace Verif.EmShower

/-! ### Space points -/

/-- `otherPlanes`, EMShowerAlg.cxx:1247-1250 -/
def otherPlanes (maxPlanes : Nat) (m : List (Nat × List H)) (p : Nat) : List Nat :=
  (List.range maxPlanes).filter fun q => q ≠ p ∧ q ∈ m.map Prod.fst

/-- The point made of two hits and the third plane, EMShowerAlg.cxx:1277-1316: `third` are the hits of the third plane,
`none` if there is no such plane; `near3 a b c`: the projection of the point of `a` and `b` is close to `c`; `near2 a b`: the
point of `a` and `b` is close to both. -/
def tryPoint (near2 : H → H → Bool) (near3 : H → H → H → Bool) (third : Option (List H)) (a b : H) : Option (List H) :=
  match third with
  | some l => (l.find? fun c => decide (c.tpc = a.tpc) && near3 a b c).map fun c => [a, b, c]
  | none => if near2 a b then some [a, b] else none

/-- used hits and the hits of the points -/
abbrev SpState := List Nat × List (List H)

/-- one pass of the loop over the hits of the second plane, EMShowerAlg.cxx:1264-1330 -/
def spStep (near2 : H → H → Bool) (near3 : H → H → H → Bool) (third : Option (List H)) (a : H) (s : SpState) (b : H) :
    SpState :=
  if a.id ∈ s.1 then s
  else if b.tpc ≠ a.tpc ∨ b.id ∈ s.1 then s
  else match tryPoint near2 near3 third a b with
    | some l => (s.1 ++ l.map H.id, s.2 ++ [l])
    | none => s

/-- the loop over the hits of a plane, EMShowerAlg.cxx:1256-1332 -/
def spPlane (near2 : H → H → Bool) (near3 : H → H → H → Bool) (second : List H) (third : Option (List H)) (hs : List H)
    (s : SpState) : SpState :=
  hs.foldl (fun s a => second.foldl (spStep near2 near3 third a) s) s

/-- the loop over the planes, EMShowerAlg.cxx:1240-1334 -/
def spLoop (near2 : H → H → Bool) (near3 : H → H → H → Bool) (maxPlanes : Nat) (m : List (Nat × List H)) :
    List (Nat × List H) → SpState → SpState
  | [], s => s
  | q :: t, s =>
    match otherPlanes maxPlanes m q.1 with
    | [] => s
    | p :: ps => spLoop near2 near3 maxPlanes m t
        (spPlane near2 near3 (hitsOf m p) (ps.head?.map (hitsOf m)) q.2 s)

/-- `MakeSpacePoints`, EMShowerAlg.cxx:1219-1358: the hits of the points. -/
def spacePoints (near2 : H → H → Bool) (near3 : H → H → H → Bool) (maxPlanes : Nat) (m : List (Nat × List H)) :
    List (List H) := (spLoop near2 near3 maxPlanes m m ([], [])).2

/-! ### dE/dx -/

/-- what is read of a hit of the initial track: charge and time -/
structure Q where
  charge : ℚ
  time : ℚ
deriving DecidableEq, Repr

/-- charge, distance, time, number -/
structure Acc where
  charge : ℚ
  dist : ℚ
  time : ℚ
  n : Nat
deriving DecidableEq, Repr

/-- one hit, EMShowerAlg.cxx:592-599 -/
def dqStep (len pitch : ℚ) (s : Acc) (h : Q) : Acc :=
  if s.dist + pitch < len then ⟨s.charge + h.charge, s.dist + pitch, s.time + h.time, s.n + 1⟩ else s

/-- What `FinddEdx_` passes to the calorimetry, EMShowerAlg.cxx:566-605 -/
inductive DedxArg where
  | none : DedxArg                       -- no track: -999
  | firstHit (pitch : ℚ) : DedxArg       -- the first hit alone
  | mean (dqdx time : ℚ) : DedxArg
  | undefined : DedxArg                  -- 0/0
deriving DecidableEq, Repr

/-- `FinddEdx_`, EMShowerAlg.cxx:566-605; the pitch is 0 if there is none (line 578-583). -/
def dEdx (track : Bool) (len pitch : ℚ) (hits : List Q) : DedxArg :=
  if track = false then .none
  else if pitch > len then .firstHit pitch
  else
    let s := hits.foldl (dqStep len pitch) ⟨0, 0, 0, 0⟩
    if s.n = 0 ∨ s.dist = 0 then .undefined else .mean (s.charge / s.dist) (s.time / s.n)

/-! ### Initial track -/

/-- a point or direction -/
structure V where
  x : ℚ
  y : ℚ
  z : ℚ
deriving DecidableEq, Repr

def V.sub (a b : V) : V := ⟨a.x - b.x, a.y - b.y, a.z - b.z⟩
def V.neg (a : V) : V := ⟨-a.x, -a.y, -a.z⟩

/-- The direction at a point followed by `rest`, EMShowerAlg.cxx:474-490; `prev` is the direction before. -/
def dirAt (unit : V → V) (prev : Option V) (p : V) (rest : List V) : V :=
  match rest.find? fun q => q ≠ p with
  | some q => unit (q.sub p)
  | none => prev.getD ⟨0, 0, 0⟩

/-- `dircos`, EMShowerAlg.cxx:470-493; `none`: a track of one point reads `dircos.back()` of an empty vector. -/
def dirs (unit : V → V) : Option V → List V → Option (List V)
  | _, [] => some []
  | prev, [_] => prev.map fun d => [d]
  | prev, p :: q :: t =>
    let d := dirAt unit prev p (q :: t)
    (dirs unit (some d) (q :: t)).map fun l => d :: l

/-- `ConstructTrack`, EMShowerAlg.cxx:466-553; `centres` are the planes of the centres, `dist p v` the distance of the
projection of `v` to the centre in plane `p`.  Without centres the mean distance to the vertex is not a number, and the
track stays. -/
def constructTrack (unit : V → V) (centres : List Nat) (dist : Nat → V → ℚ) (pts : List V) : Option (List V × List V) :=
  match pts.head?, pts.getLast?, dirs unit none pts with
  | some v, some e, some ds =>
    let av := (centres.map fun p => dist p v).sum / centres.length
    let ae := (centres.map fun p => dist p e).sum / centres.length
    if centres ≠ [] ∧ ae > av then some (pts.reverse, ds.map V.neg) else some (pts, ds)
  | _, _, _ => none

/-! ### The shower -/

/-- Best plane so far and its number of hits, EMShowerAlg.cxx:1026-1029; `sizes p` is the number of hits in plane `p`. -/
def bestStep (sizes : Nat → Nat) (s : Int × Nat) (p : Nat) : Int × Nat :=
  if sizes p > s.2 then (p, sizes p) else s

/-- The planes of `MakeShower`, EMShowerAlg.cxx:1000-1064: the planes with values (`some`: computed, `none`: 0) and the best
plane; `init p` tells if the initial hits have plane `p`: `initialHitsMap.at(plane)` throws without. -/
def makeShower (maxPlanes : Nat) (sizes : Nat → Nat) (init : Nat → Bool) : Option (List (Option Nat) × Int) :=
  if (List.range maxPlanes).any fun p => decide (0 < sizes p) && !init p then none
  else some ((List.range maxPlanes).map fun p => if 0 < sizes p then some p else none,
    ((List.range maxPlanes).foldl (bestStep sizes) (-1, 0)).1)

/-- the two planes with most hits, EMShowerAlg.cxx:1093-1104 -/
structure Top where
  p0 : Option Nat
  n0 : Nat
  p1 : Option Nat
  n1 : Nat
deriving DecidableEq, Repr

/-- one plane with its number of hits -/
def topStep (s : Top) (q : Nat × Nat) : Top :=
  if q.2 > s.n0 then
    (if s.p0 ≠ none then ⟨some q.1, q.2, s.p0, s.n0⟩ else ⟨some q.1, q.2, s.p1, s.n1⟩)
  else if q.2 > s.n1 then ⟨s.p0, s.n0, some q.1, q.2⟩ else s

/-- `pl0` and `pl1`, EMShowerAlg.cxx:1083-1105 -/
def topTwo (l : List (Nat × Nat)) : Option Nat × Option Nat :=
  let s := l.foldl topStep ⟨none, 0, none, 0⟩
  (s.p0, s.p1)

/-- Start and direction from the space points, EMShowerAlg.cxx:1122-1143; `d` is the distance to the vertex.  `none`: fewer
than two points.  The result is the start and the point the direction aims at. -/
def startDir (d : V → ℚ) (pts : List V) : Option (V × V) :=
  if pts.length < 2 then none
  else match pts.head?, pts.getLast? with
    | some a, some b =>
      if d a < d b then
        (pts[if pts.length - 1 < 5 then pts.length - 1 else 5]?).map fun q => (a, q)
      else
        (pts[if pts.length > 6 then pts.length - 6 else 0]?).map fun q => (b, q)
    | _, _ => none

/-- one plane of the search for the smallest pitch, EMShowerAlg.cxx:1144-1169; `pitch p` is 0 for a plane without initial
hits or along the shower -/
def pitchStep (pitch : Nat → ℚ) (s : Nat × ℚ) (p : Nat) : Nat × ℚ :=
  if pitch p ≠ 0 ∧ pitch p < s.2 then (p, pitch p) else s

/-- `bestPlane`, EMShowerAlg.cxx:1118-1169 -/
def bestPitch (maxPlanes pl0 : Nat) (pitch : Nat → ℚ) : Nat :=
  ((List.range maxPlanes).foldl (pitchStep pitch) (pl0, 1000)).1

/-! ### Hits near a vertex -/

/-- `OrderShowerHits_`, EMShowerAlg.cxx:1577-1604: `d` is the distance to the vertex, `tpc` the TPC of the vertex. -/
def orderVtx (d : H → ℚ) (vtxTpc : Option Nat) (hits : List H) : List H :=
  match vtxTpc.or (hits.head?.map H.tpc) with
  | none => hits
  | some t =>
    let l := hits.filter fun h => h.tpc = t
    match l.head?, l.getLast? with
    | some a, some b => if d b < d a then hits.reverse else hits
    | _, _ => hits

/-- The TPC with most hits, EMShowerAlg.cxx:1615-1625 (the first such in the order of the map). -/
def maxTpc (hits : List H) : Option Nat :=
  let keys := ((hits.map H.tpc).dedup).insertionSort (· ≤ ·)
  (keys.foldl (fun (s : Option Nat × Nat) t =>
    let n := hits.countP fun h => h.tpc = t
    if n > s.2 then (some t, n) else s) (none, 0)).1

/-- `WeightedFit`, EMShowerAlg.cxx:1993-2031: `none` if it returns 1 (the parameters are then not used). -/
def weightedFit (l : List (ℚ × ℚ × ℚ)) : Option (ℚ × ℚ) :=
  let sx := (l.map fun p => p.1 * p.2.2).sum
  let sxx := (l.map fun p => p.1 * p.1 * p.2.2).sum
  let sy := (l.map fun p => p.2.1 * p.2.2).sum
  let sxy := (l.map fun p => p.1 * p.2.1 * p.2.2).sum
  let sw := (l.map fun p => p.2.2).sum
  if sxx * sw - sx * sx = 0 then none
  else if sxx - sx * sx / sw = 0 then none
  else if sxx * (sxx * sw - sx * sx) < 0 ∨ sxx - sx * sx / sw < 0 then none
  else some ((sy * sxx - sx * sxy) / (sxx * sw - sx * sx), (sxy - sx * sy / sw) / (sxx - sx * sx / sw))

/-- The hits of one pass, EMShowerAlg.cxx:1638-1655: the first `n` hits in the TPC close to the line. -/
def passHits (tpc : Nat) (close : H → Bool) (n : Nat) (hits : List H) : List H :=
  (hits.filter fun h => decide (h.tpc = tpc) && close h).take n

/-- is a hit used in a pass with this tolerance (`none`: first pass) after this fit (`none`: it failed)?
EMShowerAlg.cxx:1644-1647 -/
def closeTo (dist : ℚ × ℚ → H → ℚ) (tol : Option ℚ) (fit : Option (ℚ × ℚ)) (h : H) : Bool :=
  match tol, fit with
  | some t, some f => decide (dist f h < t)
  | _, _ => true

/-- The passes, EMShowerAlg.cxx:1635-1664: each with its number of hits (`fNfithits[i]`, the first at least 1: without a
first fit the line is not initialised) and tolerance (`fToler[i - 1]`); `dist fit h` is the distance of a hit to a line. -/
def fitPasses (tpc : Nat) (dist : ℚ × ℚ → H → ℚ) (hits : List H) : Option (ℚ × ℚ) → List (Nat × Option ℚ) → List H
  | _, [] => []
  | fit, [q] => passHits tpc (closeTo dist q.2 fit) q.1 hits
  | fit, q :: r :: t =>
    let sel := passHits tpc (closeTo dist q.2 fit) q.1 hits
    fitPasses tpc dist hits (if sel = [] then fit else weightedFit (sel.map fun h => (h.x, h.y, 1))) (r :: t)

/-- `FindInitialTrackHits`, EMShowerAlg.cxx:1606-1665 -/
def initialHits (dist : ℚ × ℚ → H → ℚ) (vtxTpc : Option Nat) (passes : List (Nat × Option ℚ)) (hits : List H) : List H :=
  match vtxTpc.or (maxTpc hits) with
  | none => []
  | some t => fitPasses t dist hits none passes

/-- `isCleanShower`, EMShowerAlg.cxx:2033-2050 -/
def isClean (wires : List ℤ) : Bool :=
  if wires = [] then false
  else if wires.length > 2000 then true
  else if wires.length < 20 then true
  else
    let l := wires.take 20
    !decide (((l.length - 2 : ℕ) : ℚ) / ((l.drop 2).dedup.length : ℚ) > 7 / 5)

/-! ### Axis, centre and segments -/

/-- weight, x, y: the gradient of `ShowerDirection_`, EMShowerAlg.cxx:1777-1802 (the weight is the square of the charge) and
of `ShowerHitRMSGradient_`, EMShowerAlg.cxx:1891-1901 -/
def gradient (l : List (ℚ × ℚ × ℚ)) : Option ℚ :=
  let sw := (l.map fun p => p.1).sum
  let sx := (l.map fun p => p.1 * p.2.1).sum
  let sy := (l.map fun p => p.1 * p.2.2).sum
  let sxx := (l.map fun p => p.1 * p.2.1 * p.2.1).sum
  let sxy := (l.map fun p => p.1 * p.2.1 * p.2.2).sum
  if sw * sxx - sx * sx = 0 then none else some ((sw * sxy - sx * sy) / (sw * sxx - sx * sx))

/-- `ShowerCenter_`, EMShowerAlg.cxx:1804-1823: charge, x, y -/
def centre (l : List (ℚ × ℚ × ℚ)) : Option (ℚ × ℚ) :=
  let t := (l.map fun p => p.1).sum
  if t = 0 then none else some ((l.map fun p => p.1 * p.2.1).sum / t, (l.map fun p => p.1 * p.2.2).sum / t)

/-- Segment of a hit at a distance from the first one, EMShowerAlg.cxx:1852-1865; `len` is the distance of the last hit. -/
def segment (nSeg : Nat) (len d : ℚ) : ℤ := ⌊d / (len / nSeg)⌋

end Verif.EmShower

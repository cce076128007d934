import Verif.Basic
import Mathlib.Algebra.Order.Field.Rat
import Mathlib.Algebra.Order.Floor.Ring
import Mathlib.Data.Rat.Floor
import Mathlib.Data.List.Sort
import Mathlib.Data.List.Dedup
/-!
# C152-C158: `trkf::SpacePointAlg`

Source: `/repo/larreco/RecoAlg/SpacePointAlg.cxx`. Numbers are rational. Only the version without Monte Carlo truth (`useMC = false`) is
modelled. A TPC is one number standing for cryostat and TPC. A hit is identified by `id`, which also stands for its address (the keys of
`sptmap` and `sptkeys` and the sort of merged hits compare addresses or product indices; any fixed order serves). Log output and the checks of
`update` on the geometry are left out. `WirePitch()/sqrt(12)` is only used squared.
-/
namespace Verif.SpAlg

/-- what is used of a `recob::Hit` -/
structure Hit where
  id : Nat
  tpc : Nat
  plane : Nat
  view : Nat
  wire : Nat
  peak : ℚ
  sig : ℚ
deriving DecidableEq, Repr

/-- what is used of a `geo::WireGeo`: `GetStart()`, `GetEnd()` (Y, Z) and `HalfL()`. `GetCenter()` is the middle. -/
structure Wire where
  y1 : ℚ
  z1 : ℚ
  y2 : ℚ
  z2 : ℚ
  hl : ℚ
deriving DecidableEq, Repr

/-- the geometry and the detector properties: TPCs in order of iteration, planes per TPC, collection planes, wires, pitch, `GetXTicksOffset`,
`GetXTicksCoefficient` -/
structure Geo where
  tpcs : List Nat
  nplane : Nat → Nat
  coll : Nat → Nat → Bool
  wire : Nat → Nat → Nat → Wire
  pitch : Nat → Nat → ℚ
  off : Nat → Nat → ℚ
  ticksToX : ℚ

/-- the configuration, SpacePointAlg.cxx:47-60. `enabled view`: `EnableU`, `EnableV`, `EnableW` for the three views, false for other views
(lines 840-841). The `TickOffset` parameters are used by `correctedTime` only. -/
structure Cfg where
  maxDT : ℚ
  maxS : ℚ
  minViews : Int
  enabled : Nat → Bool
  filter : Bool
  merge : Bool
  preferColl : Bool

/-- sine of the wire angle from centre and end, SpacePointAlg.cxx:225, 384, 500 -/
def Wire.s (w : Wire) : ℚ := (w.y2 - (w.y1 + w.y2) / 2) / w.hl
/-- cosine of the wire angle from centre and end, SpacePointAlg.cxx:226, 385, 501 -/
def Wire.c (w : Wire) : ℚ := (w.z2 - (w.z1 + w.z2) / 2) / w.hl
/-- distance of the wire from the origin, SpacePointAlg.cxx:229, 388, 502 -/
def Wire.u (w : Wire) : ℚ := (w.z1 + w.z2) / 2 * w.s - (w.y1 + w.y2) / 2 * w.c

/-- the wire of a hit -/
def Geo.of (g : Geo) (h : Hit) : Wire := g.wire h.tpc h.plane h.wire
/-- the corrected time of a hit, SpacePointAlg.cxx:270-271, 304-305, 457-458, 1191 -/
def Geo.time (g : Geo) (h : Hit) : ℚ := h.peak - g.off h.tpc h.plane

/-! ## Compatibility -/

/-- the pairwise test, SpacePointAlg.cxx:291-309 -/
def pairOk (g : Geo) (c : Cfg) (a b : Hit) : Bool :=
  decide (a.tpc = b.tpc) && decide (a.view ≠ b.view) && decide (|g.time a - g.time b| ≤ c.maxDT)

/-- entry `p` of the arrays `dist`, `sinth`, `costh`: written by the last hit of the plane, zero at first, SpacePointAlg.cxx:363-389 -/
def slot (hits : List Hit) (f : Hit → ℚ) (p : Nat) : ℚ :=
  match hits.reverse.find? (fun h => decide (h.plane = p)) with
  | none => 0
  | some h => f h

/-- the spatial separation, SpacePointAlg.cxx:232-235, 393-395 -/
def sep (g : Geo) (hits : List Hit) : ℚ :=
  let s := slot hits (fun h => (g.of h).s)
  let c := slot hits (fun h => (g.of h).c)
  let d := slot hits (fun h => (g.of h).u)
  (s 1 * c 2 - c 1 * s 2) * d 0 + (s 2 * c 0 - c 2 * s 0) * d 1 + (s 0 * c 1 - c 0 * s 1) * d 2

/-- the double loop over pairs -/
def allPairs (g : Geo) (c : Cfg) : List Hit → Bool
  | [] => true
  | a :: l => l.all (pairOk g c a) && allPairs g c l

/-- `compatible`, SpacePointAlg.cxx:243-404 -/
def compatible (g : Geo) (c : Cfg) (hits : List Hit) : Bool :=
  decide (2 ≤ hits.length) && decide (hits.length ≤ 3) && allPairs g c hits &&
  (decide (hits.length ≠ 3) || decide (|sep g hits| < c.maxS))

/-! ## Position -/

/-- a space point: `ID`, position, `Chisq`, and the errors of the time and of y, z -/
structure SP where
  id : Int
  x : ℚ
  y : ℚ
  z : ℚ
  chisq : ℚ
  errX : ℚ
  errYY : ℚ
  errYZ : ℚ
  errZZ : ℚ
deriving DecidableEq, Repr

/-- a sum over the hits -/
def sumOf (hits : List Hit) (f : Hit → ℚ) : ℚ := (hits.map f).sum

/-- the drift time, its variance and chi square, SpacePointAlg.cxx:445-480 (`cx = false`) and 642-685 (`cx = true`), with `w` the weight of a hit -/
def timeFit (g : Geo) (cx : Bool) (w : Hit → ℚ) (hits : List Hit) : ℚ × ℚ × ℚ :=
  let t2w := sumOf hits (fun h => w h * g.time h * g.time h)
  let tw := sumOf hits (fun h => w h * g.time h)
  let sw := sumOf hits w
  if sw = 0 then (0, 0, 0)
  else
    let dt := tw / sw
    let var := if cx then t2w / sw - dt * dt else 1 / sw
    let chi := t2w - tw * dt
    (dt, if var < 0 then 0 else var, if chi < 0 then 0 else chi)

/-- y, z and their error matrix, SpacePointAlg.cxx:489-529 and 694-735: `errxyz[2]`, `[4]`, `[5]` -/
def wireFit (g : Geo) (w : Hit → ℚ) (hits : List Hit) : ℚ × ℚ × ℚ × ℚ × ℚ :=
  let sus := sumOf hits (fun h => w h * (g.of h).u * (g.of h).s)
  let suc := sumOf hits (fun h => w h * (g.of h).u * (g.of h).c)
  let sc2 := sumOf hits (fun h => w h * (g.of h).c * (g.of h).c)
  let ss2 := sumOf hits (fun h => w h * (g.of h).s * (g.of h).s)
  let ssc := sumOf hits (fun h => w h * (g.of h).s * (g.of h).c)
  let denom := sc2 * ss2 - ssc * ssc
  if denom = 0 then (0, 0, 0, 0, 0)
  else ((-suc * ss2 + sus * ssc) / denom, (sus * sc2 - suc * ssc) / denom, ss2 / denom, ssc / denom, sc2 / denom)

/-- the number of hits of a plane to the third power, inverse: the weight of `fillComplexSpacePoint`, SpacePointAlg.cxx:613-633 -/
def planeWeight (hits : List Hit) (h : Hit) : ℚ :=
  1 / ((hits.countP (fun k => decide (k.plane = h.plane)) : Nat) : ℚ) ^ 3

/-- the weight of a hit in the time average, SpacePointAlg.cxx:460, 664 -/
def timeW (cx : Bool) (hits : List Hit) (h : Hit) : ℚ := (if cx then planeWeight hits h else 1) / (h.sig * h.sig)
/-- the weight of a hit in the wire average, SpacePointAlg.cxx:507, 712 -/
def wireW (g : Geo) (cx : Bool) (hits : List Hit) (h : Hit) : ℚ :=
  (if cx then planeWeight hits h else 1) * 12 / (g.pitch h.tpc h.plane * g.pitch h.tpc h.plane)

/-- the space point of a list of hits, SpacePointAlg.cxx:436-533 and 635-740 -/
def point (g : Geo) (cx : Bool) (hits : List Hit) (id : Int) : SP :=
  let t := timeFit g cx (timeW cx hits) hits
  let w := wireFit g (wireW g cx hits) hits
  ⟨id, t.1 * g.ticksToX, w.1, w.2.1, t.2.2, t.2.1 * g.ticksToX * g.ticksToX, w.2.2.1, w.2.2.2.1, w.2.2.2.2⟩

/-- `sptmap` (in order of insertion), `fSptHitMap` and `spts` -/
structure St where
  map : List (Nat × SP)
  hitMap : List (Int × List Hit)
  spts : List SP
deriving Repr

/-- `fSptHitMap[sptid] = hits`, SpacePointAlg.cxx:423-426, 605-608; `none` is the exception "hit already present" -/
def remember (m : List (Int × List Hit)) (id : Int) (hits : List Hit) : Option (List (Int × List Hit)) :=
  if id ∈ m.map Prod.fst then none else some (m ++ [(id, hits)])

/-- `getAssociatedHits`, SpacePointAlg.cxx:1438-1452; `none` is the exception -/
def assoc (m : List (Int × List Hit)) (id : Int) : Option (List Hit) := (m.find? (fun q => decide (q.1 = id))).map Prod.snd

/-! ## The combinations of one TPC -/

/-- the hits of one plane, in the order of the multimap keyed by wire, SpacePointAlg.cxx:835-846 -/
def planeHits (c : Cfg) (hits : List Hit) (t p : Nat) : List Hit :=
  (hits.filter (fun h => c.enabled h.view && decide (h.tpc = t) && decide (h.plane = p))).insertionSort (fun a b => a.wire ≤ b.wire)

/-- the test of the exchange sort, SpacePointAlg.cxx:984-990 -/
def swapIf (g : Geo) (c : Cfg) (hits : List Hit) (t i j : Nat) : Bool :=
  (decide ((planeHits c hits t j).length < (planeHits c hits t i).length) && !(c.preferColl && g.coll t j)) || (c.preferColl && g.coll t i)

/-- the inner loop of an exchange sort: the entry kept at the front and the rest -/
def exchRow (sw : Nat → Nat → Bool) : Nat → List Nat → Nat × List Nat
  | a, [] => (a, [])
  | a, b :: l =>
    if sw a b then
      let r := exchRow sw b l
      (r.1, a :: r.2)
    else
      let r := exchRow sw a l
      (r.1, b :: r.2)

/-- the outer loop of the exchange sort; the first argument counts the rows left -/
def exchGo (sw : Nat → Nat → Bool) : Nat → List Nat → List Nat
  | n + 1, a :: l => (exchRow sw a l).1 :: exchGo sw n (exchRow sw a l).2
  | _, _ => []

/-- the exchange sort, SpacePointAlg.cxx:978-996 -/
def exchSort (sw : Nat → Nat → Bool) (l : List Nat) : List Nat := exchGo sw l.length l

/-- `index`, SpacePointAlg.cxx:972-996 -/
def index (g : Geo) (c : Cfg) (hits : List Hit) (t : Nat) : List Nat := exchSort (swapIf g c hits t) (List.range (g.nplane t))

/-- the constants of a plane from its wire 0, start and end: sine, cosine, distance, SpacePointAlg.cxx:1027-1033, 1128-1134, ... -/
def Wire.s0 (w : Wire) : ℚ := (w.y2 - w.y1) / (2 * w.hl)
/-- see `Wire.s0` -/
def Wire.c0 (w : Wire) : ℚ := (w.z2 - w.z1) / (2 * w.hl)
/-- see `Wire.s0` -/
def Wire.dist0 (w : Wire) : ℚ := -w.y1 * w.c0 + w.z1 * w.s0

/-- the plane-2 wire number at a point, SpacePointAlg.cxx:1066-1067, 1205-1206 -/
def wireAt (g : Geo) (t p : Nat) (y z : ℚ) : ℚ :=
  (-y * (g.wire t p 0).c0 + z * (g.wire t p 0).s0 - (g.wire t p 0).dist0) / g.pitch t p

/-- the wires of plane `p` reached from the wire of hit `a`, SpacePointAlg.cxx:1066-1074, 1205-1213: between `wmin` and `wmax` -/
def reach (g : Geo) (a : Hit) (p w : Nat) : Bool :=
  let w1 := wireAt g a.tpc p (g.of a).y1 (g.of a).z1
  let w2 := wireAt g a.tpc p (g.of a).y2 (g.of a).z2
  decide (⌊max 0 (min w1 w2)⌋.toNat ≤ w) && decide (w ≤ ⌊max 0 (max w1 w2 + 1)⌋.toNat)

/-- the pairs of hits of planes `p` and `q` that make a space point, SpacePointAlg.cxx:1046-1110 -/
def pairsOf (g : Geo) (c : Cfg) (hits : List Hit) (t p q : Nat) : List (List Hit) :=
  (planeHits c hits t p).flatMap (fun a => ((planeHits c hits t q).filter (fun b => reach g a q b.wire && compatible g c [a, b])).map (fun b => [a, b]))

/-- the pairs of planes in the double loop, in the order of `index` -/
def planePairs : List Nat → List (Nat × Nat)
  | [] => []
  | p :: l => l.map (fun q => (p, q)) ++ planePairs l

/-- the oblique coordinate of a hit from its wire number, SpacePointAlg.cxx:1199, 1245, 1270 -/
def oblique (g : Geo) (h : Hit) : ℚ := h.wire * g.pitch h.tpc h.plane + (g.wire h.tpc h.plane 0).dist0

/-- the third hit: predicted wires, times and separation, SpacePointAlg.cxx:1247-1281. `s12`, `s23`, `s31` of lines 1164-1166. -/
def thirdOk (g : Geo) (c : Cfg) (a b d : Hit) : Bool :=
  let w1 := g.wire a.tpc a.plane 0
  let w2 := g.wire b.tpc b.plane 0
  let w3 := g.wire d.tpc d.plane 0
  let s12 := w1.s0 * w2.c0 - w2.s0 * w1.c0
  let s23 := w2.s0 * w3.c0 - w3.s0 * w2.c0
  let s31 := w3.s0 * w1.c0 - w1.s0 * w3.c0
  let u3pred := (-(oblique g a) * s23 - oblique g b * s31) / s12
  let w3pred := (u3pred - w3.dist0) / g.pitch d.tpc d.plane
  let w3delta := |c.maxS / (s12 * g.pitch d.tpc d.plane)|
  decide (⌈w3pred - w3delta⌉.toNat ≤ d.wire) && decide (d.wire ≤ ⌊w3pred + w3delta⌋.toNat) &&
  decide (|g.time a - g.time d| ≤ c.maxDT) && decide (|g.time b - g.time d| ≤ c.maxDT) &&
  decide (|s23 * oblique g a + s31 * oblique g b + s12 * oblique g d| ≤ c.maxS) && compatible g c [a, b, d]

/-- the triples of hits that make a space point, SpacePointAlg.cxx:1170-1304 -/
def triplesOf (g : Geo) (c : Cfg) (hits : List Hit) (t p q r : Nat) : List (List Hit) :=
  (planeHits c hits t p).flatMap (fun a =>
    ((planeHits c hits t q).filter (fun b => reach g a q b.wire && decide (|g.time a - g.time b| ≤ c.maxDT) && compatible g c [a, b])).flatMap
      (fun b => ((planeHits c hits t r).filter (thirdOk g c a b)).map (fun d => [a, b, d])))

/-- number of views with hits, SpacePointAlg.cxx:1003-1007 -/
def nViews (g : Geo) (c : Cfg) (hits : List Hit) (t : Nat) : Nat :=
  ((index g c hits t).filter (fun p => decide (0 < (planeHits c hits t p).length))).length

/-- are two-view points made in this TPC? SpacePointAlg.cxx:1012 -/
def twoView (g : Geo) (c : Cfg) (hits : List Hit) (t : Nat) : Bool :=
  (decide (nViews g c hits t = 2) || decide (g.nplane t = 2)) && decide (c.minViews ≤ 2)

/-- the pairs of planes visited; empty planes are skipped, SpacePointAlg.cxx:1015-1024 -/
def pairPlanes (g : Geo) (c : Cfg) (hits : List Hit) (t : Nat) : List (Nat × Nat) :=
  (planePairs (index g c hits t)).filter (fun pq => decide (0 < (planeHits c hits t pq.1).length) && decide (0 < (planeHits c hits t pq.2).length))

/-- is the exception "hitmaps with incompatible size" thrown? SpacePointAlg.cxx:1036-1039 -/
def badSize (g : Geo) (c : Cfg) (hits : List Hit) (t : Nat) : Bool :=
  !c.preferColl && (pairPlanes g c hits t).any (fun pq => decide ((planeHits c hits t pq.2).length < (planeHits c hits t pq.1).length))

/-- one two-view point, SpacePointAlg.cxx:1092-1106 -/
def addPair (g : Geo) (s : St) (l : List Hit) : Option St := do
  let m ← remember s.hitMap s.map.length l
  pure { s with map := s.map ++ [((l.getLast?.map Hit.id).getD 0, point g false l s.map.length)], hitMap := m }

/-- one three-view point, SpacePointAlg.cxx:1284-1300; the number is one less than for a pair -/
def addTriple (g : Geo) (s : St) (l : List Hit) : Option St := do
  let m ← remember s.hitMap ((s.map.length : Int) - 1) l
  pure { s with map := s.map ++ [((l.getLast?.map Hit.id).getD 0, point g false l ((s.map.length : Int) - 1))], hitMap := m }

/-- `sptkeys` -/
def keys (m : List (Nat × SP)) : List Nat := (m.map Prod.fst).dedup.insertionSort (· ≤ ·)

/-- the points of a key -/
def ofKey (m : List (Nat × SP)) (k : Nat) : List SP := (m.filter (fun q => decide (q.1 = k))).map Prod.snd

/-- the best point of a key, SpacePointAlg.cxx:1327-1339 -/
def bestOf (l : List SP) : Option SP :=
  l.foldl (fun b p => match b with
    | none => some p
    | some q => if p.chisq < q.chisq then some p else some q) none

/-- filtering, SpacePointAlg.cxx:1311-1351 -/
def doFilter (s : St) : Option St := do
  let l ← (keys s.map).mapM (fun k => bestOf (ofKey s.map k))
  pure { s with spts := s.spts ++ l }

/-- the merged hits of a key, SpacePointAlg.cxx:1378-1402 -/
def mergedHits (s : St) (k : Nat) : Option (List Hit) := do
  let l ← (ofKey s.map k).mapM (fun p => assoc s.hitMap p.id)
  pure (l.flatten.dedup.insertionSort (fun a b => a.id ≤ b.id))

/-- one merged point, SpacePointAlg.cxx:1404-1406. With fewer than two hits no point is made; this does not happen. -/
def mergeOne (g : Geo) (s : St) (k : Nat) : Option St := do
  let l ← mergedHits s k
  let id : Int := (s.map.length + s.spts.length : Nat) - 1
  let m ← remember s.hitMap id l
  pure { s with hitMap := m, spts := if 2 ≤ l.length then s.spts ++ [point g true l id] else s.spts }

/-- no filter, no merge, SpacePointAlg.cxx:1417-1428: all points so far in the order of the multimap -/
def doAll (s : St) : St := { s with spts := s.spts ++ (s.map.insertionSort (fun a b => a.1 ≤ b.1)).map Prod.snd }

/-- filtering, merging or neither, SpacePointAlg.cxx:1309-1434 -/
def transfer (g : Geo) (c : Cfg) (s : St) : Option St :=
  if c.filter then doFilter s else if c.merge then (keys s.map).foldlM (mergeOne g) s else some (doAll s)

/-- the pairs and triples of one TPC, SpacePointAlg.cxx:1012-1306 -/
def pairs (g : Geo) (c : Cfg) (hits : List Hit) (t : Nat) : List (List Hit) :=
  if twoView g c hits t then (pairPlanes g c hits t).flatMap (fun pq => pairsOf g c hits t pq.1 pq.2) else []

/-- see `pairs` -/
def triples (g : Geo) (c : Cfg) (hits : List Hit) (t : Nat) : List (List Hit) :=
  if 3 ≤ g.nplane t ∧ c.minViews ≤ 3 then
    match index g c hits t with
    | p :: q :: r :: _ => triplesOf g c hits t p q r
    | _ => []
  else []

/-- one TPC, SpacePointAlg.cxx:955-1435 -/
def oneTpc (g : Geo) (c : Cfg) (hits : List Hit) (s : St) (t : Nat) : Option St := do
  if twoView g c hits t && badSize g c hits t then none
  else
    let s ← (pairs g c hits t).foldlM (addPair g) s
    let s ← (triples g c hits t).foldlM (addTriple g) s
    transfer g c s

/-- `makeSpacePoints`, SpacePointAlg.cxx:779-1436; `none` is an exception -/
def make (g : Geo) (c : Cfg) (hits : List Hit) : Option St := g.tpcs.foldlM (oneTpc g c hits) ⟨[], [], []⟩

/-! ## Space points along a track -/

/-- `fillSpacePoints`, SpacePointAlg.cxx:554-602: the groups of hits made into points, from the hits of the track in order; `cur` is `hits`
(equal to `compatible_hits` between turns) -/
def runs (g : Geo) (c : Cfg) : List Hit → List Hit → List (List Hit)
  | cur, [] => if 2 ≤ cur.length then [cur] else []
  | cur, h :: l =>
    if compatible g c (cur ++ [h]) then runs g c (cur ++ [h]) l
    else (if 2 ≤ cur.length then [cur] else []) ++ runs g c [h] l

/-- the points of the groups: each is numbered by the size of `fSptHitMap`, SpacePointAlg.cxx:580, 600 -/
def fillRuns (g : Geo) (s : St) (l : List Hit) : Option St := do
  let m ← remember s.hitMap s.hitMap.length l
  pure { s with hitMap := m, spts := s.spts ++ [point g false l s.hitMap.length] }

/-- `fillSpacePoints` -/
def fillTrack (g : Geo) (c : Cfg) (s : St) (l : List Hit) : Option St := (runs g c [] l).foldlM (fillRuns g) s

end Verif.SpAlg

/-
Model of the small-cluster finder:
larreco/RecoAlg/SmallClusterFinderAlg.cxx and
larreco/ClusterFinder/SmallClusterFinder_module.cc, and of
larreco/RecoAlg/ShowerEnergyAlg.cxx.
-/
import Mathlib.Data.Rat.Defs
import Mathlib.Algebra.Order.Field.Rat
import Mathlib.Data.List.Basic

namespace Verif.SmallClus

/-- What the finder reads of a hit (SmallClusterFinderAlg.cxx:313-324, `GetPlaneAndTPC`): its
plane number, wire number and peak time.  `key` is the identity of the `art::Ptr`; `tpc` is the
TPC of the wire, which the code never reads.  Times are rationals instead of floats. -/
structure Hit where
  key : Nat
  tpc : Nat
  plane : Nat
  wire : Nat
  time : ℚ
deriving DecidableEq, Repr

/-- Configuration (SmallClusterFinderAlg.cxx:56-61) and geometry: number of planes, radius,
`fNHitsInClust` (a double) and the 2D distance `gser.Get2DDistance(wire, time, wire0, time0)`,
taken as an arbitrary function. -/
structure Cfg where
  nPlanes : Nat
  radius : ℚ
  nHits : ℚ
  dist : Nat → ℚ → Nat → ℚ → ℚ

/-- Is the hit selected around the seed (SmallClusterFinderAlg.cxx:215-226, 241-252):
`linear_dist < radlimit`. -/
def near (c : Cfg) (seed h : Hit) : Bool :=
  decide (c.dist h.wire h.time seed.wire seed.time < c.radius)

/-- `SelectLocalHitlist` without indices, SmallClusterFinderAlg.cxx:205-228. -/
def selectLocal (c : Cfg) (seed : Hit) (l : List Hit) : List Hit :=
  l.foldl (fun acc h => if near c seed h then acc ++ [h] else acc) []

/-- `SelectLocalHitlist` with the indices of the selected hits, SmallClusterFinderAlg.cxx:230-260:
the running state is the local list, the index list and the counter `i`.  The final
`std::sort(index)` sorts an already increasing list and is left out. -/
def selectIdx (c : Cfg) (seed : Hit) (l : List Hit) : List Hit × List Nat × Nat :=
  l.foldl (fun s h =>
    if near c seed h then (s.1 ++ [h], s.2.1 ++ [s.2.2], s.2.2 + 1)
    else (s.1, s.2.1, s.2.2 + 1)) ([], [], 0)

/-- Removal of the selected hits, last index first (SmallClusterFinderAlg.cxx:174-177). -/
def eraseBack (l : List Hit) (index : List Nat) : List Hit :=
  index.reverse.foldl (fun l i => l.eraseIdx i) l

/-- `CreateHighHitlist`, SmallClusterFinderAlg.cxx:262-310: the refined hits and the leftovers,
one pass over the list of the plane. -/
def createHigh (c : Cfg) (l : List Hit) : List Hit × List Hit :=
  l.foldl (fun s h =>
    if ((selectLocal c h l).length : ℚ) < c.nHits then (s.1 ++ [h], s.2) else (s.1, s.2 ++ [h]))
    ([], [])

/-- The splitting loop, SmallClusterFinderAlg.cxx:151-179, with a bound `fuel` on the number of
turns; `none`: the bound is used up before the list is empty.  (The clusters go to
`smallClustList[plane]` of the seed's plane, which is the plane of the list.) -/
def split (c : Cfg) : Nat → List Hit → Option (List (List Hit))
  | _, [] => some []
  | 0, _ :: _ => none
  | fuel + 1, seed :: rest =>
    let s := selectIdx c seed (seed :: rest)
    match split c fuel (eraseBack (seed :: rest) s.2.1) with
    | some r => some (s.1 :: r)
    | none => none

/-- The result for one plane. -/
structure PlaneOut where
  left : List Hit
  small : List (List Hit)
deriving DecidableEq, Repr

/-- Hits of a plane (SmallClusterFinderAlg.cxx:88-95). -/
def byPlane (hits : List Hit) (p : Nat) : List Hit :=
  hits.foldl (fun acc h => if h.plane = p then acc ++ [h] else acc) []

/-- One plane of `FindSmallClusters` (SmallClusterFinderAlg.cxx:107-180). -/
def findPlane (c : Cfg) (fuel : Nat) (hits : List Hit) (p : Nat) : Option PlaneOut :=
  let s := createHigh c (byPlane hits p)
  match split c fuel s.1 with
  | some r => some ⟨s.2, r⟩
  | none => none

/-- A cluster of the product: ID and associated hits. -/
structure Clus where
  id : Nat
  hits : List Hit
deriving DecidableEq, Repr

/-- The clusters made of one plane, SmallClusterFinder_module.cc:163-228: the leftovers with ID
`iplane * 100` if there are any, then the small clusters `iplane * 100 + i + 1`. -/
def planeClusters (p : Nat) (o : PlaneOut) : List Clus :=
  (if o.left.length ≠ 0 then [⟨p * 100, o.left⟩] else []) ++
    o.small.mapIdx (fun i l => ⟨p * 100 + i + 1, l⟩)

/-- Over the planes (SmallClusterFinder_module.cc:163). -/
def allPlanes (c : Cfg) (fuel : Nat) (hits : List Hit) : List Nat → Option (List Clus)
  | [] => some []
  | p :: ps =>
    match findPlane c fuel hits p, allPlanes c fuel hits ps with
    | some o, some r => some (planeClusters p o ++ r)
    | _, _ => none

/-- What the event receives. -/
inductive Outcome where
  /-- the loop bound was used up -/
  | running
  /-- `produce` returned without a product -/
  | nothing
  /-- the clusters with their hits -/
  | put (cl : List Clus)
deriving DecidableEq, Repr

/-- `produce`, SmallClusterFinder_module.cc:115-232.  A hit of a plane number out of range (an
out-of-bounds access at SmallClusterFinderAlg.cxx:94) is not modelled: theorems assume all planes
in range. -/
def produce (c : Cfg) (fuel : Nat) (hits : List Hit) : Outcome :=
  if hits.length = 0 then .nothing
  else match allPlanes c fuel hits (List.range c.nPlanes) with
    | some r => .put r
    | none => .running

/-! ### Shower energy -/

/-- What `ShowerEnergyAlg` reads of a hit: plane number, integral, peak time. -/
structure QHit where
  plane : Nat
  integral : ℚ
  time : ℚ
deriving DecidableEq, Repr

/-- `ShowerEnergyAlg::ShowerEnergy`, ShowerEnergyAlg.cxx:33-53 with
`LinearFunction::energy_from` (ShowerEnergyAlg.h:37: `gradient * charge + intercept`).  `exp` is the
exponential, taken as an arbitrary function; `coeff` the sampling rate over the lifetime in ns;
`fn` the three linear functions (gradient, intercept). -/
def showerEnergy (exp : ℚ → ℚ) (coeff : ℚ) (fn : List (ℚ × ℚ)) (hits : List QHit) (plane : Nat) : ℚ :=
  match fn[plane]? with
  | none => 0
  | some f =>
    f.1 * (((hits.filter (fun h => h.plane = plane)).map
      (fun h => h.integral * exp (coeff * h.time))).foldl (· + ·) 0) + f.2

end Verif.SmallClus

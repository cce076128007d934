import Verif.Basic
import Mathlib.Algebra.Order.Field.Basic
import Mathlib.Algebra.BigOperators.Group.List.Basic
import Mathlib.Algebra.Order.BigOperators.Group.List
/-!
# Model of the track calorimetry algorithm
Source: `/repo/larreco/Calorimetry/TrackCalorimetryAlg.cxx` and `.h`.

Numbers are an ordered field (rounding is not modelled). Not modelled: the geometry service and the charge to energy
conversion — the projected distance between a hit and a trajectory point, the pitch and dE/dx are arbitrary
functions; `convertCollToPoint`; printing.
-/
namespace Verif.Calo
open Verif

section
variable {R : Type} [Field R] [LinearOrder R]

/-- a track: lengths of the segments between consecutive trajectory points (`none`: no trajectory point at all), and
what `Length()` returns -/
structure Trk (R : Type) where
  segs : Option (List R)
  length : R

/-- what the geometry, the hits and the calorimetry service supply: wire plane and charge of a hit, projected distance
of a hit to a trajectory point of a track on a plane (`dist_projected`, :85-104), pitch of a track at a
trajectory point for a hit, and dE/dx of a hit for a pitch -/
structure Env (R : Type) where
  plane : Nat → Nat
  charge : Nat → R
  dist : Nat → Nat → Nat → Nat → R
  pitch : Nat → Nat → Nat → R
  dEdx : Nat → R → R

/-- `HitProperties`, TrackCalorimetryAlg.h:59-76, with the hit and the index of the trajectory point it was given
(the stored position is that point's) -/
structure HitProp (R : Type) where
  hit : Nat
  point : Nat
  charge : R
  dQdx : R
  dEdx : R
  pitch : R
  frac : R

/-- running sums -/
def cumul : R → List R → List R
  | _, [] => []
  | a, x :: l => (a + x) :: cumul (a + x) l

/-- `CreatePathLengthFractionVector`, TrackCalorimetryAlg.cxx:106-119: entry 0 stays 0. -/
def fracs (t : Trk R) : List R :=
  match t.segs with
  | none => []
  | some l => 0 :: (cumul 0 l).map (· / t.length)

/-- `std::min_element` over the indices `0 … n`: the first minimum -/
def firstMin (f : Nat → R) : Nat → Nat
  | 0 => 0
  | n + 1 => if f (n + 1) < f (firstMin f n) then n + 1 else firstMin f n

/-- `AnalyzeHit`, TrackCalorimetryAlg.cxx:121-144, without the insertion; without trajectory points the index is past
the end. -/
def analyzeHit (E : Env R) (it ip : Nat) (t : Trk R) (h : Nat) : Res (HitProp R) :=
  match (fracs t).length with
  | 0 => .ub
  | n + 1 =>
    let k := firstMin (E.dist it ip h) n
    match (fracs t)[k]? with
    | none => .ub
    | some fr =>
      let p := E.pitch it h k
      .ok ⟨h, k, E.charge h, E.charge h / p, E.dEdx h p, p, fr⟩

/-- `std::multiset::emplace` with the order of path fractions (TrackCalorimetryAlg.h:77-85): behind all entries that
are not greater. -/
def insertProp (x : HitProp R) : List (HitProp R) → List (HitProp R)
  | [] => [x]
  | y :: l => if x.frac < y.frac then x :: y :: l else y :: insertProp x l

/-- loop over the hits of a plane, TrackCalorimetryAlg.cxx:66-74 -/
def analyzeAll (E : Env R) (it ip : Nat) (t : Trk R) : List Nat → List (HitProp R) → Res (List (HitProp R))
  | [], s => .ok s
  | h :: hs, s => do
    let x ← analyzeHit E it ip t h
    analyzeAll E it ip t hs (insertProp x s)

/-- the summing loops of `IsInvertedTrack`, TrackCalorimetryAlg.cxx:153-165: stop when the counter equals `N` -/
def chargeLoop (N : Nat) : List (HitProp R) → Nat → R → R
  | [], _, acc => acc
  | x :: l, c, acc => if c + 1 = N then acc + x.charge else chargeLoop N l (c + 1) (acc + x.charge)

/-- `IsInvertedTrack`, TrackCalorimetryAlg.cxx:146-168. -/
def isInverted (N : Nat) (s : List (HitProp R)) : Bool :=
  if s.length ≤ N then false
  else decide (chargeLoop N s.reverse 0 0 < chargeLoop N s 0 0)

/-- one entry of the vectors of a calorimetry object, with the hit properties it came from -/
structure Row (R : Type) where
  src : HitProp R
  resRange : R

/-- a calorimetry object with its track association -/
structure Calo (R : Type) where
  track : Nat
  plane : Nat
  kinetic : R
  range : R
  rows : List (Row R)

/-- `MakeCalorimetryObject`, TrackCalorimetryAlg.cxx:170-220. -/
def makeCalo (N : Nat) (t : Trk R) (it ip : Nat) (s : List (HitProp R)) : Calo R :=
  let rows := if isInverted N s then s.map (fun x => ⟨x, x.frac * t.length⟩)
    else s.reverse.map (fun x => ⟨x, (1 - x.frac) * t.length⟩)
  ⟨it, ip, rows.foldl (fun ke r => ke + r.src.dEdx * r.src.pitch) 0, t.length, rows⟩

/-- sorting hits into planes, TrackCalorimetryAlg.cxx:46-48; a plane number without a list is undefined behaviour -/
def sortHits (E : Env R) : List Nat → List (List Nat) → Res (List (List Nat))
  | [], acc => .ok acc
  | h :: hs, acc =>
    match acc[E.plane h]? with
    | none => .ub
    | some l => sortHits E hs (acc.set (E.plane h) (l ++ [h]))

/-- loop over the planes, TrackCalorimetryAlg.cxx:51-79 -/
def planeLoop (E : Env R) (N : Nat) (t : Trk R) (it : Nat) (byPlane : List (List Nat)) :
    List Nat → List (Calo R) → Res (List (Calo R))
  | [], out => .ok out
  | ip :: ips, out => do
    let s ← analyzeAll E it ip t ((byPlane[ip]?).getD []) []
    planeLoop E N t it byPlane ips (out ++ [makeCalo N t it ip s])

/-- loop over the tracks from index `it` on, TrackCalorimetryAlg.cxx:40-81; `hitsOf` is `hit_indices_per_track` -/
def trackLoop (E : Env R) (N np : Nat) (hitsOf : Nat → List Nat) :
    List (Trk R) → Nat → List (Calo R) → Res (List (Calo R))
  | [], _, out => .ok out
  | t :: ts, it, out => do
    let byPlane ← sortHits E (hitsOf it) (List.replicate np [])
    let out' ← planeLoop E N t it byPlane (List.range np) out
    trackLoop E N np hitsOf ts (it + 1) out'

/-- `ExtractCalorimetry`, TrackCalorimetryAlg.cxx:29-83. -/
def extract (E : Env R) (N np : Nat) (ts : List (Trk R)) (hitsOf : Nat → List Nat) (out : List (Calo R)) :
    Res (List (Calo R)) :=
  trackLoop E N np hitsOf ts 0 out

end
end Verif.Calo

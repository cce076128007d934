import Verif.Basic
import Mathlib.Algebra.Order.Field.Rat
import Mathlib.Data.List.Sort
/-!
# Model of the bookkeeping of TrajCluster
Source: `/repo/larreco/RecoAlg/TCAlg/Utils.cxx`, `TCVertex.cxx`, `DataStructs.h`. Trajectories own hits through two
tables that have to agree: `UseHit` of the trajectory points and `InTraj` of the hits. Members that no modelled function
reads for a decision (charge averages, momenta, fit results) are left out, and with them the calls that only change
those: `UpdateTjChgProperties`, `MCSMom`, `KinkSignificance`. Loops with `unsigned short` counters over the points of a
trajectory are modelled without the wrap at 65536 points, except where a definition says so.
-/
namespace Verif.TC

/-- `TrajPoint`, DataStructs.h:153-176; `hits` pairs `Hits` with `UseHit` -/
structure TP where
  hits : List (Nat × Bool)
  chg : Rat
  pos : Rat × Rat := (0, 0)
  dir : Rat × Rat := (0, 0)
  ang : Rat := 0
deriving DecidableEq

/-- `Trajectory`, DataStructs.h:191-218; the bits of `AlgMod` used here are members of their own -/
structure Traj where
  pts : List TP
  endPt : Nat × Nat := (0, 0)
  vtx : Nat × Nat := (0, 0)
  endFlag : Nat × Nat := (0, 0)
  dEdx : Rat × Rat := (0, 0)
  id : Int
  workID : Int := 0
  parentID : Int := -1
  uid : Nat := 0
  stepDir : Int := 1
  startEnd : Int := -1
  pdg : Nat := 0
  ctp : Nat := 0
  killed : Bool := false
  halo : Bool := false
  shower : Bool := false
  photon : Bool := false
  hiVx3 : Bool := false
  michel : Bool := false
  delta : Bool := false
  split : Bool := false
deriving DecidableEq

/-- `VtxStore`, DataStructs.h:73-90; `hi` is the bit `kHiVx3Score`, `plane` the plane of `CTP` -/
structure Vtx where
  id : Nat
  vx3 : Nat := 0
  ctp : Nat := 0
  plane : Nat := 0
  pos : Rat × Rat := (0, 0)
  ntraj : Nat := 0
  hi : Bool := false
deriving DecidableEq

/-- `Vtx3Store`, DataStructs.h:105-120 -/
structure Vtx3 where
  id : Nat
  vx2 : List Nat
  score : Rat := 0
  wire : Rat := -1
deriving DecidableEq

/-- `PFPStruct`, DataStructs.h:283-305: `TjIDs` and `Vx3ID` -/
structure Pfp where
  tjs : List Int
  vx3 : Nat × Nat := (0, 0)
deriving DecidableEq

/-- `TCSlice`, DataStructs.h:650-681, with `evt.globalT_UID`; `n` hits, `own h` is `slHits[h].InTraj` -/
structure Slice where
  n : Nat
  own : Nat → Int
  tjs : List Traj
  vtxs : List Vtx := []
  vtx3s : List Vtx3 := []
  pfps : List Pfp := []
  uid : Nat := 0

/-- assign to `slHits[h].InTraj` -/
def setOwn (own : Nat → Int) (h : Nat) (v : Int) : Nat → Int := fun x => if x = h then v else own x

/-- `HitStatus_t`, Utils.h:41-46 -/
inductive Want where
  | all | used | unused
deriving DecidableEq

/-- the choice of a hit, Utils.cxx:2707-2709 -/
def wanted (w : Want) (u : Bool) : Bool :=
  match w with
  | .all => true
  | .used => u
  | .unused => !u

/-- the inner loop, Utils.cxx:2705-2711 -/
def tpHits (w : Want) (p : TP) : List Nat := (p.hits.filter fun x => wanted w x.2).map (·.1)

/-- `PutTrajHitsInVector`, Utils.cxx:2689-2713 -/
def trajHits (t : Traj) (w : Want) : List Nat :=
  if t.shower then t.pts.flatMap fun p => p.hits.map (·.1) else t.pts.flatMap (tpHits w)

/-- the first point with charge, 0 when there is none, Utils.cxx:3337-3347 -/
def firstChg (l : List TP) : Nat :=
  match l.findIdx? (fun p => p.chg ≠ 0) with
  | some i => i
  | none => 0

/-- the last point with charge, 0 when there is none, Utils.cxx:3348-3354 -/
def lastChg (l : List TP) : Nat :=
  match l.reverse.findIdx? (fun p => p.chg ≠ 0) with
  | some i => l.length - 1 - i
  | none => 0

/-- `SetEndPoints`, Utils.cxx:3330-3355 -/
def setEndPoints (t : Traj) : Traj :=
  if t.shower || t.halo then t else { t with endPt := (firstChg t.pts, lastChg t.pts) }

/-- `ReleaseHits`, Utils.cxx:1049-1058; `ub` = a hit number beyond the hits is read -/
def releaseHits (s : Slice) (t : Traj) : Res Slice :=
  if (t.pts.flatMap (tpHits .all)).all (· < s.n) then
    .ok { s with own := fun x => if x ∈ t.pts.flatMap (tpHits .all) ∧ s.own x = t.id then 0 else s.own x }
  else .ub

/-- `UnsetUsedHits`, Utils.cxx:1061-1071 -/
def unsetUsed (s : Slice) (p : TP) : Res (Slice × TP) :=
  if (tpHits .used p).all (· < s.n) then
    .ok ({ s with own := fun x => if x ∈ tpHits .used p then 0 else s.own x },
      { p with hits := p.hits.map fun x => (x.1, false), chg := 0 })
  else .ub

/-- the loop of `StoreTraj` over the used hits, Utils.cxx:1150-1165: `false` when a hit is owned by a stored
trajectory; for a hit number beyond the hits `ReleaseHits` reads past the end -/
def claim (n : Nat) (id : Int) : List Nat → (Nat → Int) → Res (Bool × (Nat → Int))
  | [], own => .ok (true, own)
  | h :: l, own =>
    if n ≤ h then .ub
    else if 0 < own h then .ok (false, own)
    else claim n id l (setOwn own h id)

/-- the used hits of the points from the first to the last end point, Utils.cxx:1150-1153 -/
def endHits (t : Traj) : List Nat := ((t.pts.drop t.endPt.1).take (t.endPt.2 + 1 - t.endPt.1)).flatMap (tpHits .used)

/-- `StoreTraj`, Utils.cxx:1074-1198: the answer, the slice and the trajectory of the caller. The averages of charge,
kinks and angle errors are not modelled. -/
def storeTraj (s : Slice) (t0 : Traj) : Res (Bool × Slice × Traj) :=
  if t0.pts.any (fun p => 16 < p.hits.length) then .ok (false, s, t0)
  else
    let t := setEndPoints t0
    if 65535 ≤ s.tjs.length ∨ t.endPt.2 ≤ t.endPt.1 ∨ t.pts.length < t.endPt.2 then
      (releaseHits s t).bind fun s1 => .ok (false, s1, t)
    else if t.pts.length ≤ t.endPt.2 then .ub
    else
      (claim s.n (s.tjs.length + 1) (endHits t) s.own).bind fun r =>
        if r.1 then
          if (List.range s.n).any (fun h => r.2 h = t.id) then .ok (false, { s with own := r.2 }, t)
          else
            let t1 := { t with workID := t.id, id := s.tjs.length + 1, uid := s.uid + 1,
                               parentID := if t.parentID = 0 then s.tjs.length + 1 else t.parentID }
            .ok (true, { s with own := r.2, tjs := s.tjs ++ [t1], uid := s.uid + 1 }, t1)
        else (releaseHits { s with own := r.2 } t).bind fun s1 => .ok (false, s1, t)

/-- `MakeTrajectoryObsolete`, Utils.cxx:2138-2147; `ub` = an empty list, for which the bound wraps around -/
def makeObsolete (s : Slice) (i : Nat) : Res Slice :=
  if s.tjs = [] then .ub
  else
    match s.tjs[i]? with
    | none => .ok s
    | some t => .ok { s with own := fun h => if h < s.n ∧ s.own h = t.id then 0 else s.own h,
                             tjs := s.tjs.set i { t with killed := true } }

/-- `RestoreObsoleteTrajectory`, Utils.cxx:2150-2169 -/
def restore (s : Slice) (i : Nat) : Res Slice :=
  if s.tjs = [] then .ub
  else
    match s.tjs[i]? with
    | none => .ok s
    | some t =>
      if t.killed then
        if (t.pts.flatMap (tpHits .used)).all (· < s.n) then
          .ok { s with own := fun h => if h ∈ t.pts.flatMap (tpHits .used) ∧ s.own h = 0 then t.id else s.own h,
                       tjs := s.tjs.set i { t with killed := false } }
        else .ub
      else .ok s

/-- the inner loop of `SplitTraj` over the hits of one point, Utils.cxx:2327-2334 -/
def moveHits (id new : Int) : List (Nat × Bool) → (Nat → Int) → List (Nat × Bool) × (Nat → Int)
  | [], own => ([], own)
  | (h, u) :: l, own =>
    if u = true ∧ own h = id then
      let r := moveHits id new l (setOwn own h new)
      ((h, false) :: r.1, r.2)
    else
      let r := moveHits id new l own
      ((h, u) :: r.1, r.2)

/-- the loop of `SplitTraj` over points, Utils.cxx:2325-2335 -/
def movePts (id new : Int) : List TP → (Nat → Int) → List TP × (Nat → Int)
  | [], own => ([], own)
  | p :: l, own =>
    let r := moveHits id new p.hits own
    let q := movePts id new l r.2
    ({ p with hits := r.1, chg := 0 } :: q.1, q.2)

/-- points with charge, counted by the loops Utils.cxx:2293-2297, 2303-2306 (which stop at 3) -/
def charged (l : List TP) : Nat := l.countP fun p => 0 < p.chg

/-- a point without its hits, Utils.cxx:2361-2365 -/
def blank (p : TP) : TP := { p with hits := p.hits.map fun x => (x.1, false), chg := 0 }

/-- `SplitTraj(slc, itj, pos, ivx, prt)`, Utils.cxx:2269-2381; `code` stands for `SetPDGCode` -/
def splitTraj (code : Traj → Nat) (s : Slice) (i pos ivx : Nat) : Res (Bool × Slice) :=
  if s.tjs = [] then .ub
  else
    match s.tjs[i]? with
    | none => .ok (false, s)
    | some t =>
      if pos < t.endPt.1 + 1 ∨ t.endPt.2 < pos + 1 then .ok (false, s)
      else if ivx ≠ 65535 ∧ s.vtxs ≠ [] ∧ s.vtxs.length ≤ ivx then .ok (false, s)
      else if t.pts.length ≤ t.endPt.2 then .ub
      else
        let muon := t.pdg = 13
        let t0 := if muon then { t with pdg := 0 } else t
        let s0 := { s with tjs := s.tjs.set i t0 }
        if charged (t.pts.take (pos + 1)) < 3 then .ok (false, s0)
        else if charged ((t.pts.take (t.endPt.2 + 1)).drop (pos + 1)) < 3 then .ok (false, s0)
        else
          let new : Int := s.tjs.length + 1
          let r := movePts t.id new ((t.pts.take (t.endPt.2 + 1)).drop (pos + 1)) s.own
          let t1 := setEndPoints { t0 with pts := t.pts.take (pos + 1) ++ r.1 ++ t.pts.drop (t.endPt.2 + 1) }
          let t2 := if muon then { t1 with pdg := code t1 } else t1
          let er := (pos + 65534) % 65536
          if t.pts.length - 1 < er then .ok (false, { s0 with own := r.2, uid := s.uid + 1 })
          else
            let vid := s.vtxs[ivx]?.map Vtx.id
            let t3 := { t2 with vtx := (t2.vtx.1, vid.getD t2.vtx.2), split := true }
            let l := t.pts.drop er
            let n1 := setEndPoints { t0 with pts := (l.take 3).map blank ++ l.drop 3, id := new, uid := s.uid + 1 }
            let n2 := if muon then { n1 with pdg := code n1 } else n1
            let n3 := { n2 with vtx := (vid.getD n2.vtx.1, n2.vtx.2), split := true, parentID := 0 }
            .ok (true, { s with own := r.2, tjs := s.tjs.set i t3 ++ [n3], uid := s.uid + 1 })

/-- one round of the comparison with a later hit, Utils.cxx:2749-2757 -/
def hasDup : List Nat → Bool
  | [] => false
  | h :: l => l.any (fun x => h = x) || hasDup l

/-- `HasDuplicateHits`, Utils.cxx:2745-2760; `none` = the loop never ends: without hits the bound `size() - 1` is
2^64 - 1, which the 16 bit counter never reaches. From 65536 hits on the inner counter wraps around until the first hit
is compared with itself. -/
def hasDuplicateHits (t : Traj) : Option Bool :=
  let l := trajHits t .all
  if l = [] then none else if 65536 ≤ l.length then some true else some (hasDup l)

/-- `ReverseTraj`, Utils.cxx:3219-3243; `pi` stands for `M_PI` -/
def reverseTraj (pi : Rat) (t : Traj) : Traj :=
  if t.pts = [] then t
  else
    setEndPoints
      { t with
        stepDir := -t.stepDir
        vtx := (t.vtx.2, t.vtx.1)
        endFlag := (t.endFlag.2, t.endFlag.1)
        dEdx := (t.dEdx.2, t.dEdx.1)
        pts := t.pts.reverse.map fun p =>
          { p with dir := (-p.dir.1, -p.dir.2), ang := if 0 < p.ang then p.ang - pi else p.ang + pi }
        startEnd := if t.startEnd = 0 ∨ t.startEnd = 1 then 1 - t.startEnd else t.startEnd }

/-- the hits with `InTraj == tID`, Utils.cxx:1273-1275 -/
def ownedHits (s : Slice) (id : Int) : List Nat := (List.range s.n).filter fun h => s.own h = id

/-- `std::equal(tHits.begin(), tHits.end(), atHits.begin())`, Utils.cxx:1277; `none` = `atHits` is read past its
end -/
def equalPrefix : List Nat → List Nat → Option Bool
  | [], _ => some true
  | _ :: _, [] => none
  | a :: l, b :: m => if a = b then equalPrefix l m else some false

/-- one round of `InTrajOK`, Utils.cxx:1266-1310; `tID` is an `unsigned short` -/
def inTrajOKAt (s : Slice) (t : Traj) : Option Bool :=
  if t.killed then some true
  else
    let tID := t.id % 65536
    let th := trajHits t .used
    if th.length < 2 then some true
    else
      let ah := ownedHits s tID
      if ah.length < 2 then some true
      else
        match equalPrefix (th.insertionSort (· ≤ ·)) ah with
        | none => none
        | some false => some false
        | some true => some (decide (t.vtx.1 ≤ s.vtxs.length ∧ t.vtx.2 ≤ s.vtxs.length))

/-- `InTrajOK`, Utils.cxx:1257-1314, without the messages; the trajectory with a bad vertex is also marked as killed,
which is not modelled -/
def inTrajOK (s : Slice) : List Traj → Option Bool
  | [] => some true
  | t :: l =>
    match inTrajOKAt s t with
    | some true => inTrajOK s l
    | r => r

end Verif.TC

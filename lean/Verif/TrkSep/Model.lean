import Mathlib.Data.Rat.Defs
import Mathlib.Algebra.Order.Ring.Rat

/-! # Separation of tracks and showers (larreco/RecoAlg/TrackShowerSeparationAlg.cxx, TrackShowerSeparationAlg.h)

Model of `shower::TrackShowerSeparationAlg::SelectShowerHits` and `shower::ReconTrack`.  Simplified: rationals for floating point numbers (with values for infinity and not-a-number where the code
divides by a number that may be 0); lengths are compared by their squares; "angle below the cone angle" is a function that is given; the tracks are a list in the order of their keys (`std::map`). -/

namespace Verif.TrkSep

structure V3 where
  x : ℚ
  y : ℚ
  z : ℚ
  deriving DecidableEq, Repr

def V3.sub (a b : V3) : V3 := ⟨a.x - b.x, a.y - b.y, a.z - b.z⟩
def V3.add (a b : V3) : V3 := ⟨a.x + b.x, a.y + b.y, a.z + b.z⟩
def V3.smul (k : ℚ) (a : V3) : V3 := ⟨k * a.x, k * a.y, k * a.z⟩
def V3.dot (a b : V3) : ℚ := a.x * b.x + a.y * b.y + a.z * b.z
def V3.mag2 (a : V3) : ℚ := a.dot a

/-- `Mag() < r`. -/
def shorter (a : V3) (r : ℚ) : Bool := decide (0 < r) && decide (a.mag2 < r * r)

/-- A floating point number that is not negative. -/
inductive F
  | nan
  | inf
  | fin (q : ℚ)
  deriving DecidableEq, Repr

/-- Quotient of two counts, as `double`. -/
def F.ofCounts (a n : Nat) : F := if n = 0 then (if a = 0 then .nan else .inf) else .fin ((a : ℚ) / n)

def F.add : F → F → F
  | .nan, _ => .nan
  | _, .nan => .nan
  | .inf, _ => .inf
  | _, .inf => .inf
  | .fin a, .fin b => .fin (a + b)

def F.div : F → F → F
  | .nan, _ => .nan
  | _, .nan => .nan
  | .inf, .inf => .nan
  | .inf, .fin _ => .inf
  | .fin _, .inf => .fin 0
  | .fin a, .fin b => if b = 0 then (if a = 0 then .nan else .inf) else .fin (a / b)

def F.lt : F → ℚ → Bool
  | .fin a, c => decide (a < c)
  | _, _ => false

/-- The marks of a track, TrackShowerSeparationAlg.h:43-50, 197-200: track, shower, shower track, shower cone. -/
structure Marks where
  track : Bool
  shower : Bool
  sTrack : Bool
  sCone : Bool
  deriving DecidableEq, Repr

/-- The marks at first, TrackShowerSeparationAlg.h:43-50. -/
def Marks.new : Marks := ⟨false, false, false, false⟩
/-- `MakeShowerTrack`, TrackShowerSeparationAlg.h:112-118. -/
def Marks.makeShowerTrack (_ : Marks) : Marks := ⟨false, true, true, false⟩
/-- `MakeShowerCone`, TrackShowerSeparationAlg.h:119-125. -/
def Marks.makeShowerCone (_ : Marks) : Marks := ⟨false, true, false, true⟩
/-- `MakeShower`, TrackShowerSeparationAlg.h:105-111. -/
def Marks.makeShower (m : Marks) : Marks := if m.track then m.makeShowerTrack else m.makeShowerCone
/-- `MakeTrack`, TrackShowerSeparationAlg.h:126-132. -/
def Marks.makeTrack (_ : Marks) : Marks := ⟨true, false, false, false⟩
/-- `IsUndetermined`, TrackShowerSeparationAlg.h:138. -/
def Marks.undetermined (m : Marks) : Bool := !m.track && !m.shower

/-- `ReconTrack`, TrackShowerSeparationAlg.h:41-201: what is used of it. -/
structure Trk where
  key : Nat
  vtx : V3
  stop : V3
  dir : V3
  nsp : Nat
  m : Marks
  deriving DecidableEq, Repr

/-- A space point: position and the keys of its tracks (`fmtsp`). -/
structure SP where
  pos : V3
  trks : List Nat
  deriving DecidableEq, Repr

/-- A hit: a number and the keys of its tracks (`fmth`). -/
structure Hit where
  id : Nat
  trks : List Nat
  deriving DecidableEq, Repr

/-- The settings, TrackShowerSeparationAlg.cxx:23-32; `cone v d` is `v.Angle(d) < fConeAngle * Pi / 180`. -/
structure Cfg where
  radius : ℚ
  vtxCut : ℚ
  cylCut : ℚ
  cone : V3 → V3 → Bool

/-- `ProjPoint`, TrackShowerSeparationAlg.cxx:414-419. -/
def proj (p d o : V3) : V3 := ((d.smul ((p.sub o).dot d))).add o

/-- The number of space points in the cylinder around a track, TrackShowerSeparationAlg.cxx:88-106. -/
def cylinder (c : Cfg) (sps : List SP) (t : Trk) : Nat :=
  (sps.filter fun s => !s.trks.contains t.key && shorter (s.pos.sub (proj s.pos t.dir t.vtx)) c.radius).length

/-- `CylinderSpacePointRatio`, TrackShowerSeparationAlg.h:154-157. -/
def ratio (c : Cfg) (sps : List SP) (t : Trk) : F := F.ofCounts (cylinder c sps t) t.nsp

/-- The mean ratio, TrackShowerSeparationAlg.cxx:83, 107-109. -/
def average (c : Cfg) (sps : List SP) (ts : List Trk) : F := F.div (ts.foldl (fun s t => F.add s (ratio c sps t)) (.fin 0)) (.fin ts.length)

/-- Tracks of the first kind, TrackShowerSeparationAlg.cxx:123-130. -/
def typeOne (c : Cfg) (sps : List SP) (ts : List Trk) : List Trk :=
  ts.map fun t => if F.lt (F.div (ratio c sps t) (average c sps ts)) c.cylCut then { t with m := t.m.makeTrack } else t

/-- Two tracks come near with an end each, TrackShowerSeparationAlg.cxx:142-145. -/
def near (c : Cfg) (a b : Trk) : Bool :=
  shorter (a.vtx.sub b.vtx) c.vtxCut || shorter (a.vtx.sub b.stop) c.vtxCut || shorter (a.stop.sub b.vtx) c.vtxCut || shorter (a.stop.sub b.stop) c.vtxCut

/-- Tracks of the second kind, TrackShowerSeparationAlg.cxx:133-151: the tracks one after the other, those before (`pre`) with the marks they have got. -/
def typeTwo (c : Cfg) : List Trk → List Trk → List Trk
  | pre, [] => pre
  | pre, t :: rest =>
    if t.m.track then typeTwo c (pre ++ [t]) rest
    else if (pre ++ t :: rest).any fun o => decide (o.key ≠ t.key) && o.m.track && near c t o then typeTwo c (pre ++ [{ t with m := t.m.makeTrack }]) rest
    else typeTwo c (pre ++ [t]) rest

/-- `IsTrack` of the track of a key; nothing if there is no such track (the code follows a null pointer), TrackShowerSeparationAlg.cxx:165, 269. -/
def isTrack (ts : List Trk) (k : Nat) : Option Bool := (ts.find? fun t => t.key == k).map fun t => t.m.track

/-- No track of the keys is marked as a track; nothing if a track is missing. -/
def noTrack (ts : List Trk) : List Nat → Option Bool
  | [] => some true
  | k :: l => match isTrack ts k with
    | none => none
    | some b => (noTrack ts l).map fun r => !b && r

/-- The elements with no track, TrackShowerSeparationAlg.cxx:156-167 and 261-271. -/
def untracked {α : Type} (ts : List Trk) (keys : α → List Nat) : List α → Option (List α)
  | [] => some []
  | a :: l => match noTrack ts (keys a) with
    | none => none
    | some b => (untracked ts keys l).map fun r => if b then a :: r else r

/-- The space points and tracks in the cones of a track: `AddForwardTrack`, `AddBackwardTrack` add a track once, TrackShowerSeparationAlg.h:64-75. -/
structure Cones where
  fs : Nat
  bs : Nat
  ft : List Nat
  bt : List Nat
  deriving DecidableEq, Repr

def addOnce (l : List Nat) (k : Nat) : List Nat := if l.contains k then l else l ++ [k]

/-- The cones of a track, TrackShowerSeparationAlg.cxx:174-195; nothing if a space point in a cone has no track (`spTracks.at(0)` throws). -/
def cones (c : Cfg) (t : Trk) : List SP → Cones → Option Cones
  | [], r => some r
  | s :: l, r =>
    if s.trks.contains t.key then cones c t l r
    else
      let f := c.cone (s.pos.sub t.vtx) t.dir
      let b := c.cone (s.pos.sub t.vtx) (t.dir.smul (-1))
      if !f && !b then cones c t l r
      else match s.trks with
        | [] => none
        | k :: _ =>
          let r1 : Cones := if f then ⟨r.fs + 1, r.bs, addOnce r.ft k, r.bt⟩ else r
          let r2 : Cones := if b then ⟨r1.fs, r1.bs + 1, r1.ft, addOnce r1.bt k⟩ else r1
          cones c t l r2

/-- `ConeSize`, `TrackConeSize`, TrackShowerSeparationAlg.h:140-143, 148-151. -/
def Cones.size (r : Cones) : Int := (r.fs : Int) - r.bs
def Cones.tsize (r : Cones) : Int := (r.ft.length : Int) - r.bt.length

/-- The decision for one track, TrackShowerSeparationAlg.cxx:205-211, with `FlipTrack`, TrackShowerSeparationAlg.h:97-103. -/
def decideOne (t : Trk) (r : Cones) : Trk :=
  if r.size.natAbs > 30 ∧ r.tsize.natAbs > 3 then
    (if r.size < 0 then ⟨t.key, t.stop, t.vtx, t.dir.smul (-1), t.nsp, t.m.makeShower⟩ else { t with m := t.m.makeShower })
  else t

/-- Showers of the first kind, TrackShowerSeparationAlg.cxx:171-212. -/
def showers (c : Cfg) (ssps : List SP) : List Trk → Option (List Trk)
  | [] => some []
  | t :: l => match cones c t ssps ⟨0, 0, [], []⟩ with
    | none => none
    | some r => (showers c ssps l).map fun l' => decideOne t r :: l'

/-- Tracks in the cone of one shower, TrackShowerSeparationAlg.cxx:220-236. -/
def coneOf (c : Cfg) (s : Trk) (ts : List Trk) : List Trk :=
  ts.map fun o => if o.key ≠ s.key ∧ o.m.undetermined = true ∧ (c.cone (o.vtx.sub s.vtx) s.dir || c.cone (o.stop.sub s.vtx) s.dir) = true then { o with m := o.m.makeShower } else o

/-- Showers of the second kind, TrackShowerSeparationAlg.cxx:214-238: for each position the track there, if it is a shower by now. -/
def showersTwo (c : Cfg) (ts : List Trk) : List Trk :=
  (List.range ts.length).foldl (fun ts i => match ts[i]? with | none => ts | some s => if s.m.shower then coneOf c s ts else ts) ts

/-- The rest, TrackShowerSeparationAlg.cxx:240-245. -/
def rest (ts : List Trk) : List Trk := ts.map fun t => if t.m.undetermined then { t with m := t.m.makeShower } else t

/-- `SelectShowerHits`, TrackShowerSeparationAlg.cxx:34-275: the tracks at the end and the hits; nothing if the code fails. -/
def select (c : Cfg) (ts : List Trk) (sps : List SP) (hits : List Hit) : Option (List Trk × List Hit) :=
  let t2 := typeTwo c [] (typeOne c sps (ts.map fun t => { t with m := Marks.new }))
  match untracked t2 SP.trks sps with
  | none => none
  | some ssps =>
    match showers c ssps t2 with
    | none => none
    | some t3 =>
      let t4 := rest (showersTwo c t3)
      (untracked t4 Hit.trks hits).map fun r => (t4, r)

/-- The sums of `Gradient`, TrackShowerSeparationAlg.cxx:359-370. -/
structure Sums where
  n : ℚ
  sx : ℚ
  sy : ℚ
  sz : ℚ
  sxx : ℚ
  sxy : ℚ
  sxz : ℚ

def sums (ps : List V3) : Sums :=
  ps.foldl (fun s p => ⟨s.n + 1, s.sx + p.x, s.sy + p.y, s.sz + p.z, s.sxx + p.x * p.x, s.sxy + p.x * p.y, s.sxz + p.x * p.z⟩) ⟨0, 0, 0, 0, 0, 0, 0⟩

/-- `Gradient`, TrackShowerSeparationAlg.cxx:355-384, before the vector is made a unit vector: nothing if the denominator is 0. -/
def gradient (ps : List V3) (dir : Option V3) : Option V3 :=
  let s := sums ps
  if s.n * s.sxx - s.sx * s.sx = 0 then none
  else
    let v : V3 := ⟨1, (s.n * s.sxy - s.sx * s.sy) / (s.n * s.sxx - s.sx * s.sx), (s.n * s.sxz - s.sx * s.sz) / (s.n * s.sxx - s.sx * s.sx)⟩
    match dir with
    | none => some v
    | some d => if v.dot d < 0 then some (v.smul (-1)) else some v

end Verif.TrkSep

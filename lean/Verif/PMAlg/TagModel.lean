import Mathlib.Algebra.Order.Field.Rat
import Mathlib.Algebra.Order.Ring.Abs
import Mathlib.Algebra.BigOperators.Group.List.Basic

/-!
Model of `pma::PMAlgCosmicTagger` (larreco/RecoAlg/PMAlgCosmicTagger.cxx), of the tag word of `pma::Track3D`
(larreco/RecoAlg/PMAlg/PmaTrack3D.h:44-68) and of its translation to `anab::CosmicTag`
(larreco/TrackFinder/PMAlgTrackMaker_module.cc:293-326).

Simplifications: coordinates are rationals; a track is its nodes, its T0 and the dE/dx values of its views; the
tag word is a natural number; distances and sigmas are compared by their squares; NaN (one value, or all
values equal) is "no sigma".  Indexing with the direction -1 (lines 131-135, 191, 231-233) is undefined in
the code; the model tags nothing there.
-/

namespace Verif.Tag

/-- `TVector3` -/
abbrev V := ℚ × ℚ × ℚ

/-- `v[i]`; `TVector3` returns 0 outside 0..2 -/
def V.get (v : V) : Nat → ℚ
  | 0 => v.1
  | 1 => v.2.1
  | 2 => v.2.2
  | _ => 0

/-- A node: its position and its TPC. -/
structure Node where
  pos : V
  tpc : Nat
deriving DecidableEq, Repr

/-- What the tagger reads and writes of a track. `n0` is the first and `n1` the last of its nodes
(PMAlgTracking.cxx:997 keeps only tracks with two or more). `dedx` lists the values of line 247 view by
view, in the order of the hits. -/
structure Trk where
  n0 : Node
  mid : List Node
  n1 : Node
  hasT0 : Bool
  t0 : ℚ
  dedx : List (List ℚ)
  tag : Nat
deriving DecidableEq, Repr

/-- `Nodes()` -/
def Trk.nodes (t : Trk) : List Node := t.n0 :: (t.mid ++ [t.n1])

/-! ### The tag word, PmaTrack3D.h:44-68 -/

/-- PmaTrack3D.h:49 -/
def kCosmic : Nat := 4
/-- PmaTrack3D.h:51 -/
def kYY : Nat := 0x100
/-- PmaTrack3D.h:52 -/
def kYZ : Nat := 0x200
/-- PmaTrack3D.h:53 -/
def kZZ : Nat := 0x300
/-- PmaTrack3D.h:54 -/
def kXX : Nat := 0x400
/-- PmaTrack3D.h:58 -/
def kY : Nat := 0x1000
/-- PmaTrack3D.h:62 -/
def kPartial : Nat := 0x10000
/-- PmaTrack3D.h:63 -/
def kComplete : Nat := 0x20000
/-- PmaTrack3D.h:64 -/
def kBeam : Nat := 0x30000

/-- `HasTagFlag`, PmaTrack3D.h:67. -/
def has (tag v : Nat) : Bool := decide (tag &&& v ≠ 0)

/-- `SetTagFlag` of kCosmic and of a second flag (every use in the tagger). -/
def Trk.mark (t : Trk) (f : Nat) : Trk := { t with tag := t.tag ||| kCosmic ||| f }

/-- `anab::CosmicTagID_t` as far as used. -/
inductive Id where
  | unknown | outPartial | outComplete | beam | XX | YY | ZZ | YZ | Y
deriving DecidableEq, Repr

/-- `getCosmicTag`, PMAlgTrackMaker_module.cc:293-326. -/
def decode (tag : Nat) : List Id :=
  let l := (if has tag kPartial then [Id.outPartial] else []) ++ (if has tag kComplete then [Id.outComplete] else []) ++
    (if has tag kBeam then [Id.beam] else []) ++ (if has tag kXX then [Id.XX] else []) ++
    (if has tag kYY then [Id.YY] else []) ++ (if has tag kZZ then [Id.ZZ] else []) ++
    (if has tag kYZ then [Id.YZ] else []) ++ (if has tag kY then [Id.Y] else [])
  if l = [] then [Id.unknown] else l

/-! ### The detector -/

/-- A `TPCGeo`. -/
structure Tpc where
  drift : ℚ
  center : V
  half : V
deriving DecidableEq, Repr

/-- One minimum of `GetDimensions`, PMAlgCosmicTagger.cxx:405-429. -/
def dimMin (tpcs : List Tpc) (i : Nat) : ℚ :=
  tpcs.foldl (fun m t => if t.drift < 25 then m
    else if t.center.get i - t.half.get i < m then t.center.get i - t.half.get i else m) 1000000

/-- One maximum of `GetDimensions`, PMAlgCosmicTagger.cxx:405-429. -/
def dimMax (tpcs : List Tpc) (i : Nat) : ℚ :=
  tpcs.foldl (fun m t => if t.drift < 25 then m
    else if t.center.get i + t.half.get i > m then t.center.get i + t.half.get i else m) (-1000000)

/-- `ConvertDirToInt`, PMAlgCosmicTagger.cxx:442-453. -/
def dirIdx (d : V) : Option Nat :=
  if d.1 > 99 / 100 then some 0
  else if d.2.1 > 99 / 100 then some 1
  else if d.2.2 > 99 / 100 then some 2
  else none

/-- Configuration, PMAlgCosmicTagger.h:82-100, and geometry. -/
structure Cfg where
  outOfDrift : Bool
  outMargin : ℚ
  fullHeight : Bool
  fullWidth : Bool
  fullLength : Bool
  fullMargin : ℚ
  nonBeam : Bool
  beamMargin : ℚ
  topFrontBack : Bool
  tfbMargin : ℚ
  stopper : Bool
  stopMargin : ℚ
  veto : Bool
  buffer : ℚ
  /-- all TPCs -/
  tpcs : List Tpc
  /-- `HeightDir`, `WidthDir`, `LengthDir` of the first TPC -/
  hDir : V
  wDir : V
  lDir : V
  /-- drift axis and limits of a TPC -/
  axis : Nat → Nat
  lo : Nat → ℚ
  hi : Nat → ℚ
  /-- `trigger_offset(clockData)` -/
  trigger : ℚ

/-- lower limit of the detector -/
def Cfg.dmin (c : Cfg) (i : Nat) : ℚ := dimMin c.tpcs i
/-- upper limit of the detector -/
def Cfg.dmax (c : Cfg) (i : Nat) : ℚ := dimMax c.tpcs i

/-! ### The criteria: the flag to set, or nothing -/

/-- `outOfDriftWindow`, PMAlgCosmicTagger.cxx:48-100. -/
def outOfDrift (c : Cfg) (t : Trk) : Option Nat :=
  let below := t.nodes.any fun n => decide (n.pos.get (c.axis n.tpc) < c.lo n.tpc - c.outMargin)
  let above := t.nodes.any fun n => decide (n.pos.get (c.axis n.tpc) > c.hi n.tpc + c.outMargin)
  if below && above then some kComplete else if below || above then some kPartial else none

/-- `nonBeamT0Tag`, PMAlgCosmicTagger.cxx:104-125: the test is `GetT0() != 0`, not `HasT0()`. -/
def nonBeam (c : Cfg) (t : Trk) : Option Nat :=
  if t.t0 ≠ 0 then if |t.t0 - c.trigger| > c.beamMargin then some kBeam else none else none

/-- `vtx`, PMAlgCosmicTagger.cxx:145-146 and 198-199. -/
def upper (h : Nat) (t : Trk) : V := if t.n0.pos.get h > t.n1.pos.get h then t.n0.pos else t.n1.pos
/-- `end`, PMAlgCosmicTagger.cxx:147-148 and 200-201. -/
def lower (h : Nat) (t : Trk) : V := if t.n0.pos.get h ≤ t.n1.pos.get h then t.n0.pos else t.n1.pos

/-- `isTopVertex`, PMAlgCosmicTagger.cxx:383-389. -/
def isTop (c : Cfg) (v : V) (tol : ℚ) (h : Nat) : Bool := decide (|v.get h - c.dmax h| < tol)

/-- `isFrontBackVertex`, PMAlgCosmicTagger.cxx:391-400. -/
def isFrontBack (c : Cfg) (v : V) (tol : ℚ) (l : Nat) : Bool :=
  decide (|v.get l - c.dmin l| < tol) || decide (|v.get l - c.dmax l| < tol)

/-- `tagTopFrontBack`, PMAlgCosmicTagger.cxx:127-170. -/
def topFrontBack (c : Cfg) (t : Trk) : Option Nat :=
  match dirIdx c.hDir, dirIdx c.lDir with
  | some h, some l =>
    if isTop c (upper h t) c.tfbMargin h && isFrontBack c (lower h t) c.tfbMargin l then some kYZ else none
  | _, _ => none

/-- squared distance -/
def dist2 (a b : V) : ℚ :=
  (a.1 - b.1) * (a.1 - b.1) + (a.2.1 - b.2.1) * (a.2.1 - b.2.1) + (a.2.2 - b.2.2) * (a.2.2 - b.2.2)

/-- `(a - b).Mag() < r` -/
def near (a b : V) (r : ℚ) : Bool := decide (0 < r ∧ dist2 a b < r * r)

/-- The reasonable values, PMAlgCosmicTagger.cxx:246-247. -/
def reasonable (d : List ℚ) : List ℚ := d.filter fun x => !(decide (x ≤ 0) || decide (x > 1000000))

/-- `mean`, PMAlgCosmicTagger.cxx:256-257. -/
def mean (d : List ℚ) : ℚ := d.sum / (d.length : ℚ)

/-- The square of `stdev`, PMAlgCosmicTagger.cxx:258-262. -/
def var (d : List ℚ) : ℚ := (d.map fun x => (x - mean d) * (x - mean d)).sum / ((d.length : ℚ) - 1)

/-- `nSigma >= k` of the last value, PMAlgCosmicTagger.cxx:268 and 275-276. -/
def sigma (k : ℚ) (d : List ℚ) : Bool :=
  match d.getLast? with
  | none => false
  | some x => decide (2 ≤ d.length ∧ 0 < var d ∧ k * k * var d ≤ (x - mean d) * (x - mean d))

/-- `notStopper`, PMAlgCosmicTagger.cxx:229-281. -/
def notStopper (dedx : List (List ℚ)) : Bool :=
  let vs := (dedx.map reasonable).filter fun d => d ≠ []
  !(decide (0 < vs.countP (sigma 3)) || decide (vs.countP (sigma 2) = vs.length))

/-- `tagApparentStopper`, PMAlgCosmicTagger.cxx:172-296; `others` are the tracks at other positions of the
collection. -/
def stopper (c : Cfg) (others : List Trk) (t : Trk) : Option Nat :=
  match dirIdx c.hDir with
  | some h =>
    if |(upper h t).get h - c.dmax h| < c.stopMargin then
      if |(lower h t).get h - c.dmin h| > 5 * c.stopMargin then
        if others.any fun o => near (lower h t) o.n0.pos c.buffer || near (lower h t) o.n1.pos c.buffer then none
        else if !c.veto then some kY
        else if notStopper t.dedx then some kY else none
      else none
    else none
  | none => none

/-- `fullCrossingTagger`, PMAlgCosmicTagger.cxx:340-381. -/
def fullCrossing (c : Cfg) (dir : Option Nat) (t : Trk) : Option Nat :=
  match dir with
  | none => none
  | some i =>
    if (c.dmax i - c.dmin i) - |t.n0.pos.get i - t.n1.pos.get i| < c.fullMargin then
      some (match i with | 0 => kXX | 1 => kYY | 2 => kZZ | _ => 0)
    else none

/-! ### The passes -/

/-- One pass over the collection: the tracks with their new tags and the number tagged. -/
def pass (on : Bool) (crit : List Trk → Trk → Option Nat) (s : List Trk × Nat) : List Trk × Nat :=
  if on then
    let fl := s.1.mapIdx fun i t => crit (s.1.eraseIdx i) t
    (s.1.zipWith (fun t f => match f with | some f => t.mark f | none => t) fl, s.2 + fl.countP Option.isSome)
  else s

/-- `tag`, PMAlgCosmicTagger.cxx:24-44. -/
def tag (c : Cfg) (ts : List Trk) : List Trk × Nat :=
  pass c.stopper (fun o t => stopper c o t) <|
  pass c.topFrontBack (fun _ t => topFrontBack c t) <|
  pass c.nonBeam (fun _ t => nonBeam c t) <|
  pass c.fullLength (fun _ t => fullCrossing c (dirIdx c.lDir) t) <|
  pass c.fullWidth (fun _ t => fullCrossing c (dirIdx c.wDir) t) <|
  pass c.fullHeight (fun _ t => fullCrossing c (dirIdx c.hDir) t) <|
  pass c.outOfDrift (fun _ t => outOfDrift c t) (ts, 0)

/-- `tagAny`, PMAlgCosmicTagger.h:103-107. -/
def tagAny (c : Cfg) : Bool :=
  c.outOfDrift || c.fullHeight || c.fullWidth || c.fullLength || c.nonBeam || c.stopper || c.topFrontBack

end Verif.Tag

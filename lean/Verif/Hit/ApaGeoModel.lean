import Verif.Hit.DisambigModel

/-!
Model of `apa::APAGeometryAlg`, larreco/RecoAlg/APAGeometryAlg.cxx: the channel arithmetic of an
anode plane assembly (APA), and the crossings of its wrapped channels.

Simplifications: the channel map and the wire geometry are arbitrary functions; lengths are
rationals; the printouts are left out.
-/

namespace Verif.ApaGeo

open Verif.Disambig (View Wid)

/-! ### The constructor -/

/-- What the constructor reads of the channel map: the number of channels, the TPC of the first wire of
a channel (`ChannelToWire(c)[0].TPC`) and the view of a channel. -/
structure Map where
  nch : Nat
  tpc : Nat → Nat
  view : Nat → View

/-- The boundaries found by the scan, APAGeometryAlg.h:75-83 (`fFirstU` is always 0). -/
structure Bounds where
  lastU : Nat
  firstV : Nat
  lastV : Nat
  firstZ0 : Nat
  lastZ0 : Nat
  firstZ1 : Nat
deriving DecidableEq, Repr

/-- `fChannelsPerAPA`, APAGeometryAlg.cxx:36-43. -/
def perAPA (m : Map) : Nat := ((List.range m.nch).find? fun c => decide (1 < m.tpc c)).getD m.nch

/-- The body of the scan, APAGeometryAlg.cxx:53-66.  `last` is `lastwid.TPC`; at first it is the
invalid number, whose successor is 0. -/
def scanStep (m : Map) (b : Bounds) (last : Option Nat) (c : Nat) : Bounds :=
  let b := if m.view c = .V ∧ m.view (c - 1) = .U then { b with lastU := c - 1, firstV := c } else b
  let b := if m.view c = .Z ∧ m.view (c - 1) = .V then { b with lastV := c - 1, firstZ0 := c } else b
  if m.tpc c = (match last with | none => 0 | some t => t + 1) then
    { b with lastZ0 := c - 1, firstZ1 := c }
  else b

/-- The scan, APAGeometryAlg.cxx:52-72, with a bound on the number of steps; the second component is
`c` after the loop.  `b` holds the (uninitialised) members. -/
def scan (m : Map) : Nat → Bounds → Option Nat → Nat → Bounds × Nat
  | 0, b, _, c => (b, c)
  | fuel + 1, b, last, c =>
    if m.tpc c < 2 then
      let b := scanStep m b last c
      if m.nch ≤ c + 1 then (b, c + 1) else scan m fuel b (some (m.tpc c)) (c + 1)
    else (b, c)

/-- What the constructor leaves behind: the boundaries, `fLastZ1`, `fChannelsPerAPA`; `none` is the
exception of line 77.  APAGeometryAlg.cxx:31-87. -/
def construct (m : Map) (junk : Bounds) : Option (Bounds × Nat × Nat) :=
  let r := scan m m.nch junk none 1
  let lastZ1 := r.2 - 1
  if lastZ1 + 1 ≠ perAPA m then none else some (r.1, lastZ1, perAPA m)

/-! ### Channel arithmetic -/

/-- The members used by the channel arithmetic: the boundaries within an APA, `fChannelsPerAPA`,
`fAPAsPerCryo`. -/
structure Apa where
  firstV : Nat
  firstZ0 : Nat
  firstZ1 : Nat
  lastZ1 : Nat
  perAPA : Nat
  apasPerCryo : Nat

/-- `ChannelToAPA(chan, apa, cryo)`, APAGeometryAlg.cxx:90-99: the pair (apa, cryo). -/
def chanToAPA (A : Apa) (c : Nat) : Nat × Nat := (c / A.perAPA, c / (A.apasPerCryo * A.perAPA))

/-- `ChannelsInView`, APAGeometryAlg.cxx:108-136; `none` is the exception for unequal collection
sides. -/
def inView (A : Apa) : View → Option Nat
  | .U => some (A.firstV - 0)
  | .V => some (A.firstZ0 - A.firstV)
  | .Z => if A.firstZ1 - A.firstZ0 = A.lastZ1 - A.firstZ1 + 1 then some (A.firstZ1 - A.firstZ0) else none

/-- The first channel of a view within an APA (`fFirstU`, `fFirstV`, `fFirstZ0`). -/
def base (A : Apa) : View → Nat
  | .U => 0
  | .V => A.firstV
  | .Z => A.firstZ0

/-- `FirstChannelInView(view, apa, cryo)`, APAGeometryAlg.cxx:139-151. -/
def firstInView (A : Apa) (v : View) (apa cryo : Nat) : Nat :=
  base A v + (apa + cryo * A.apasPerCryo) * A.perAPA

/-- `FirstChannelInView(view, chan)`, APAGeometryAlg.cxx:163-168. -/
def firstOfChan (A : Apa) (v : View) (c : Nat) : Nat :=
  firstInView A v (chanToAPA A c).1 (chanToAPA A c).2

/-- `APAView_t` -/
inductive ApaView
  | U | V | Z0 | Z1 | unknown
deriving DecidableEq, Repr

/-- `APAView`, APAGeometryAlg.cxx:171-190. -/
def apaView (A : Apa) (v : View) (c : Nat) : ApaView :=
  match v with
  | .U => .U
  | .V => .V
  | .Z =>
    if A.firstZ0 - 1 < c % A.perAPA ∧ c % A.perAPA < A.firstZ1 then .Z0
    else if A.firstZ1 - 1 < c % A.perAPA then .Z1
    else .unknown

/-- `ChanSegsPerSide`, APAGeometryAlg.cxx:193-213. -/
def segsPerSide (ws : List Wid) (side : Nat) : List Wid := ws.filter fun w => w.tpc % 2 = side

/-! ### Wires near a point -/

/-- `NearestWireIDOnChan` for an induction channel, APAGeometryAlg.cxx:235-246: `near` is the nearest
wire of the plane, `range` is `fChannelRange[plane]`; `none` is the default (invalid) wire. -/
def nearestOn (ws : List Wid) (tpc near : Nat) (range : ℚ) : Option Wid :=
  ws.foldl (fun r w =>
    if w.tpc ≠ tpc then r
    else if ((|(w.wire : ℤ) - near| : ℤ) : ℚ) < range / 2 then some w else r) none

/-- `lar::util::ValueInRange` of larcorealg (not in this repository): the limits are exchanged if they
are in the wrong order (`swap`), or not. -/
def valueInRange (swap : Bool) (v lo hi : Nat) : Bool :=
  if hi < lo ∧ swap then decide (hi ≤ v ∧ v ≤ lo) else decide (lo ≤ v ∧ v ≤ hi)

/-- 2^32: the wire numbers of lines 263-264 are unsigned. -/
def word : Nat := 4294967296

/-- `LineSegChanIntersect`, APAGeometryAlg.cxx:263-292: the wires of the channel in the TPC of the line
between the wires nearest to its ends, with an extension of 10 wires if asked.  The difference of line
288 is unsigned. -/
def lineCrossed (swap : Bool) (ws : List Wid) (tpc startW endW : Nat) (extend : Bool) : List Wid :=
  let lo := min startW endW
  let hi := max startW endW
  let ext := if extend then 10 else 0
  ws.filter fun w => decide (w.tpc = tpc) &&
    valueInRange swap w.wire ((lo + word - ext) % word) ((hi + ext) % word)

/-! ### Crossings -/

/-- A crossing of two wires, `geo::WireIDIntersection`. -/
structure Cross where
  y : ℚ
  z : ℚ
  tpc : Nat
deriving DecidableEq, Repr

/-- `APAChannelsIntersect`, APAGeometryAlg.cxx:436-450: the crossings found, before the sort; `cross`
is `WireIDsIntersect`. -/
def crossings (cross : Wid → Wid → Option Cross) (ws1 ws2 : List Wid) : List Cross :=
  ws1.flatMap fun a => ws2.filterMap fun b =>
    if a.plane = b.plane ∨ a.tpc ≠ b.tpc then none else cross a b

/-- `ThreeChanPos`, APAGeometryAlg.cxx:366-374: the index of the U-V crossing in the TPC of the
collection wire nearest to it along z; `len` is the length of the TPC. -/
def bestCross (zc : ℚ) (tpc : Nat) (len : ℚ) (xs : List Cross) : Nat :=
  (xs.zipIdx.foldl (fun (p : ℚ × Nat) x =>
    if x.1.tpc = tpc ∧ |x.1.z - zc| < p.1 then (|x.1.z - zc|, x.2) else p) (len, 0)).2

end Verif.ApaGeo

import Mathlib.Algebra.Order.Field.Rat
import Mathlib.Data.Rat.Floor
import Mathlib.Data.List.Basic
import Mathlib.Algebra.BigOperators.Group.List.Basic

/-!
Model of `trkf::TrackTrajectoryAlg` (larreco/RecoAlg/TrackTrajectoryAlg.cxx) and of
`trkf::TrackLineFitAlg::TrkLineFit` (larreco/RecoAlg/TrackLineFitAlg.cxx): a 3D trajectory through the
hits of three wire planes.

Simplifications: coordinates are rationals; the three parallel arrays (wire, X, error) of a plane are one
list of hits; the cryostat and TPC are fixed; the counters are unbounded naturals (`unsigned short` in
the code); the square roots are the fields `unit` and `inv` of the environment.
-/

namespace Verif.Tta

/-- `TVector3` -/
abbrev V := ℚ × ℚ × ℚ

/-- One entry of `trkWID`, `trkX`, `trkXErr`. -/
structure H where
  plane : Nat
  wire : Nat
  x : ℚ
  err : ℚ
deriving DecidableEq, Repr

/-- Geometry and numerics used by the two classes. -/
structure Env where
  /-- `WireIDsIntersect` of two (plane, wire) pairs: (y, z) or nothing -/
  cross : Nat × Nat → Nat × Nat → Option (ℚ × ℚ)
  /-- the coordinates of `WireIDIntersection::invalid()` -/
  bad : ℚ
  /-- `TVector3::Unit` -/
  unit : V → V
  /-- `1 / sqrt(1 + a^2 + b^2)` -/
  inv : ℚ → ℚ → ℚ
  /-- `cw`, `sw`, `off` of a plane, TrackLineFitAlg.cxx:63-68 -/
  cw : Nat → ℚ
  sw : Nat → ℚ
  off : Nat → ℚ
  /-- `svd.Solve(w)` for the matrix of the hits about an X origin -/
  solve : List H → ℚ → ℚ × ℚ × ℚ × ℚ
  /-- `WirePitch()` -/
  pitch : ℚ

/-! ### The line fit -/

/-- The variables a fit writes: `Pos`, `Dir`, `ChiDOF`. -/
structure Reg where
  pos : V
  dir : V
  chi : ℚ
deriving DecidableEq

/-- `wght`, TrackLineFitAlg.cxx:70-71. -/
def wght (h : H) : ℚ := if 0 < h.err then 1 / h.err else 1

/-- The row of `A`, TrackLineFitAlg.cxx:72-75. -/
def row (E : Env) (x0 : ℚ) (h : H) : ℚ × ℚ × ℚ × ℚ :=
  (wght h * E.cw h.plane, wght h * E.sw h.plane, wght h * E.cw h.plane * (h.x - x0),
    wght h * E.sw h.plane * (h.x - x0))

/-- The entry of `w`, TrackLineFitAlg.cxx:76. -/
def rhs (E : Env) (h : H) : ℚ := wght h * (h.wire - E.off h.plane)

/-- `nok`, TrackLineFitAlg.cxx:77-80: the number of planes that reach two points. -/
def nok (hs : List H) : Nat :=
  ([0, 1, 2].filter fun p => decide (2 ≤ hs.countP fun h => h.plane = p)).length

/-- `diff * diff`, TrackLineFitAlg.cxx:105-111: the residual is divided by the weight. -/
def chiTerm (E : Env) (t : ℚ × ℚ × ℚ × ℚ) (x0 : ℚ) (h : H) : ℚ :=
  let ypr := t.1 + t.2.2.1 * (h.x - x0)
  let zpr := t.2.1 + t.2.2.2 * (h.x - x0)
  let diff := (ypr * E.cw h.plane + zpr * E.sw h.plane - (h.wire - E.off h.plane)) / wght h
  diff * diff

/-- `TrkLineFit`, TrackLineFitAlg.cxx:30-134.  With exactly four hits the function returns at line 94,
before the position and the direction are written. -/
def lineFit (E : Env) (hs : List H) (x0 : ℚ) (r : Reg) : Reg :=
  if hs.length < 4 then { r with chi := -1 }
  else if nok hs < 2 then { r with chi := -1 }
  else if hs.length = 4 then { r with chi := 0 }
  else
    let t := E.solve hs x0
    let chi := (hs.map (chiTerm E t x0)).sum / (E.pitch * E.pitch) / ((hs.length : ℚ) - 4)
    let n := E.inv t.2.2.1 t.2.2.2
    { pos := (x0, t.1, t.2.1), dir := (n, t.2.2.1 * n, t.2.2.2 * n), chi := chi }

/-! ### The trajectory -/

/-- The hits of the three planes. -/
abbrev Trk := Nat → List H

/-- Planes with hits in order, TrackTrajectoryAlg.cxx:61-69. -/
def planes (t : Trk) : List Nat := [0, 1, 2].filter fun p => t p ≠ []

/-- `maxLen` and `aPlane` (3: none), TrackTrajectoryAlg.cxx:58-69: the first of the longest planes. -/
def longest (t : Trk) : Nat × Nat :=
  [0, 1, 2].foldl (fun (s : Nat × Nat) p => if s.1 < (t p).length then ((t p).length, p) else s) (0, 3)

/-- First and last X of a plane (0 if it is empty; the code does not read it then). -/
def firstX (l : List H) : ℚ := (l.head?.map H.x).getD 0
/-- see `firstX` -/
def lastX (l : List H) : ℚ := (l.getLast?.map H.x).getD 0
/-- `trkXErr[p][0]`, TrackTrajectoryAlg.cxx:314, 365; the read is out of range if the plane is empty. -/
def firstErr (l : List H) : ℚ := (l.head?.map H.err).getD 0

/-- `posX`, TrackTrajectoryAlg.cxx:84-86. -/
def posX (t : Trk) : Bool := decide (¬ firstX (t (longest t).2) > lastX (t (longest t).2))

/-- The arrays in the order of increasing X, TrackTrajectoryAlg.cxx:86-95. -/
def oriented (t : Trk) : Trk := if posX t then t else fun p => (t p).reverse

/-- `minX`, `minXPln`, TrackTrajectoryAlg.cxx:116-126. -/
def minX (t : Trk) : ℚ × Nat :=
  (planes t).foldl (fun (s : ℚ × Nat) p => if firstX (t p) < s.1 then (firstX (t p), p) else s) (1000000, 0)

/-- `maxX`, `maxXPln`, TrackTrajectoryAlg.cxx:118-131. -/
def maxX (t : Trk) : ℚ × Nat :=
  (planes t).foldl (fun (s : ℚ × Nat) p => if s.1 < lastX (t p) then (lastX (t p), p) else s) (-1000000, 0)

/-- `aveHitXErr`, TrackTrajectoryAlg.cxx:139-147. -/
def aveErr (t : Trk) : ℚ :=
  (((t 0 ++ t 1 ++ t 2).map H.err).sum) / ((t 0 ++ t 1 ++ t 2).length : ℚ)

/-- `npt`, TrackTrajectoryAlg.cxx:149-152. -/
def npt (t : Trk) : Nat :=
  let n := ⌊((maxX t).1 - (minX t).1) / aveErr t⌋₊
  let n := if n < 2 then 2 else n
  let n := if (longest t).1 < n then (longest t).1 else n
  if 100 < n then 100 else n

/-- The loops over the width factor, TrackTrajectoryAlg.cxx:315-322 and 364-373: the planes selected
in each pass are appended until there are two entries, at most five passes; nothing is cleared between
the passes. -/
def gather (sel : Nat → List Nat) : Nat → Nat → List Nat → List Nat
  | 0, _, acc => acc
  | n + 1, i, acc =>
    let acc := acc ++ sel i
    if 2 ≤ acc.length then acc else gather sel n (i + 1) acc

/-- The planes of the minimum end, TrackTrajectoryAlg.cxx:314-322: the cut is computed once. -/
def useMin (t : Trk) : List Nat :=
  let cut := (minX t).1 + 5 * firstErr (t (minX t).2)
  gather (fun _ => (planes t).filter fun p => firstX (t p) < cut) 5 0 []

/-- The planes of the maximum end, TrackTrajectoryAlg.cxx:362-373: the cut is widened in each pass. -/
def useMax (t : Trk) : List Nat :=
  gather (fun i => (planes t).filter fun p =>
    lastX (t p) > (maxX t).1 - (5 + 5 * (i : ℚ)) * firstErr (t (maxX t).2)) 5 0 []

/-- The position of an end, TrackTrajectoryAlg.cxx:328-358 and 383-408: the mean X of the planes used and
the mean crossing of the first of them with the others. -/
def endPos (E : Env) (h0 : H) (hs : List H) : V :=
  let c := hs.map fun h => (E.cross (h0.plane, h0.wire) (h.plane, h.wire)).getD (E.bad, E.bad)
  ((h0.x + (hs.map H.x).sum) / ((hs.length : ℚ) + 1), (c.map Prod.fst).sum / (hs.length : ℚ),
    (c.map Prod.snd).sum / (hs.length : ℚ))

/-- An end from the planes selected; nothing if there are fewer than two entries. -/
def endOf (E : Env) (pick : Nat → Option H) (use : List Nat) : Option V :=
  match use.filterMap pick with
  | h0 :: h1 :: hs => some (endPos E h0 (h1 :: hs))
  | _ => none

/-- Difference of two vectors. -/
def sub (a b : V) : V := (a.1 - b.1, a.2.1 - b.2.1, a.2.2 - b.2.2)

/-- `ShortTrackTrajectory`, TrackTrajectoryAlg.cxx:303-414: the two end points and the direction (stored
twice), or nothing. -/
def short (E : Env) (t : Trk) : Option (V × V × V) :=
  match endOf E (fun p => (t p).head?) (useMin t), endOf E (fun p => (t p).getLast?) (useMax t) with
  | some a, some b => some (a, b, E.unit (sub b a))
  | _, _ => none

/-- The loop over the hits of one plane, TrackTrajectoryAlg.cxx:223-230, from the hit number `i`; `cur`
is `hStart`. -/
def win (lo hi : ℚ) : Nat → Nat → List H → List H × Nat
  | _, cur, [] => ([], cur)
  | i, cur, h :: l =>
    if h.x < lo then win lo hi (i + 1) cur l
    else if hi < h.x then ([], cur)
    else ((h :: (win lo hi (i + 1) i l).1), (win lo hi (i + 1) i l).2)

/-- The hits of one bin, TrackTrajectoryAlg.cxx:219-231, and the new `hStart`. -/
def bin (t : Trk) (xo w : ℚ) (hs : Nat → Nat) : List H × (Nat → Nat) :=
  let r := fun p => win (xo - w) (xo + w) (hs p) (hs p) ((t p).drop (hs p))
  ((r 0).1 ++ (r 1).1 ++ (r 2).1, fun p => (r p).2)

/-- The fit of one bin, TrackTrajectoryAlg.cxx:235-246; `st` is the short trajectory. -/
def fitBin (E : Env) (st : V × V × V) (ipt : Nat) (hs : List H) (xo : ℚ) (r : Reg) : Reg :=
  if 3 < hs.length then lineFit E hs xo r
  else if ipt = 0 then { r with pos := st.1, dir := st.2.2 }
  else r

/-- The loop over the bins, TrackTrajectoryAlg.cxx:217-259: `n` passes are left; `mx` is the maximum X,
`w` the bin width. The result is the list of (position, direction) and `gotLastPoint`. -/
def loop (E : Env) (t : Trk) (st : V × V × V) (mx w : ℚ) (npt : Nat) :
    Nat → Nat → (Nat → Nat) → ℚ → Reg → List (V × V) → List (V × V) × Bool
  | 0, _, _, _, _, out => (out, false)
  | n + 1, ipt, hs, xo, r, out =>
    let b := bin t xo w hs
    let r := fitBin E st ipt b.1 xo r
    if mx ≤ xo then (out, false)
    else
      let xo' := if mx - xo < w then mx else xo + w
      if r.chi < 0 ∨ 100 < r.chi then loop E t st mx w npt n (ipt + 1) b.2 xo' r out
      else if ipt = npt then ((loop E t st mx w npt n (ipt + 1) b.2 xo' r (out ++ [(r.pos, r.dir)])).1, true)
      else loop E t st mx w npt n (ipt + 1) b.2 xo' r (out ++ [(r.pos, r.dir)])

/-- The points before the final reversal, TrackTrajectoryAlg.cxx:194-274.  `chi0` is the value of the
variable `ChiDOF`, which is not initialised (line 167). -/
def points (E : Env) (chi0 : ℚ) (t : Trk) (st : V × V × V) : List (V × V) :=
  let ends := [(st.1, st.2.2), (st.2.1, st.2.2)]
  if (longest t).1 < 4 ∨ npt t < 2 then ends
  else
    let w := ((maxX t).1 - (minX t).1) / ((npt t : ℚ) - 1)
    let r := loop E t st (maxX t).1 w (npt t) (npt t + 1) 0 (fun _ => 0) (minX t).1 ⟨0, 0, chi0⟩ []
    let out := if r.2 then r.1 else r.1 ++ [(st.2.1, st.2.2)]
    if out.length < 2 then ends else out

/-- `TrackTrajectory`, TrackTrajectoryAlg.cxx:23-300: the positions and directions. -/
def track (E : Env) (chi0 : ℚ) (t : Trk) : List (V × V) :=
  if (planes t).length < 2 then []
  else
    let u := oriented t
    match short E u with
    | none => []
    | some st => if posX t then points E chi0 u st else (points E chi0 u st).reverse

end Verif.Tta

import Mathlib.Algebra.Order.Field.Rat
import Mathlib.Data.List.Sort
import Mathlib.Algebra.Field.Basic

/-!
Model of `trkf::Geometric3DVertexFitter` (larreco/RecoAlg/Geometric3DVertexFitter.cxx) and of
`trkf::VertexWrapper` (larreco/RecoAlg/VertexWrapper.h): vertices from the start positions and directions
of tracks.

Simplifications: coordinates are rationals; a track is its address and what the fitter reads of it; the
propagation of a track state to a plane and the rotation of the vertex into the plane are the arbitrary
functions of `Env`; `std::sort` is an insertion sort (any sort gives the claims below).  Of the vertex
covariance only the two-dimensional block handed to the average is modelled.
-/

namespace Verif.VtxFit

/-- A point or a vector. -/
structure V3 where
  x : ℚ
  y : ℚ
  z : ℚ
deriving DecidableEq, Repr

/-- difference -/
def V3.sub (a b : V3) : V3 := ⟨a.x - b.x, a.y - b.y, a.z - b.z⟩
/-- `a + t b` -/
def V3.along (a : V3) (t : ℚ) (b : V3) : V3 := ⟨a.x + t * b.x, a.y + t * b.y, a.z + t * b.z⟩
/-- `Dot` -/
def V3.dot (a b : V3) : ℚ := a.x * b.x + a.y * b.y + a.z * b.z
/-- `Mag2` -/
def V3.mag2 (a : V3) : ℚ := a.dot a

/-! ### The points of closest approach -/

/-- `dist2`, Geometric3DVertexFitter.cxx:214-218 and 286-291. -/
def pca2 (s1 d1 s2 d2 : V3) : ℚ :=
  let dp := s1.sub s2
  (d1.dot d2 * dp.dot d1 - dp.dot d2) / (d1.dot d2 * d1.dot d2 - 1)

/-- `dist1`, Geometric3DVertexFitter.cxx:219 and 292. -/
def pca1 (s1 d1 s2 d2 : V3) : ℚ := d1.dot d2 * pca2 s1 d1 s2 d2 - (s1.sub s2).dot d1

/-- `dist` of `getParsCovsOnPlane`, Geometric3DVertexFitter.cxx:377: the foot of the vertex on the line of
the track.  The same number is `pDist`, lines 520-523. -/
def footDist (v s d : V3) : ℚ := d.dot (v.sub s)

/-! ### The weighted average -/

/-- `SMatrixSym22` -/
structure Sym2 where
  xx : ℚ
  xy : ℚ
  yy : ℚ
deriving DecidableEq, Repr

/-- sum -/
def Sym2.add (a b : Sym2) : Sym2 := ⟨a.xx + b.xx, a.xy + b.xy, a.yy + b.yy⟩
/-- `Det2` -/
def Sym2.det (a : Sym2) : ℚ := a.xx * a.yy - a.xy * a.xy
/-- `Invert`: fails if the determinant is 0 -/
def Sym2.inv (a : Sym2) : Option Sym2 :=
  if a.det = 0 then none else some ⟨a.yy / a.det, -a.xy / a.det, a.xx / a.det⟩
/-- `Similarity(v, A)`: `v^T A v` -/
def Sym2.quad (a : Sym2) (v : ℚ × ℚ) : ℚ :=
  v.1 * (a.xx * v.1 + a.xy * v.2) + v.2 * (a.xy * v.1 + a.yy * v.2)

/-- `weightedAverageState`, Geometric3DVertexFitter.cxx:132-193: the local position, its covariance and the
chi-square.  `bogus` is `util::kBogusD`; if the matrix cannot be inverted the state is the origin of the
plane with zero covariance. -/
def average (bogus : ℚ) (p1 p2 : ℚ × ℚ) (c1 c2 : Sym2) : (ℚ × ℚ) × Sym2 × ℚ :=
  match (c2.add c1).inv with
  | none => ((0, 0), ⟨0, 0, 0⟩, bogus)
  | some s =>
    let d : ℚ × ℚ := (p2.1 - p1.1, p2.2 - p1.2)
    -- k = cov1 * covsum
    let k11 := c1.xx * s.xx + c1.xy * s.xy
    let k12 := c1.xx * s.xy + c1.xy * s.yy
    let k21 := c1.xy * s.xx + c1.yy * s.xy
    let k22 := c1.xy * s.xy + c1.yy * s.yy
    let p : ℚ × ℚ := (p1.1 + (k11 * d.1 + k12 * d.2), p1.2 + (k21 * d.1 + k22 * d.2))
    let c : Sym2 := ⟨c1.xx - (k11 * c1.xx + k12 * c1.xy), c1.xy - (k11 * c1.xy + k12 * c1.yy),
      c1.yy - (k21 * c1.xy + k22 * c1.yy)⟩
    (p, c, s.quad d)

/-- The test for a failed average, Geometric3DVertexFitter.cxx:347 and 432. -/
def failed (bogus chi2 : ℚ) : Bool := decide (chi2 ≤ bogus - 1)

/-- `chi2(pcp)`, Geometric3DVertexFitter.cxx:449-459. -/
def chi2Of (p1 p2 : ℚ × ℚ) (c1 c2 : Sym2) : ℚ :=
  match (c2.add c1).inv with
  | none => -1
  | some s => s.quad (p2.1 - p1.1, p2.2 - p1.2)

/-- The square of `ip(pcp)`, Geometric3DVertexFitter.cxx:468-473. -/
def ip2 (p1 p2 : ℚ × ℚ) : ℚ := (p2.1 - p1.1) * (p2.1 - p1.1) + (p2.2 - p1.2) * (p2.2 - p1.2)

/-- The square of `ipErr(pcp)`, Geometric3DVertexFitter.cxx:482-489: the variance of the sum along the
(normalised) difference. -/
def ipErr2 (p1 p2 : ℚ × ℚ) (c1 c2 : Sym2) : ℚ :=
  (c2.add c1).quad (p2.1 - p1.1, p2.2 - p1.2) / ip2 p1 p2

/-! ### The order of the tracks -/

/-- What the fitter reads of a track; `id` is its address. -/
structure Trk where
  id : Nat
  start : V3
  dir : V3
  npts : Nat
deriving DecidableEq, Repr

/-- The squared distance of the starts, Geometric3DVertexFitter.cxx:62-63. -/
def dist (a b : Trk) : ℚ := (a.start.sub b.start).mag2

/-- The search of the closest pair, Geometric3DVertexFitter.cxx:56-76; `big` is `FLT_MAX`.  The state is
(mind, tk0, tk1). -/
def closest (big : ℚ) (ts : List Trk) : ℚ × Nat × Nat :=
  (List.range (ts.length - 1)).foldl (fun s i =>
    ((List.range ts.length).filter (fun j => decide (i < j))).foldl (fun (s : ℚ × Nat × Nat) j =>
      match ts[i]?, ts[j]? with
      | some a, some b => if dist a b < s.1 then (dist a b, i, j) else s
      | _, _ => s) s) (big, ts.length, ts.length)

/-- `std::swap(tracks[i], tracks[j])`; out of range indices are undefined in the code and change nothing
here. -/
def swap (ts : List Trk) (i j : Nat) : List Trk :=
  match ts[i]?, ts[j]? with
  | some a, some b => (ts.set i b).set j a
  | _, _ => ts

/-- The closest pair to the front, Geometric3DVertexFitter.cxx:77-86. -/
def promote (ts : List Trk) (tk0 tk1 : Nat) : List Trk :=
  if 1 < tk0 ∨ 1 < tk1 then
    let ts := if 1 < tk0 ∧ 1 < tk1 then swap (swap ts 0 tk0) 1 tk1 else ts
    let ts := if tk0 = 0 then swap ts 1 tk1 else ts
    let ts := if tk0 = 1 then swap ts 0 tk1 else ts
    let ts := if tk1 = 0 then swap ts 1 tk0 else ts
    if tk1 = 1 then swap ts 0 tk0 else ts
  else ts

/-- The order in which `fitTracks` uses the tracks, Geometric3DVertexFitter.cxx:48-86. -/
def order (big : ℚ) (ts : List Trk) : List Trk :=
  let ts := ts.insertionSort fun a b => b.npts ≤ a.npts
  promote ts (closest big ts).2.1 (closest big ts).2.2

/-- The order of `fitTracksWithVtx`, Geometric3DVertexFitter.cxx:119-120. -/
def orderVtx (p : V3) (ts : List Trk) : List Trk :=
  ts.insertionSort fun a b => (a.start.sub p).mag2 ≤ (b.start.sub p).mag2

/-! ### The fit -/

/-- `VertexWrapper` (VertexWrapper.h:34-78) with the parts of `recob::Vertex` used here. -/
structure Vtx where
  valid : Bool
  pos : V3
  cov : Sym2
  chi2 : ℚ
  ndof : ℤ
  tracks : List Trk
deriving DecidableEq, Repr

/-- The functions of the propagator and of the planes. -/
structure Env where
  big : ℚ
  bogus : ℚ
  sipCut : ℚ
  /-- the default-constructed vertex (VertexWrapper.h:37) without tracks: its chi-square and degrees -/
  chi0 : ℚ
  ndof0 : ℤ
  /-- the two tracks propagated to the plane of closest approach: the local positions and covariances, or
  nothing if a propagation fails (lines 294-330) -/
  two : Trk → Trk → Option ((ℚ × ℚ) × (ℚ × ℚ) × Sym2 × Sym2)
  /-- the position of the local point in that plane -/
  twoPos : Trk → Trk → ℚ × ℚ → V3
  /-- `getParsCovsOnPlane` (lines 367-417) -/
  onPlane : Vtx → Trk → (ℚ × ℚ) × (ℚ × ℚ) × Sym2 × Sym2
  /-- the position of a local point in the plane of the track -/
  planePos : Vtx → Trk → ℚ × ℚ → V3
  /-- `sip(vtx, track)` (lines 500-518) -/
  sip : Vtx → Trk → ℚ

/-- `VertexWrapper()` -/
def Env.none (E : Env) : Vtx := ⟨false, ⟨0, 0, 0⟩, ⟨0, 0, 0⟩, E.chi0, E.ndof0, []⟩

/-- `fitTwoTracks`, Geometric3DVertexFitter.cxx:265-364. -/
def fitTwo (E : Env) (a b : Trk) : Vtx :=
  let alone : Vtx := ⟨true, a.start, ⟨0, 0, 0⟩, E.chi0 + 0, E.ndof0 + 0, [a]⟩
  match E.two a b with
  | .none => alone
  | some q =>
    let r := average E.bogus q.1 q.2.1 q.2.2.1 q.2.2.2
    if failed E.bogus r.2.2 then alone
    else ⟨true, E.twoPos a b r.1, r.2.1, r.2.2, 1, [a, b]⟩

/-- `addTrackToVertex`, Geometric3DVertexFitter.cxx:419-447. -/
def addTrack (E : Env) (v : Vtx) (t : Trk) : Vtx :=
  let q := E.onPlane v t
  let r := average E.bogus q.1 q.2.1 q.2.2.1 q.2.2.2
  if failed E.bogus r.2.2 then v
  else ⟨true, E.planePos v t r.1, r.2.1, v.chi2 + r.2.2, v.ndof + 2, v.tracks ++ [t]⟩

/-- The loop over the other tracks, Geometric3DVertexFitter.cxx:93-98 and 126-131. -/
def addOthers (E : Env) (v : Vtx) (ts : List Trk) : Vtx :=
  ts.foldl (fun v t => if E.sip v t > E.sipCut then v else addTrack E v t) v

/-- The common part of `fitTracks` and `fitTracksWithVtx` once the tracks are in order,
Geometric3DVertexFitter.cxx:88-100 and 122-133. -/
def fitOrdered (E : Env) : List Trk → Vtx
  | a :: b :: ts =>
    let v := fitTwo E a b
    if v.valid = false ∨ v.tracks.length < 2 then v else addOthers E v ts
  | _ => E.none

/-- `fitTracks`, Geometric3DVertexFitter.cxx:41-100. -/
def fitTracks (E : Env) (ts : List Trk) : Vtx :=
  if ts.length < 2 then E.none else fitOrdered E (order E.big ts)

/-- `fitTracksWithVtx`, Geometric3DVertexFitter.cxx:112-133. -/
def fitTracksWithVtx (E : Env) (p : V3) (ts : List Trk) : Vtx :=
  if ts.length < 2 then E.none else fitOrdered E (orderVtx p ts)

/-! ### Quality of a track -/

/-- `findTrack`, VertexWrapper.h:61-67: by address; the number of tracks if it is not there. -/
def findTrack (v : Vtx) (t : Trk) : Nat := v.tracks.findIdx fun u => u.id = t.id

/-- `unbiasedVertex`, Geometric3DVertexFitter.cxx:525-536. -/
def unbiased (E : Env) (v : Vtx) (t : Trk) : Vtx :=
  let k := findTrack v t
  if k = v.tracks.length then v else fitTracks E (v.tracks.eraseIdx k)

/-- `recob::VertexAssnMeta`: the vertex the numbers were computed with (or none: all bogus) and the status
flag. -/
structure Meta where
  ref : Option Vtx
  included : Bool

/-- `computeMeta`, Geometric3DVertexFitter.cxx:620-658: what the numbers of each track refer to; `alone` is
`closestPointAlongTrack` (lines 195-263). -/
def computeMeta (E : Env) (alone : Trk → Trk → Vtx) (v : Vtx) (ts : List Trk) : List Meta :=
  ts.map fun t =>
    let k := findTrack v t
    let u := unbiased E v t
    let ref :=
      if u.valid then some u
      else if v.tracks.length = 2 ∧ k ≠ v.tracks.length then
        ((v.tracks.eraseIdx k).head?).map fun o => alone o t
      else Option.none
    ⟨ref, decide (k ≠ v.tracks.length)⟩

end Verif.VtxFit

import Mathlib.Data.Rat.Defs
import Mathlib.Algebra.Order.Ring.Rat

/-! # Vertices from pairs of tracks that come close (larreco/VertexFinder/PrimaryVertexFinder_module.cc)

Model of the loops of `produce` and of the helper functions.  Simplified: numbers are rationals, so a pair of parallel tracks (division by zero) has no closest points, where the code gets infinities or
not-a-number and the test of the distance fails; lengths are compared by their squares; the tracks are given already in the order in which the module sorts them (longest first); the first space points
(used for messages only), histograms and showers (never filled) are left out. -/

namespace Verif.PrimVtx

/-- A vector (`TVector3`). -/
structure V3 where
  x : ℚ
  y : ℚ
  z : ℚ
  deriving DecidableEq, Repr

/-- Scalar product, sum, difference and multiple of vectors, as used in larreco/VertexFinder/PrimaryVertexFinder_module.cc:457-493. -/
def dot (a b : V3) : ℚ := a.x * b.x + a.y * b.y + a.z * b.z
def add (a b : V3) : V3 := ⟨a.x + b.x, a.y + b.y, a.z + b.z⟩
def sub (a b : V3) : V3 := ⟨a.x - b.x, a.y - b.y, a.z - b.z⟩
def smul (k : ℚ) (a : V3) : V3 := ⟨k * a.x, k * a.y, k * a.z⟩

/-- A track: start and direction there, larreco/VertexFinder/PrimaryVertexFinder_module.cc:208-214. -/
structure Track where
  start : V3
  dir : V3
  deriving DecidableEq, Repr

def Track.none : Track := ⟨⟨0, 0, 0⟩, ⟨0, 0, 0⟩⟩

/-- `gammavalue`, larreco/VertexFinder/PrimaryVertexFinder_module.cc:452-463; nothing if the division is by zero. -/
def gammavalue (p1 p2 d1 d2 : V3) : Option ℚ :=
  if 1 - dot d1 d2 * dot d1 d2 = 0 then none
  else some ((dot p1 d2 - dot p2 d2 + dot d1 d2 * dot p2 d1 - dot d1 d2 * dot p1 d1) / (1 - dot d1 d2 * dot d1 d2))

/-- `alphavalue`, larreco/VertexFinder/PrimaryVertexFinder_module.cc:465-474. -/
def alphavalue (gamma : ℚ) (p1 p2 d1 d2 : V3) : ℚ := gamma * dot d1 d2 + dot p2 d1 - dot p1 d1

/-- `MinDist` (squared), larreco/VertexFinder/PrimaryVertexFinder_module.cc:476-486. -/
def minDist2 (alpha gamma : ℚ) (p1 p2 d1 d2 : V3) : ℚ :=
  let v := sub (add (sub p1 p2) (smul alpha d1)) (smul gamma d2)
  dot v v

/-- `PointOnExtendedTrack`, larreco/VertexFinder/PrimaryVertexFinder_module.cc:488-494. -/
def pointOn (t : ℚ) (p d : V3) : V3 := add p (smul t d)

/-- A length with this square is less than `w`. -/
def lessThan (sq w : ℚ) : Bool := decide (0 < w ∧ sq < w * w)

/-- The test of a pair and the points of closest approach, larreco/VertexFinder/PrimaryVertexFinder_module.cc:244-260. -/
def near (w : ℚ) (a b : Track) : Option (V3 × V3) :=
  match gammavalue a.start b.start a.dir b.dir with
  | none => none
  | some gamma =>
    let alpha := alphavalue gamma a.start b.start a.dir b.dir
    let md := minDist2 alpha gamma a.start b.start a.dir b.dir
    let t1 := pointOn alpha a.start a.dir
    let t2 := pointOn gamma b.start b.dir
    if lessThan md w && lessThan (dot (sub t1 a.start) (sub t1 a.start)) w then some (t1, t2) else none

/-- The numbers of tracks of the vertices and their points: two lists that are kept in step, larreco/VertexFinder/PrimaryVertexFinder_module.cc:236-237. -/
structure St where
  ids : List (List Nat)
  pts : List (List V3)
  deriving DecidableEq, Repr

/-- `IsInVertexCollection`, larreco/VertexFinder/PrimaryVertexFinder_module.cc:402-419. -/
def isIn (a : Nat) (ids : List (List Nat)) : Bool := ids.any fun v => v.contains a

/-- `IndexInVertexCollection`, larreco/VertexFinder/PrimaryVertexFinder_module.cc:422-436: the last vertex with one of the two tracks. -/
def indexIn (a b : Nat) (ids : List (List Nat)) : Option Nat :=
  (List.range ids.length).foldl (fun index i => if (ids.getD i []).contains a || (ids.getD i []).contains b then some i else index) none

/-- Adding a track with its point to a vertex unless it is there, larreco/VertexFinder/PrimaryVertexFinder_module.cc:277-284 (`IsInNewVertex`: 438-450). -/
def addTo (st : St) (index a : Nat) (p : V3) : St :=
  if (st.ids.getD index []).contains a then st
  else ⟨st.ids.modify index (· ++ [a]), st.pts.modify index (· ++ [p])⟩

/-- One pair, larreco/VertexFinder/PrimaryVertexFinder_module.cc:241-287. -/
def step (w : ℚ) (tr : List Track) (st : St) (p : Nat × Nat) : St :=
  match near w (tr.getD p.1 Track.none) (tr.getD p.2 Track.none) with
  | none => st
  | some (t1, t2) =>
    if isIn p.1 st.ids = false ∧ isIn p.2 st.ids = false then ⟨st.ids ++ [[p.1, p.2]], st.pts ++ [[t1, t2]]⟩
    else
      match indexIn p.1 p.2 st.ids with
      | none => st
      | some index => addTo (addTo st index p.1 t1) index p.2 t2

/-- The pairs in the order of the loops, larreco/VertexFinder/PrimaryVertexFinder_module.cc:239-240. -/
def pairs (n : Nat) : List (Nat × Nat) := (List.range n).flatMap fun i => (List.range' (i + 1) (n - (i + 1))).map fun j => (i, j)

/-- A track without vertex becomes a vertex of its own, larreco/VertexFinder/PrimaryVertexFinder_module.cc:290-302. -/
def single (tr : List Track) (st : St) (i : Nat) : St :=
  if isIn i st.ids then st else ⟨st.ids ++ [[i]], st.pts ++ [[(tr.getD i Track.none).start]]⟩

/-- All vertices, larreco/VertexFinder/PrimaryVertexFinder_module.cc:236-302. -/
def collect (w : ℚ) (tr : List Track) : St :=
  (List.range tr.length).foldl (single tr) ((pairs tr.length).foldl (step w tr) ⟨[], []⟩)

/-- A vertex made: position, number, and tracks. -/
structure Vtx where
  pos : V3
  id : Nat
  tracks : List Nat
  deriving DecidableEq, Repr

/-- The position, larreco/VertexFinder/PrimaryVertexFinder_module.cc:317-349. -/
def mean (l : List V3) : V3 :=
  let s := l.foldl (fun s p => (⟨s.x + p.x, s.y + p.y, s.z + p.z⟩ : V3)) ⟨0, 0, 0⟩
  ⟨s.x / l.length, s.y / l.length, s.z / l.length⟩

/-- The vertices and their tracks; `key` is the position of each sorted track in the data product, larreco/VertexFinder/PrimaryVertexFinder_module.cc:316-363. -/
def produce (w : ℚ) (tr : List Track) (key : Nat → Nat) : List Vtx :=
  let st := collect w tr
  (List.range st.ids.length).foldl (fun vcol i => vcol ++ [⟨mean (st.pts.getD i []), vcol.length, (st.ids.getD i []).map key⟩]) []

end Verif.PrimVtx

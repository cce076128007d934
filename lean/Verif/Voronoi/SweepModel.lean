import Verif.Voronoi.BeachModel

/-!
Model of the event loop of `VoronoiDiagram::buildVoronoiDiagram`,
`larreco/RecoAlg/Cluster3DAlgs/Voronoi/Voronoi.cxx`, with the doubly connected edge list of `DCEL.h`.

Everything that depends on coordinates is an oracle: the position of a new site relative to a breakpoint, whether two sites are the
same point, whether three arcs make a circle event, and which of the queued events comes next.  A theorem about every oracle holds for
every set of points and for every rounding of the floating point computations.  Identifiers stand for pointers (all containers are
`std::list`s that only grow during the loop), `none` for a null pointer, and a `none` result of a function for a null pointer
dereference.  The coordinates of faces and vertices are not modelled here, nor is the printing, except for the "Face mismatch" message,
which is counted.
-/
namespace Verif.Voronoi

/-- what the coordinates decide; events `0 .. n-1` are the sites, SweepEvent.h:29-58 -/
structure Oracle where
  n : Nat
  /-- `newSiteToLeft(event, left, right)`, EventUtilities.cxx -/
  toLeft : Nat → Nat → Nat → Bool
  /-- `getPoint() == getPoint()`, Voronoi.cxx:602, 642 -/
  same : Nat → Nat → Bool
  /-- `makeCircleEvent(arc1, arc2, arc3, beachLinePos)` returns a circle, Voronoi.cxx:673-712; first argument: the event being handled -/
  circle : Nat → Nat → Nat → Nat → Bool

/-- `HalfEdge`, DCEL.h -/
structure HEdge where
  target : Option Nat := none
  face : Option Nat := none
  twin : Option Nat := none
  next : Option Nat := none
  last : Option Nat := none

/-- the local state of `buildVoronoiDiagram`; the nodes of `fCircleNodeList` live in the same heap as those of the beach line -/
structure Sweep where
  beach : Beach
  queue : List Nat
  /-- `getBSTNode()` of a circle event -/
  node : Nat → Option Nat
  /-- number of events created so far -/
  nev : Nat
  /-- `fHalfEdgeList` -/
  he : Nat → HEdge
  nhe : Nat
  /-- `fFaceList`: the half edge and the site of a face -/
  faceHE : Nat → Option Nat
  faceEv : Nat → Nat
  nf : Nat
  /-- `fVertexList`: the half edge of a vertex -/
  vtx : Nat → Option Nat
  nv : Nat
  /-- number of "Face mismatch" messages -/
  mismatch : Nat

namespace Sweep

/-- a setter of a half edge -/
def modE (s : Sweep) (h : Nat) (f : HEdge → HEdge) : Sweep := { s with he := fun j => if j = h then f (s.he h) else s.he j }

/-- a setter of a node -/
def modN (s : Sweep) (i : Nat) (f : Node → Node) : Sweep := { s with beach := s.beach.mod i f }

/-- `face->setHalfEdge(h)` -/
def setFaceHE (s : Sweep) (f h : Nat) : Sweep := { s with faceHE := fun j => if j = f then some h else s.faceHE j }

/-- `fHalfEdgeList.push_back(HalfEdge())` twice, and the two made twins of each other, Voronoi.cxx:468-478, 540-546, 552-553 -/
def newEdges (s : Sweep) : Sweep :=
  { s with
    he := fun j => if j = s.nhe then { twin := some (s.nhe + 1) } else if j = s.nhe + 1 then { twin := some s.nhe } else s.he j
    nhe := s.nhe + 2 }

/-- a new circle event for the arc `mid`, Voronoi.cxx:610-624, 650-664 (and 701-703) -/
def attach (s : Sweep) (mid : Nat) : Sweep :=
  let c := s.beach.next
  let b := { s.beach with valid := fun e => if e = s.nev then true else s.beach.valid e }
  let b := b.push { event := s.nev }
  let b := match (b.heap mid).assoc with
    | some old => (b.mod old (fun n => { n with assoc := none })).invalidate (b.heap old).event
    | none => b
  let b := b.mod mid (fun n => { n with assoc := some c })
  let b := b.mod c (fun n => { n with assoc := some mid })
  { s with beach := b, queue := s.nev :: s.queue, node := fun e => if e = s.nev then some c else s.node e, nev := s.nev + 1 }

/-- `makeLeftCircleEvent`, Voronoi.cxx:591-631; `e` is the event being handled -/
def makeLeft (o : Oracle) (s : Sweep) (leaf e : Nat) : Option Sweep :=
  match (s.beach.heap leaf).pred with
  | none => some s
  | some p =>
    match (s.beach.heap p).pred with
    | none => some s
    | some mid =>
      match (s.beach.heap mid).pred with
      | none => some s
      | some q =>
        match (s.beach.heap q).pred with
        | none => none
        | some edge =>
          if o.same (s.beach.heap leaf).event (s.beach.heap edge).event = true then some s
          else if o.circle e (s.beach.heap edge).event (s.beach.heap mid).event (s.beach.heap leaf).event = true then some (s.attach mid)
          else some s

/-- `makeRightCircleEvent`, Voronoi.cxx:633-671 -/
def makeRight (o : Oracle) (s : Sweep) (leaf e : Nat) : Option Sweep :=
  match (s.beach.heap leaf).succ with
  | none => some s
  | some p =>
    match (s.beach.heap p).succ with
    | none => some s
    | some mid =>
      match (s.beach.heap mid).succ with
      | none => some s
      | some q =>
        match (s.beach.heap q).succ with
        | none => none
        | some edge =>
          if o.same (s.beach.heap leaf).event (s.beach.heap edge).event = true then some s
          else if o.circle e (s.beach.heap leaf).event (s.beach.heap mid).event (s.beach.heap edge).event = true then some (s.attach mid)
          else some s

/-- the new face of a site, Voronoi.cxx:455-460 -/
def newFace (s : Sweep) (leaf e : Nat) : Sweep :=
  { s with
    faceHE := fun j => if j = s.nf then none else s.faceHE j
    faceEv := fun j => if j = s.nf then e else s.faceEv j
    nf := s.nf + 1
    beach := s.beach.mod leaf (fun n => { n with face := some s.nf }) }

/-- the edge pair of a new site, Voronoi.cxx:468-494: `face` is the new face, `p`, `q` the breakpoints either side of the new leaf,
`lf` the face of the leaf to the left -/
def siteEdges (s : Sweep) (face p q lf : Nat) : Sweep :=
  let h := s.nhe
  let t := s.nhe + 1
  let s := s.newEdges
  let s := s.modN p (fun n => { n with half := some h })
  let s := s.modN q (fun n => { n with half := some t })
  let s := s.setFaceHE face t
  let s := s.modE t (fun e => { e with face := some face })
  let s := if s.faceHE lf = none then s.setFaceHE lf h else s
  s.modE h (fun e => { e with face := some lf })

/-- `handleSiteEvents`, Voronoi.cxx:445-501 -/
def handleSite (o : Oracle) (s : Sweep) (e : Nat) : Option Sweep :=
  match s.beach.insert (o.toLeft e) e with
  | none => none
  | some (leaf, b) =>
    let face := s.nf
    let s := ({ s with beach := b }).newFace leaf e
    match (s.beach.heap leaf).pred, (s.beach.heap leaf).succ with
    | none, none => some s
    | some p, some q =>
      match (s.beach.heap p).pred with
      | none => none
      | some left =>
        match (s.beach.heap left).face with
        | none => none
        | some lf =>
          match (s.siteEdges face p q lf).makeLeft o leaf e with
          | none => none
          | some s => s.makeRight o leaf e
    | _, _ => none

/-- the new vertex and the edge pair of a circle event, Voronoi.cxx:526-533, 540-575 without the removal of the arc: `l`, `r` are the
half edges of the two breakpoints that meet, `lt`, `rt` their twins, `b` the new breakpoint -/
def circleEdges (s : Sweep) (l lt r rt b : Nat) : Sweep :=
  let v := s.nv
  let s := { s with vtx := fun j => if j = v then some lt else s.vtx j, nv := s.nv + 1 }
  let s := s.modE lt (fun e => { e with target := some v })
  let s := s.modE rt (fun e => { e with target := some v })
  let one := s.nhe
  let two := s.nhe + 1
  let s := s.newEdges
  let s := s.modN b (fun n => { n with half := some two })
  let s := s.modE two (fun e => { e with target := some v })
  let s := { s with vtx := fun j => if j = v then some one else s.vtx j }
  let s := s.modE two (fun e => { e with next := some l })
  let s := s.modE l (fun e => { e with last := some two })
  let s := s.modE two (fun e => { e with face := (s.he l).face })
  let s := s.modE one (fun e => { e with last := some rt })
  let s := s.modE rt (fun e => { e with next := some one })
  let s := s.modE one (fun e => { e with face := (s.he rt).face })
  let s := s.modE r (fun e => { e with last := some lt })
  s.modE lt (fun e => { e with next := some r })

/-- the rest of `handleCircleEvents` once the four half edges are known, Voronoi.cxx:514-588.  The removal of the arc only touches
the beach line, so its place between the vertex and the new edges does not matter. -/
def closeArc (o : Oracle) (s : Sweep) (e arc l lt r rt : Nat) : Option Sweep :=
  let s := { s with mismatch := s.mismatch + (if (s.he lt).face = (s.he r).face then 0 else 1) }
  match s.beach.remove arc with
  | some (some b, bl) =>
    let s := ({ s with beach := bl }).circleEdges l lt r rt b
    match (s.beach.heap b).pred, (s.beach.heap b).succ with
    | some la, some ra =>
      match s.makeRight o la e with
      | none => none
      | some s => s.makeLeft o ra e
    | _, _ => none
  | _ => none

/-- `handleCircleEvents`, Voronoi.cxx:503-589 -/
def handleCircle (o : Oracle) (s : Sweep) (e : Nat) : Option Sweep :=
  match s.node e with
  | none => none
  | some c =>
    match (s.beach.heap c).assoc with
    | none => none
    | some arc =>
      match (s.beach.heap arc).pred, (s.beach.heap arc).succ with
      | some x, some y =>
        match (s.beach.heap x).half, (s.beach.heap y).half with
        | some l, some r =>
          match (s.he l).twin, (s.he r).twin with
          | some lt, some rt => s.closeArc o e arc l lt r rt
          | _, _ => none
        | _, _ => none
      | _, _ => none

/-- one round of the loop of Voronoi.cxx:175-185, for the queued event `e` -/
def step (o : Oracle) (s : Sweep) (e : Nat) : Option Sweep :=
  let s := { s with queue := s.queue.erase e }
  if e < o.n then s.handleSite o e
  else if s.beach.valid e = true then s.handleCircle o e
  else some s

/-- before the loop, Voronoi.cxx:138-172 -/
def start (n : Nat) : Sweep :=
  ⟨Beach.empty, List.range n, fun _ => none, n, fun _ => {}, 0, fun _ => none, fun _ => 0, 0, fun _ => none, 0, 0⟩

end Sweep

/-- `k` rounds of the loop can lead to the state `s`, whatever event comes first each time -/
inductive Reach (o : Oracle) : Nat → Sweep → Prop
  | start : Reach o 0 (Sweep.start o.n)
  | step {k : Nat} {s s' : Sweep} (e : Nat) : Reach o k s → e ∈ s.queue → s.step o e = some s' → Reach o (k + 1) s'

end Verif.Voronoi

import Mathlib.Data.Int.Order.Basic
import Mathlib.Data.List.Basic

/-!
# `VertexFitter_module`, `VertexCheater_module`, `TCTrack_module`, `TrackProducerFromTrack_module`

`larreco/VertexFinder/VertexFitter_module.cc` (F), `larreco/VertexFinder/VertexCheater_module.cc` (V),
`larreco/TrackFinder/TCTrack_module.cc` (T), `larreco/TrackFinder/TrackProducerFromTrack_module.cc` (P).
Tracks, hits, showers and clusters are their index in the collection.
-/

namespace Verif.ProdMisc

/-! ### `VertexFitter` -/

/-- A particle: `Self`, `IsPrimary`, `Daughters` and the tracks associated with it. -/
structure Pfp where
  self : ℕ
  primary : Bool
  daughters : List ℕ
  tracks : List ℕ

/-- The inner loop over the particles (F 118-127): the tracks of the first with this `Self`. -/
def addDaughter : List Pfp → ℕ → List ℕ → List ℕ
  | [], _, l => l
  | p :: r, d, l => if p.self ≠ d then addDaughter r d l else l ++ p.tracks

/-- The tracks of the daughters (F 114-128). -/
def tracksOf (ps : List Pfp) (p : Pfp) : List ℕ := p.daughters.foldl (fun l d => addDaughter ps d l) []

/-- The vertices with their numbers, the associations of particle and vertex, and of vertex and track with
their data. -/
structure FitOut (α β : Type) where
  vtxs : List (α × ℕ) := []
  pfpVtx : List (ℕ × ℕ) := []
  vtxTrk : List (ℕ × ℕ × Option β) := []
deriving DecidableEq

/-- `Geometric3DVertexFitter::computeMeta` (`Geometric3DVertexFitter.cxx` 609-658): one entry per track. -/
def computeMeta {α β : Type} (mt : α → ℕ → β) (v : α) (ts : List ℕ) : List β :=
  ts.foldl (fun l t => l ++ [mt v t]) []

/-- One particle (F 110-148); `fit` is the fit of the tracks, `none` if it is not valid. -/
def fitStep {α β : Type} (fit : List ℕ → Option α) (mt : α → ℕ → β) (ps : List Pfp) (o : FitOut α β)
    (x : Pfp × ℕ) : FitOut α β :=
  if x.1.primary = false ∨ x.1.daughters.length < 2 then o
  else
    let ts := tracksOf ps x.1
    if ts.length < 2 then o
    else
      match fit ts with
      | none => o
      | some v =>
        let n := o.vtxs.length
        { vtxs := o.vtxs ++ [(v, n)]
          pfpVtx := o.pfpVtx ++ [(x.2, n)]
          vtxTrk := o.vtxTrk ++ ts.zipIdx.map (fun t => (n, t.1, (computeMeta mt v ts)[t.2]?)) }

/-- `VertexFitter::produce` (F 95-153). -/
def fitVertices {α β : Type} (fit : List ℕ → Option α) (mt : α → ℕ → β) (ps : List Pfp) : FitOut α β :=
  ps.zipIdx.foldl (fitStep fit mt ps) {}

/-! ### `VertexCheater` -/

/-- The mother of a prong, or its own number (V 127-128, 154-155); `none` if the particle is not in the list,
where the code is undefined. -/
def eveOf (mother : ℤ → Option ℤ) (id : ℤ) : Option ℤ :=
  (mother id).map (fun m => if m < 1 then id else m)

/-- `eveIDs` and one of the two maps. -/
structure Eves where
  ids : List ℤ := []
  shw : ℤ → List ℕ := fun _ => []
  trk : ℤ → List ℕ := fun _ => []

/-- One shower (V 115-139). -/
def addShw (mother : ℤ → Option ℤ) (s : Eves) (x : ℤ × ℕ) : Option Eves :=
  (eveOf mother x.1).map (fun e =>
    { s with
      ids := if s.ids.contains e then s.ids else s.ids ++ [e]
      shw := fun k => if k = e then s.shw k ++ [x.2] else s.shw k })

/-- One track (V 142-166). -/
def addTrk (mother : ℤ → Option ℤ) (s : Eves) (x : ℤ × ℕ) : Option Eves :=
  (eveOf mother x.1).map (fun e =>
    { s with
      ids := if s.ids.contains e then s.ids else s.ids ++ [e]
      trk := fun k => if k = e then s.trk k ++ [x.2] else s.trk k })

/-- The vertices (place and number) and the associations of vertex and shower, track and hit. -/
structure CheatOut (γ : Type) where
  vtxs : List (γ × ℤ) := []
  vs : List (ℕ × ℕ) := []
  vt : List (ℕ × ℕ) := []
  vh : List (ℕ × ℕ) := []
deriving DecidableEq

/-- One vertex (V 177-233); `place` is the start of a particle, which fails if it is not in the list. -/
def cheatStep {γ : Type} (place : ℤ → Option γ) (shwHits trkHits : ℕ → List ℕ) (s : Eves) (o : CheatOut γ)
    (e : ℤ) : Option (CheatOut γ) :=
  (place e).map (fun p =>
    let n := o.vtxs.length
    { vtxs := o.vtxs ++ [(p, e)]
      vt := o.vt ++ (s.trk e).map (fun t => (n, t))
      vs := o.vs ++ (s.shw e).map (fun t => (n, t))
      vh := o.vh ++ (s.trk e).flatMap (fun t => (trkHits t).map (fun h => (n, h))) ++
        (s.shw e).flatMap (fun t => (shwHits t).map (fun h => (n, h))) })

/-- `VertexCheater::produce` (V 61-240); `showers` and `tracks` are the numbers of the prongs. -/
def cheatVertices {γ : Type} (mother : ℤ → Option ℤ) (place : ℤ → Option γ) (shwHits trkHits : ℕ → List ℕ)
    (showers tracks : List ℤ) : Option (CheatOut γ) :=
  match showers.zipIdx.foldlM (addShw mother) {} with
  | none => none
  | some s =>
    match tracks.zipIdx.foldlM (addTrk mother) s with
    | none => none
    | some s => s.ids.foldlM (cheatStep place shwHits trkHits s) {}

/-! ### `TCTrack` -/

/-- The hits of a particle (T 74-89): `clusters` are the key and `ID` of its clusters, `clsHits` the hits of
each cluster.  An index that does not exist fails. -/
def pfpHits (clsHits : List (List ℕ)) (clusters : List (ℕ × ℕ)) : Option (List ℕ) :=
  clusters.foldlM (fun l c => if c.2 = 0 then none else (clsHits[c.2 - 1]?).map (fun h => l ++ h)) []

/-- The space points and their associations with hits. -/
structure SpOut (σ : Type) where
  sps : List σ := []
  assns : List (ℕ × ℕ) := []
deriving DecidableEq

/-- One particle (T 73-104); `mk` makes space points, each with its hits. -/
def tcStep {σ : Type} (mk : List ℕ → List (σ × List ℕ)) (clsHits : List (List ℕ)) (o : SpOut σ)
    (clusters : List (ℕ × ℕ)) : Option (SpOut σ) :=
  (pfpHits clsHits clusters).map (fun hits =>
    let new := mk hits
    if new = [] then o
    else
      { sps := o.sps ++ new.map (·.1)
        assns := o.assns ++ (new.zipIdx o.sps.length).flatMap (fun s => s.1.2.map (fun h => (s.2, h))) })

/-- `TCTrack::produce` (T 56-109). -/
def tcTrack {σ : Type} (mk : List ℕ → List (σ × List ℕ)) (clsHits : List (List ℕ))
    (pfps : List (List (ℕ × ℕ))) : Option (SpOut σ) :=
  pfps.foldlM (tcStep mk clsHits) {}

/-! ### `TrackProducerFromTrack` -/

/-- `util::associated_groups`: the right sides of the runs of pairs with the same left side. -/
def groups : List (ℕ × ℕ) → List (List ℕ)
  | [] => []
  | [(_, h)] => [[h]]
  | (t, h) :: (t', h') :: r =>
    match groups ((t', h') :: r) with
    | [] => [[h]]
    | g :: gs => if t = t' then (h :: g) :: gs else [h] :: g :: gs

/-- The result of a fit: the points of the track (`none` if not valid), the hits, and the space points with
their hits that the tool makes. -/
structure Fit (σ : Type) where
  points : List (Option σ)
  hits : List ℕ
  sps : List (σ × ℕ)
deriving DecidableEq

/-- The tracks, the associations of track and hit, the space points and the associations of hit and space
point. -/
structure ProdOut (σ : Type) where
  tracks : List (List (Option σ)) := []
  th : List (ℕ × ℕ) := []
  sps : List σ := []
  hs : List (ℕ × ℕ) := []
deriving DecidableEq

/-- One space point (P 140-145, 151-155). -/
def addSp {σ : Type} (o : ProdOut σ) (s : σ × ℕ) : ProdOut σ :=
  { o with sps := o.sps ++ [s.1], hs := o.hs ++ [(s.2, o.sps.length)] }

/-- One hit of a new track (P 134-148). -/
def addHit {σ : Type} (fromTraj : Bool) (f : Fit σ) (n : ℕ) (o : ProdOut σ) (x : ℕ × ℕ) : ProdOut σ :=
  let o := { o with th := o.th ++ [(n, x.1)] }
  if fromTraj then
    match f.points[x.2]? with
    | some (some p) => addSp o (p, x.1)
    | _ => o
  else o

/-- One track (P 103-158): `fit` is the tool for a track and hits. -/
def prodStep {σ : Type} (fit : ℕ → List ℕ → Option (Fit σ)) (doSp traj : Bool) (o : ProdOut σ)
    (x : List ℕ × ℕ) : Option (ProdOut σ) :=
  match fit x.2 x.1 with
  | none => some o
  | some f =>
    if f.points.length ≠ f.hits.length then none
    else
      let n := o.tracks.length
      let o := { o with tracks := o.tracks ++ [f.points] }
      let o := f.hits.zipIdx.foldl (addHit (doSp && traj) f n) o
      some (if doSp && !traj then f.sps.foldl addSp o else o)

/-- `TrackProducerFromTrack::produce` (P 78-169): the n-th group of hits is used with the n-th track.
`TrackFitHitInfo` is not modelled. -/
def prodTracks {σ : Type} (fit : ℕ → List ℕ → Option (Fit σ)) (doSp traj : Bool) (assns : List (ℕ × ℕ)) :
    Option (ProdOut σ) :=
  (groups assns).zipIdx.foldlM (prodStep fit doSp traj) {}

end Verif.ProdMisc

import Mathlib.Algebra.Order.Field.Rat
import Mathlib.Algebra.BigOperators.Group.List.Basic
import Mathlib.Data.List.Sort

/-!
Model of the grouping part of `shower::EMShowerAlg` (larreco/RecoAlg/EMShowerAlg.cxx) and of the output loop of
`shower::EMShower` (larreco/ShowerFinder/EMShower_module.cc): clusters and tracks are associated through hits, tracks that
share clusters make a shower, one plane may be left out.

Simplifications: clusters, tracks and hits are the keys of their pointers (`Nat`); a `std::map` from a key to a vector that
is never empty once it exists is a function with `[]` for an absent key; fractions of hits are rationals.
-/

namespace Verif.EmShower

/-- the event: the clusters, the hits of a cluster, the tracks of a hit, and whether the track is at least
`fMinTrackLength` long -/
structure Event where
  clusters : List Nat
  hitsOf : Nat → List Nat
  tracksOf : Nat → List Nat
  long : Nat → Bool

/-- the two maps `trackToClusters` and `clusterToTracks` -/
structure Maps where
  t2c : Nat → List Nat
  c2t : Nat → List Nat

/-- `m[k].push_back(x)` unless it is there already, EMShowerAlg.cxx:111-114. -/
def addTo (m : Nat → List Nat) (k x : Nat) : Nat → List Nat :=
  if x ∈ m k then m else Function.update m k (m k ++ [x])

/-- One hit of one cluster, EMShowerAlg.cxx:89-114. -/
def assocHit (e : Event) (ignore : List Nat) (c : Nat) (m : Maps) (h : Nat) : Maps :=
  match e.tracksOf h with
  | [t] =>
    if e.long t = false then m
    else if c ∈ ignore then m
    else ⟨addTo m.t2c t c, addTo m.c2t c t⟩
  | _ => m

/-- `AssociateClustersAndTracks`, EMShowerAlg.cxx:74-117; the maps start empty. -/
def associate (e : Event) (ignore : List Nat) : Maps :=
  e.clusters.foldl (fun m c => (e.hitsOf c).foldl (assocHit e ignore c) m) ⟨fun _ => [], fun _ => []⟩

/-- The values of `trackToClusters` in the order of the keys, for tracks with keys below `n`. -/
def values (m : Nat → List Nat) (n : Nat) : List (List Nat) := ((List.range n).map m).filter fun cs => cs ≠ []

/-! ### Showers -/

/-- `matchingShowers`, EMShowerAlg.cxx:719-727: the positions of the showers that have a cluster of the track. -/
def matching (showers : List (List Nat)) (cs : List Nat) : List Nat :=
  (List.range showers.length).filter fun i => cs.any fun c => (showers.getD i []).contains c

/-- the clusters that are not there are added, EMShowerAlg.cxx:739-742 -/
def extend (s cs : List Nat) : List Nat := cs.foldl (fun s c => if c ∈ s then s else s ++ [c]) s

/-- One track, EMShowerAlg.cxx:716-744. -/
def addTrack (showers : List (List Nat)) (cs : List Nat) : List (List Nat) :=
  match (matching showers cs).head? with
  | none => showers ++ [cs]
  | some k => showers.set k (extend (showers.getD k []) cs)

/-- `FindShowers`, EMShowerAlg.cxx:710-748. -/
def findShowers (tracks : List (List Nat)) : List (List Nat) := tracks.foldl addTrack []

/-! ### Planes to leave out -/

/-- planes of the clusters and of their hits -/
structure Planes where
  plane : Nat → Nat
  hitPlanes : Nat → List Nat

/-- the keys of `planeClusters`, in order, EMShowerAlg.cxx:306-313 -/
def planeKeys (g : Planes) (s : List Nat) : List Nat := ((s.map g.plane).dedup).insertionSort (· ≤ ·)

/-- `planeClusters[p]` -/
def clustersIn (g : Planes) (s : List Nat) (p : Nat) : List Nat := s.filter fun c => g.plane c = p

/-- `planeHits[p].size()`, EMShowerAlg.cxx:311-312 -/
def hitsIn (g : Planes) (s : List Nat) (p : Nat) : Nat := (s.map fun c => (g.hitPlanes c).count p).sum

/-- The mean share of the hits of the plane in a cluster, EMShowerAlg.cxx:340-361. -/
def avgShare (g : Planes) (s : List Nat) (p : Nat) : ℚ :=
  ((clustersIn g s p).map fun c => ((g.hitPlanes c).length : ℚ) / hitsIn g s p).sum / (clustersIn g s p).length

/-- The test for the bad plane, EMShowerAlg.cxx:369-381; both sides squared. -/
def isBad (keys : List Nat) (avg : Nat → ℚ) (p : Nat) : Bool :=
  decide (((keys.filter fun q => p ≠ q).map fun q => avg q * avg q).sum ≤ avg p * avg p)

/-- One shower of `CheckShowerPlanes`, EMShowerAlg.cxx:306-388: `none` if `planeHits.at` throws. -/
def checkOne (g : Planes) (s : List Nat) : Option (List Nat) :=
  let keys := planeKeys g s
  if keys.length < 3 then some []
  else if keys.any fun p => hitsIn g s p = 0 then none
  else
    match (keys.filter (isBad keys (avgShare g s))).getLast? with
    | some p => some (clustersIn g s p)
    | none => some []

/-- `CheckShowerPlanes`, EMShowerAlg.cxx:292-390: every shower but the first is skipped (line 303). -/
def checkPlanes (g : Planes) : List (List Nat) → Option (List Nat)
  | [] => some []
  | s :: _ => checkOne g s

/-- The showers of an event without particles, EMShower_module.cc:185-211; `n` tracks. -/
def showersOf (e : Event) (g : Planes) (findBad : Bool) (n : Nat) : Option (List (List Nat) × Maps) :=
  let m := associate e []
  let ini := findShowers (values m.t2c n)
  match (if findBad then checkPlanes g ini else some []) with
  | none => none
  | some [] => some (ini, m)
  | some ig =>
    let m := associate e ig
    some (findShowers (values m.t2c n), m)

/-! ### Output -/

/-- what the output loop does for one shower: the tracks (EMShower_module.cc:331-348), the number given to the shower, the
space points with their associated hits -/
structure Out where
  id : Nat
  clusters : List Nat
  tracks : List Nat
  points : List (Nat × List Nat)
deriving DecidableEq

/-- `associatedTracks`, EMShower_module.cc:331-335 -/
def tracksFor (m : Maps) (s : List Nat) : List Nat := s.foldl (fun l c => extend l (m.c2t c)) []

/-- The space points saved with the hits associated to them, EMShower_module.cc:387-394: `nSpacePoint` stays 0.  `first` is
the number of points saved before; `points` lists the hits of the points of this shower. -/
def savePoints (first : Nat) (points : List (List Nat)) : List (Nat × List Nat) :=
  (List.range points.length).map fun i => (first + i, points.getD 0 [])

/-- The loop over the showers without particles, EMShower_module.cc:281-420; `showerNum` stays 0.  `sel` is `fShower`
(`none` for -1); `keep s` tells if the shower is saved; `pts s` are the hits of its space points. -/
def output (m : Maps) (sel : Option Nat) (keep : List Nat → Bool) (pts : List Nat → List (List Nat))
    (showers : List (List Nat)) : List Out :=
  (showers.foldl (fun (r : List Out × Nat) s =>
    if sel ≠ none ∧ sel ≠ some 0 then r
    else
      let ps := savePoints r.2 (pts s)
      (if keep s then r.1 ++ [⟨0, s, tracksFor m s, ps⟩] else r.1, r.2 + (pts s).length)) ([], 0)).1

end Verif.EmShower

import Mathlib.Algebra.Order.Ring.Rat
import Mathlib.Data.Int.Order.Basic

/-!
# `EventCheater_module`, `DisambigCheater_module`, `DBcluster_module`

`larreco/EventFinder/EventCheater_module.cc` (E), `larreco/HitFinder/DisambigCheater_module.cc` (D),
`larreco/ClusterFinder/DBcluster_module.cc` (B).
-/

namespace Verif.Cheat

/-- `map[t].push_back(i)`; the map is the list of its entries in ascending order of the key. -/
def addKey (t i : ℕ) : List (ℕ × List ℕ) → List (ℕ × List ℕ)
  | [] => [(t, [i])]
  | (k, l) :: r =>
    if t < k then (t, [i]) :: (k, l) :: r
    else if k < t then (k, l) :: addKey t i r
    else (k, l ++ [i]) :: r

/-! ### `EventCheater` -/

/-- The particle of a track number, as its truth (E 66-68, 92-93): a later particle of the same number
replaces an earlier one.  The code is undefined for a number that is not in the map. -/
def truthOf (parts : List (ℤ × ℕ)) (id : ℤ) : Option ℕ :=
  parts.foldl (fun m p => if p.1 = id then some p.2 else m) none

/-- The loop over the vertices (E 90-98); truths are numbered in the order of their pointers. -/
def vertexMap (parts : List (ℤ × ℕ)) (verts : List ℤ) : Option (List (ℕ × List ℕ)) :=
  verts.zipIdx.foldlM (fun m v => (truthOf parts v.1).map (fun t => addKey t v.2 m)) []

/-- An event: its number, its vertices and its hits. -/
structure Event where
  id : ℤ
  verts : List ℕ
  hits : List ℕ
deriving DecidableEq

/-- One entry of the map (E 107-127): `k` events are in the collection before.  `ptrvs` is never filled. -/
def mkEvent (fm : ℕ → List ℕ) (x : (ℕ × List ℕ) × ℕ) : Event :=
  let ptrvs : List ℕ := []
  ⟨(x.2 : ℤ) - 1, x.1.2, (List.range ptrvs.length).flatMap fm⟩

/-- `EventCheater::produce` (E 58-134); `fm` gives the hits of a vertex. -/
def events (parts : List (ℤ × ℕ)) (verts : List ℤ) (fm : ℕ → List ℕ) : Option (List Event) :=
  (vertexMap parts verts).map (fun m => m.zipIdx.map (mkEvent fm))

/-! ### `DisambigCheater` -/

structure Wid where
  tpc : ℕ
  cryo : ℕ
  plane : ℕ
  wire : ℤ
  valid : Bool
deriving DecidableEq

/-- A deposit in a TPC: TPC, cryostat and the nearest wire (or the one suggested, D 238-262). -/
structure Ide where
  tpc : ℕ
  cryo : ℕ
  near : Wid

/-- A hit: view Z, wire, channel, time and its deposits that are in a TPC (D 207-246). -/
structure Hit where
  isZ : Bool
  wid : Wid
  chan : ℕ
  time : ℚ
  ides : List Ide

/-- The wire that is stored for a deposit (D 263-273): the first wire of the channel in the TPC that is not
too far, or else the nearest wire. -/
def store (cwids : List Wid) (shift : ℕ → ℤ) (e : Ide) : Wid :=
  match cwids.find? (fun w => w.tpc = e.tpc ∧ w.cryo = e.cryo ∧
      |e.near.wire - w.wire| ≤ shift ((cwids.head?.map (·.plane)).getD 0)) with
  | some w => w
  | none => e.near

/-- `widsWithIdes` of a hit (D 235-284). -/
def widsOf (cwids : ℕ → List Wid) (shift : ℕ → ℤ) (h : Hit) : List Wid :=
  h.ides.foldl (fun l e =>
    let s := store (cwids h.chan) shift e
    if l.contains s then l else l ++ [s]) []

/-- `InitHitToWids` (D 190-296): the entry of a channel and time; a later hit replaces an earlier one; without
an entry it is empty. -/
def lookup (cwids : ℕ → List Wid) (shift : ℕ → ℤ) (hs : List Hit) (c : ℕ) (t : ℚ) : List Wid :=
  hs.foldl (fun m h => if h.isZ then m
    else if h.chan = c ∧ h.time = t then widsOf cwids shift h else m) []

/-- One hit of the loop (D 140-163) with `MakeDisambigHit` (D 172-187): the hit (its position in the input)
and the wire of the hit that is made, and the count of hits without wires. -/
def makeStep (cwids : ℕ → List Wid) (shift : ℕ → ℤ) (hs : List Hit) (o : List (ℕ × Wid) × ℕ) (x : Hit × ℕ) :
    List (ℕ × Wid) × ℕ :=
  if x.1.isZ then (if x.1.wid.valid then (o.1 ++ [(x.2, x.1.wid)], o.2) else o)
  else
    match lookup cwids shift hs x.1.chan x.1.time with
    | [] => (o.1, o.2 + 1)
    | w :: _ => if w.valid then (o.1 ++ [(x.2, w)], o.2) else o

/-- `DisambigCheater::produce` (D 115-169); `n` is the count before. -/
def disambig (cwids : ℕ → List Wid) (shift : ℕ → ℤ) (n : ℕ) (hs : List Hit) : List (ℕ × Wid) × ℕ :=
  hs.zipIdx.foldl (makeStep cwids shift hs) ([], n)

/-! ### `DBcluster` -/

/-- A cluster: number, plane and hits. -/
structure Clus where
  id : ℕ
  plane : ℕ
  hits : List ℕ
deriving DecidableEq

/-- The clusters of one plane (B 148-187); `scan` gives the number of clusters and the cluster of each hit
(`fpointId_to_clusterId`, as long as the hits). -/
def planeClus (scan : List ℕ → ℕ × List ℕ) (o : List Clus) (p : ℕ × List ℕ) : List Clus :=
  (List.range (scan p.2).1).foldl (fun o i =>
    let hs := (p.2.zip (scan p.2).2).filterMap (fun x => if x.2 = i then some x.1 else none)
    if hs = [] then o else o ++ [⟨o.length, p.1, hs⟩]) o

/-- `DBcluster::produce` (B 88-199); the input is the plane of each hit. -/
def dbcluster (scan : List ℕ → ℕ × List ℕ) (planes : List ℕ) : List Clus :=
  (planes.zipIdx.foldl (fun m x => addKey x.1 x.2 m) []).foldl (planeClus scan) []

end Verif.Cheat

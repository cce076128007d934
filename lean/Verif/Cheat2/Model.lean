import Mathlib.Algebra.Order.Ring.Rat
import Mathlib.Data.Int.Order.Basic

/-!
# `HitCheater_module`, `ClusterCheater_module`, `ShowerCheater_module`, `TrackCheater_module`

`larreco/HitFinder/HitCheater_module.cc` (H), `larreco/ClusterFinder/ClusterCheater_module.cc` (C),
`larreco/ShowerFinder/ShowerCheater_module.cc` (S), `larreco/TrackFinder/TrackCheater_module.cc` (T).
Clusters, hits and space points are their index in the collection.  Charges are rational.
-/

namespace Verif.Cheat2

/-! ### `HitCheater` -/

/-- A hit (H 237-256): `start_tick`, `end_tick`, `peak_time`, amplitude, `hit_integral`.  The width, which is not
modelled, is the root mean square of the ticks. -/
structure Hit where
  start : ℕ
  stop : ℕ
  peak : ℕ
  amp : ℚ
  charge : ℚ
deriving DecidableEq

/-- `startTime`, `prev`, `peakTime`, `maxCharge`, `totCharge` (H 214-222). -/
structure St where
  start : ℕ
  prev : ℕ
  peak : ℕ
  amp : ℚ
  charge : ℚ

/-- A new hit (H 262-267). -/
def reset (t p : ℕ) : St := ⟨t, p, t, -1, 0⟩

/-- The charge of a tick is added (H 271-283). -/
def accum (s : St) (x : ℕ × ℚ) : St :=
  { s with
    charge := s.charge + x.2
    amp := if x.2 > s.amp then x.2 else s.amp
    peak := if x.2 > s.amp then x.1 else s.peak
    prev := x.1 }

/-- A hit is added if its charge is large enough (H 236-258, 288-312); `k` is added to the last tick. -/
def emit (m : ℚ) (k : ℕ) (s : St) (hs : List Hit) : List Hit :=
  if s.charge > m then hs ++ [⟨s.start, s.prev + k, s.peak, s.amp, s.charge⟩] else hs

/-- The loop over the ticks of a wire (H 226-312); `gap` is `fNewHitTDCGap`, `m` is `fMinCharge`; the ticks, with
their charge in ADC counts, are in ascending order (`std::map`). -/
def scan (gap : ℕ) (m : ℚ) : St → List Hit → List (ℕ × ℚ) → List Hit
  | s, hs, [] => emit m 1 s hs
  | s, hs, x :: r =>
    if x.1 - s.prev > gap then scan gap m (accum (reset x.1 s.prev) x) (emit m 0 s hs) r
    else scan gap m (accum s x) hs r

/-- The hits of a wire (H 211-315); it has a tick, otherwise it is not in the map. -/
def wireHits (gap : ℕ) (m : ℚ) : List (ℕ × ℚ) → List Hit
  | [] => []
  | x :: r => scan gap m ⟨x.1, x.1, 0, -1, 0⟩ [] (x :: r)

/-! ### `ClusterCheater` -/

/-- The number of a cluster (C 218-223). -/
def clusterID (eve plane tpc cryo : ℤ) : ℤ := ((eve * 10 + plane) * 10 + tpc) * 10 + cryo

/-- The particle of a cluster (S 90, T 100). -/
def eveID (id : ℤ) : ℤ := id / 1000

/-! ### `ShowerCheater` and `TrackCheater` -/

/-- `map[t].push_back(i)`; the map is the list of its entries in ascending order of the key. -/
def addKey (t : ℤ) (i : ℕ) : List (ℤ × List ℕ) → List (ℤ × List ℕ)
  | [] => [(t, [i])]
  | (k, l) :: r =>
    if t < k then (t, [i]) :: (k, l) :: r
    else if k < t then (k, l) :: addKey t i r
    else (k, l ++ [i]) :: r

/-- `eveClusterMap` (S 81-96, T 89-104); `ids` are the numbers of the clusters. -/
def eveMap (ids : List ℤ) : List (ℤ × List ℕ) :=
  ids.zipIdx.foldl (fun m x => addKey (eveID x.1) x.2 m) []

/-- Electrons, photons and neutral pions (S 155-157, T 128). -/
def isEM (pdg : ℤ) : Bool := pdg.natAbs == 11 || pdg.natAbs == 22 || pdg.natAbs == 111

/-- The showers (the particle is kept here, though it is not stored), the number of each space point, and the
associations of shower and cluster, shower and hit, shower and space point, hit and space point. -/
structure ShwOut where
  shws : List ℤ := []
  sps : List ℤ := []
  sc : List (ℕ × ℕ) := []
  sh : List (ℕ × ℕ) := []
  ssp : List (ℕ × ℕ) := []
  hsp : List (ℕ × ℕ) := []
deriving DecidableEq

/-- One hit of a cluster (S 134-145). -/
def addSp (id : ℤ) (o : ShwOut) (x : ℕ × ℕ) : ShwOut :=
  { o with sps := o.sps ++ [id * 10000 + x.2], hsp := o.hsp ++ [(x.1, o.sps.length)] }

/-- One cluster (S 122-147). -/
def addCl (ids : List ℤ) (hits : List (List ℕ)) (o : ShwOut) (c : ℕ) : ShwOut :=
  ((hits[c]?.getD []).zipIdx).foldl (addSp (ids[c]?.getD 0)) o

/-- One particle (S 112-197); `pdg` is its code.  The hits associated with the shower are those of `fmh.at(i)`
(S 186), where `i` counts the clusters of the shower. -/
def shwStep (ids : List ℤ) (hits : List (List ℕ)) (pdg : ℤ → ℤ) (o : ShwOut) (e : ℤ × List ℕ) : ShwOut :=
  let first := o.sps.length
  let o := e.2.foldl (addCl ids hits) o
  if isEM (pdg e.1) then
    let n := o.shws.length
    { o with
      shws := o.shws ++ [e.1]
      sc := o.sc ++ e.2.map (fun c => (n, c))
      sh := o.sh ++ (List.range e.2.length).flatMap (fun i => (hits[i]?.getD []).map (fun h => (n, h)))
      ssp := o.ssp ++ (List.range' first (o.sps.length - first)).map (fun s => (n, s)) }
  else o

/-- `ShowerCheater::produce` (S 63-206); `hits` are the hits of each cluster; the particles are all known. -/
def showers (ids : List ℤ) (hits : List (List ℕ)) (pdg : ℤ → ℤ) : ShwOut :=
  (eveMap ids).foldl (shwStep ids hits pdg) {}

/-- The tracks (number, which is the particle, and hits on the collection plane), the numbers of the space points and
the associations of track and cluster, track and hit, track and space point. -/
structure TrkOut where
  trks : List (ℤ × List ℕ) := []
  sps : List ℤ := []
  tc : List (ℕ × ℕ) := []
  th : List (ℕ × ℕ) := []
  tsp : List (ℕ × ℕ) := []
deriving DecidableEq

/-- The hits on the collection plane (T 144-151): all those of each cluster whose first hit is one. -/
def colHits (hits : List (List ℕ)) (col : ℕ → Bool) (cs : List ℕ) : List ℕ :=
  cs.foldl (fun l c => match hits[c]?.getD [] with
    | [] => l
    | h :: r => if col h then l ++ (h :: r) else l) []

/-- One particle (T 118-252). -/
def trkStep (hits : List (List ℕ)) (col : ℕ → Bool) (pdg : ℤ → ℤ) (o : TrkOut) (e : ℤ × List ℕ) : TrkOut :=
  if isEM (pdg e.1) then o
  else
    let hs := colHits hits col e.2
    if hs.length < 2 then o
    else
      let n := o.trks.length
      { trks := o.trks ++ [(e.1, hs)]
        sps := o.sps ++ (List.range hs.length).map (fun t : ℕ => e.1 * 10000 + (t : ℤ))
        tc := o.tc ++ e.2.map (fun c => (n, c))
        th := o.th ++ e.2.flatMap (fun c => (hits[c]?.getD []).map (fun h => (n, h)))
        tsp := o.tsp ++ (List.range' o.sps.length hs.length).map (fun s => (n, s)) }

/-- `TrackCheater::produce` (T 68-262). -/
def tracks (ids : List ℤ) (hits : List (List ℕ)) (col : ℕ → Bool) (pdg : ℤ → ℤ) : TrkOut :=
  (eveMap ids).foldl (trkStep hits col pdg) {}

end Verif.Cheat2

import Mathlib.Data.Rat.Defs
import Mathlib.Algebra.Order.Ring.Rat
import Mathlib.Data.List.Sort

/-! # Splitting clusters into straight parts (larreco/ClusterFinder/TrackShowerSplitter/Segmentation2D/Segmentation2D.cxx)

Model of `tss::Segmentation2D` and of the parts of `tss::Cluster2D` it uses (SimpleClustering.h, SimpleClustering.cxx).  Simplified: rationals for floating point numbers, lengths are compared by their
squares; the relation of touching hits and the clustering of touching hits (C48-C50) are functions that are given; `std::sort` is a stable sort. -/

namespace Verif.Seg2D

/-- A hit: a number that stands for the object, and its point. -/
structure Hit where
  id : Nat
  x : ℚ
  y : ℚ
  deriving DecidableEq, Repr

/-- The point of a hit, or any point. -/
abbrev P2 := ℚ × ℚ
def Hit.pt (h : Hit) : P2 := (h.x, h.y)

/-- `pma::Dist2`, larreco/RecoAlg/PMAlg/Utilities.cxx:39-43. -/
def d2 (a b : P2) : ℚ := (a.1 - b.1) * (a.1 - b.1) + (a.2 - b.2) * (a.2 - b.2)

/-- The settings, larreco/ClusterFinder/TrackShowerSplitter/Segmentation2D/Segmentation2D.cxx:15-26, and what is given. -/
structure Cfg where
  rmin : ℚ
  rmax : ℚ
  line : ℚ
  vtxRadius : ℚ
  minVtx : Nat
  hitRadius : ℚ
  minHits : Nat
  touch : Hit → Hit → Bool
  cl : List Hit → List (List Hit)

/-- The first hit of smallest (`lt`: less) or largest value in a list, from a first hit: `Cluster2D::closest`, `outermost`, `dist2` with index, SimpleClustering.cxx:42-59, 62-87, 142-158. -/
def best (lt : ℚ → ℚ → Bool) (f : Hit → ℚ) : Hit → List Hit → Hit
  | h, [] => h
  | h, a :: l => if lt (f a) (f h) then best lt f a l else best lt f h l

/-- `closest`, SimpleClustering.cxx:42-59. -/
def closest (l : List Hit) (p : P2) : Option Hit :=
  match l with
  | [] => none
  | h :: l => some (best (fun a b => decide (a < b)) (fun a => d2 a.pt p) h l)

/-- `outermost`, SimpleClustering.cxx:62-87: the hit farthest from the mean. -/
def outermost (l : List Hit) : Option Hit :=
  match l with
  | [] => none
  | h :: t =>
    let m : P2 := ((l.map Hit.x).sum / l.length, (l.map Hit.y).sum / l.length)
    some (best (fun a b => decide (a > b)) (fun a => d2 a.pt m) h t)

/-- `selectRing`, Segmentation2D.cxx:154-165. -/
def ring (c : Cfg) (inp : List Hit) (center : P2) : List Hit :=
  inp.filter fun h => decide (d2 center h.pt ≥ c.rmin * c.rmin) && decide (d2 center h.pt ≤ c.rmax * c.rmax)

/-- Scalar product of differences from a point. -/
def dotFrom (o a b : P2) : ℚ := (a.1 - o.1) * (b.1 - o.1) + (a.2 - o.2) * (b.2 - o.2)

/-- The hit is near the line from `center` to `e` and not behind, Segmentation2D.cxx:113-118 (projection: larreco/RecoAlg/PMAlg/Utilities.cxx:144-149).  With `center = e` the projection is not a number and
the test fails. -/
def onLine (c : Cfg) (center e : P2) (h : Hit) : Bool :=
  if d2 center e = 0 then false
  else
    let b := dotFrom center h.pt e / d2 center e
    let proj : P2 := (center.1 + b * (e.1 - center.1), center.2 + b * (e.2 - center.2))
    decide (d2 h.pt proj < c.line * c.line) && (decide (dotFrom center h.pt e ≥ 0) || decide (d2 h.pt center < 1 / 100))

/-- The index of the candidate nearest to the centre, Segmentation2D.cxx:109-125: the first with the smallest distance below 10^9. -/
def firstIdx (center : P2) : Nat → Nat → ℚ → List Hit → Nat
  | _, best, _, [] => best
  | i, best, m, h :: l => if d2 h.pt center < m then firstIdx center (i + 1) i (d2 h.pt center) l else firstIdx center (i + 1) best m l

/-- The candidates in order, Segmentation2D.cxx:127-132 and `Cluster2D::sort`, SimpleClustering.h: the nearest to the centre is exchanged with the first, the others are sorted by the distance from it. -/
def arrange (center : P2) (cand : List Hit) : List Hit :=
  let k := firstIdx center 0 0 (10 ^ 18) cand
  match cand[0]?, cand[k]? with
  | some h0, some hk =>
    match (cand.set k h0).set 0 hk with
    | [] => []
    | a :: rest => a :: rest.insertionSort (fun p q => d2 p.pt a.pt ≤ d2 q.pt a.pt)
  | _, _ => cand

/-- The hits taken from the candidates as long as they touch, Segmentation2D.cxx:141-147. -/
def grow (c : Cfg) : List Hit → List Hit → List Hit
  | seg, [] => seg
  | seg, h :: l => if seg.any fun s => c.touch s h then grow c (seg ++ [h]) l else seg

/-- `buildSegment`, Segmentation2D.cxx:102-151: the segment and the hits left. -/
def build (c : Cfg) (inp : List Hit) (center e : P2) : List Hit × List Hit :=
  let cand := inp.filter (onLine c center e)
  match arrange center cand with
  | [] => ([], inp)
  | h :: l =>
    let seg := grow c [h] l
    (seg, seg.foldl List.erase inp)

/-- The hit of a seed nearest to the centre (`dist2` with index). -/
def near (center : P2) (seed : List Hit) : Option Hit := closest seed center

/-- The seed nearest to the centre, Segmentation2D.cxx:72-81: its index, from those of the seeds before.  The distance of a seed without hits is 0. -/
def seedDist (center : P2) (seed : List Hit) : ℚ := match near center seed with | none => 0 | some h => d2 h.pt center

def pickSeed (center : P2) : Nat → Nat → ℚ → List (List Hit) → Nat
  | _, best, _, [] => best
  | i, best, m, s :: l => if seedDist center s < m then pickSeed center (i + 1) i (seedDist center s) l else pickSeed center (i + 1) best m l

/-- What the loops change: the hits left, the segments, the centres. -/
structure St where
  inp : List Hit
  result : List (List Hit)
  centers : List P2
  deriving DecidableEq, Repr

/-- The loop over the seeds, Segmentation2D.cxx:71-93; `n` is the number of seeds. -/
def seedLoop (c : Cfg) (center : P2) : Nat → List (List Hit) → St → St
  | 0, _, st => st
  | n + 1, seeds, st =>
    match seeds with
    | [] => st
    | s0 :: rest =>
      let k := pickSeed center 1 0 (seedDist center s0) rest
      match near center ((s0 :: rest).getD k []) with
      | none => seedLoop c center n ((s0 :: rest).eraseIdx k) st
      | some h =>
        let r := build c st.inp center h.pt
        let st1 : St := if r.1 = [] then ⟨r.2, st.result, st.centers⟩
          else ⟨r.2, st.result ++ [r.1], if r.1.length > 1 then st.centers ++ (r.1.getLast?.map Hit.pt).toList else st.centers⟩
        seedLoop c center n ((s0 :: rest).eraseIdx k) st1

/-- `run` for one centre, Segmentation2D.cxx:51-99. -/
def runOne (c : Cfg) (st : St) : St :=
  match st.centers with
  | [] => st
  | center :: centers =>
    match closest st.inp center with
    | none => ⟨st.inp, st.result, centers⟩
    | some h =>
      if d2 h.pt center > 1 / 4 then ⟨st.inp, st.result, centers⟩
      else
        let rg := ring c st.inp h.pt
        if rg ≠ [] then
          let seeds := c.cl rg
          seedLoop c h.pt seeds.length seeds ⟨st.inp, st.result, centers⟩
        else ⟨st.inp.erase h, st.result ++ [[h]], centers⟩

/-- The inner loop, Segmentation2D.cxx:39-41; nothing if the steps do not suffice. -/
def inner (c : Cfg) : Nat → St → Option St
  | 0, st => if st.centers = [] then some st else none
  | n + 1, st => if st.centers = [] then some st else inner c n (runOne c st)

/-- The outer loop, Segmentation2D.cxx:31-42; the inner loop may take as many steps as there are hits, and one. -/
def outer (c : Cfg) : Nat → List Hit → List (List Hit) → Option (List Hit × List (List Hit))
  | 0, inp, result => if inp.length > 1 then none else some (inp, result)
  | n + 1, inp, result =>
    if inp.length > 1 then
      match outermost inp with
      | none => some (inp, result)
      | some h =>
        match inner c (inp.length + 1) ⟨inp, result, [h.pt]⟩ with
        | none => none
        | some st => outer c n st.inp st.result
    else some (inp, result)

/-- A part with its marks. -/
structure Part where
  hits : List Hit
  tag : Bool
  ds : Bool
  de : Bool
  em : Bool
  deriving DecidableEq, Repr

def Part.start (p : Part) : P2 := (p.hits.head?.map Hit.pt).getD (0, 0)
def Part.stop (p : Part) : P2 := (p.hits.getLast?.map Hit.pt).getD (0, 0)

/-- One other part in `tagDenseEnds`, Segmentation2D.cxx:176-202: the part `j` seen from part `i`; the state is the group and the two marks found for `i`. -/
def tagOne (c : Cfg) (i : Nat) (st : List Part × Bool × Bool) (j : Nat) : List Part × Bool × Bool :=
  if i = j then st
  else
    match st.1[i]?, st.1[j]? with
    | some pi, some pj =>
      let r2 := c.vtxRadius * c.vtxRadius
      let ss := !pj.ds && decide (d2 pj.start pi.start < r2)
      let se := !pj.ds && decide (d2 pj.start pi.stop < r2)
      let es := !pj.de && decide (d2 pj.stop pi.start < r2)
      let ee := !pj.de && decide (d2 pj.stop pi.stop < r2)
      (st.1.set j ⟨pj.hits, pj.tag, pj.ds || ss || se, pj.de || es || ee, pj.em⟩, st.2.1 || ss || es, st.2.2 || se || ee)
    | _, _ => st

/-- One part in `tagDenseEnds`, Segmentation2D.cxx:172-206. -/
def tagPart (c : Cfg) (g : List Part) (i : Nat) : List Part :=
  let r := (List.range g.length).foldl (tagOne c i) (g, false, false)
  r.1.modify i fun p => ⟨p.hits, p.tag, p.ds || r.2.1, p.de || r.2.2, p.em⟩

/-- `tagDenseEnds`, Segmentation2D.cxx:168-208. -/
def tagDense (c : Cfg) (g : List Part) : List Part := (List.range g.length).foldl (tagPart c) g

/-- The parts with an end near a point, and the count, Segmentation2D.cxx:229-250, 258-279; `p0` is the point, of part `i`. -/
def countNear (c : Cfg) (g : List Part) (i : Nat) (p0 : P2) : Nat × List Nat :=
  (List.range g.length).foldl (fun st j =>
    match g[j]? with
    | none => st
    | some q =>
      if q.em then st
      else if i = j then (if q.hits.length > 1 ∧ d2 q.start q.stop < c.vtxRadius * c.vtxRadius then (st.1 + 1, st.2) else st)
      else
        let a := decide (d2 p0 q.start < c.vtxRadius * c.vtxRadius)
        let b := decide (q.hits.length > 1) && decide (d2 p0 q.stop < c.vtxRadius * c.vtxRadius)
        (st.1 + (if a then 1 else 0) + (if b then 1 else 0), if a || b then st.2 ++ [j] else st.2)) (0, [])

/-- The part with most neighbours at its start or end so far: count, index, neighbours, Segmentation2D.cxx:218-287. -/
structure Best where
  n : Nat
  idx : Option Nat
  merge : List Nat
  deriving DecidableEq, Repr

def scan (c : Cfg) (g : List Part) (st : Best × Best) (i : Nat) : Best × Best :=
  match g[i]? with
  | none => st
  | some p =>
    if p.em then st
    else
      let s := if p.ds then
          let r := countNear c g i p.start
          if r.1 > st.1.n then ⟨r.1, some i, r.2⟩ else st.1
        else st.1
      let e := if p.hits.length > 1 ∧ p.de = true then
          let r := countNear c g i p.stop
          if r.1 > st.2.n then ⟨r.1, some i, r.2⟩ else st.2
        else st.2
      (s, e)

/-- Merging the tagged parts behind part `k`, Segmentation2D.cxx:321-329. -/
def absorb : Part → List Part → Part × List Part
  | pk, [] => (pk, [])
  | pk, p :: l =>
    if p.tag then absorb ⟨pk.hits ++ p.hits, pk.tag, pk.ds, pk.de, pk.em⟩ l
    else let r := absorb pk l; (r.1, p :: r.2)

/-- Tags for the parts to merge, Segmentation2D.cxx:312-319. -/
def setTags (g : List Part) (idxs : List Nat) : List Part := idxs.foldl (fun g i => g.modify i fun p => { p with tag := true }) g

/-- `mergeClusters` for indices within the group, with the mark of the merged part, Segmentation2D.cxx:307-333, 299: fewer than two indices give part 0. -/
def mergeParts (g : List Part) (idxs : List Nat) : List Part :=
  match idxs with
  | [] => g.modify 0 fun p => { p with em := true }
  | [_] => g.modify 0 fun p => { p with em := true }
  | k :: _ =>
    let g1 := setTags g idxs
    match g1[k]? with
    | none => g1
    | some pk =>
      let r := absorb pk (g1.drop (k + 1))
      g1.take k ++ [⟨r.1.hits, false, r.1.ds, r.1.de, true⟩] ++ r.2

/-- The choice of what to merge, Segmentation2D.cxx:289-296: the larger index wins. -/
def choose (st : Best × Best) : Option (List Nat) :=
  match st.1.idx, st.2.idx with
  | none, none => none
  | some i, none => some (st.1.merge ++ [i])
  | none, some j => some (st.2.merge ++ [j])
  | some i, some j => if j > i then some (st.2.merge ++ [j]) else some (st.1.merge ++ [i])

/-- `mergeDenseParts`, Segmentation2D.cxx:211-304; nothing if the steps do not suffice. -/
def mergeDense (c : Cfg) : Nat → List Part → Option (List Part)
  | 0, g => if choose ((List.range g.length).foldl (scan c g) (⟨c.minVtx, none, []⟩, ⟨c.minVtx, none, []⟩)) = none then some g else none
  | n + 1, g =>
    match choose ((List.range g.length).foldl (scan c g) (⟨c.minVtx, none, []⟩, ⟨c.minVtx, none, []⟩)) with
    | none => some g
    | some idxs => mergeDense c n (mergeParts g idxs)

/-- `run`, Segmentation2D.cxx:28-48: the hits left and the parts. -/
def run (c : Cfg) (inp : List Hit) : Option (List Hit × List Part) :=
  match outer c inp.length inp [] with
  | none => none
  | some (left, segs) =>
    let g := tagDense c (segs.map fun s => ⟨s, false, false, false, false⟩)
    (mergeDense c g.length g).map fun g => (left, g)

/-- `splitHits`, Segmentation2D.cxx:336-356: hits of tracks and of showers. -/
def splitHits (g : List Part) : List Hit × List Hit :=
  g.foldl (fun st p => if p.hits = [] then st else if p.em then (st.1, st.2 ++ p.hits) else (st.1 ++ p.hits, st.2)) ([], [])

/-- `splitHitsNaive`, Segmentation2D.cxx:359-381 (one cluster); for several clusters (384-414) the hits of all are taken together. -/
def splitNaive (c : Cfg) (l : List Hit) : List Hit × List Hit :=
  l.foldl (fun st h =>
    let n := l.foldl (fun n k => if h.id = k.id then n else if d2 h.pt k.pt < c.hitRadius * c.hitRadius then n + 1 else n) 0
    if n > c.minHits then (st.1, st.2 ++ [h]) else (st.1 ++ [h], st.2)) ([], [])

end Verif.Seg2D

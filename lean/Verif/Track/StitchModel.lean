import Verif.Basic
import Mathlib.Algebra.Order.Field.Rat
import Mathlib.Data.List.Basic
/-!
# C148-C151: `trkf::StitchAlg`

Source: `/repo/larreco/RecoAlg/StitchAlg.cxx`, driven by `/repo/larreco/TrackFinder/TrackStitcher_module.cc:135-144`. Coordinates are rational;
distances are compared through their squares (`SepTol` is non-negative). The cosine kept in each tuple is never read and is left out.
A track is known by its number in the input. A stitched track is modelled by the components it is made of, in order, each with
`true` when its points are taken in reverse (`FirstStitch`, lines 259-332); covariances, momenta and the track number are left out.
-/
namespace Verif.Stitch

/-- a space vector -/
structure V3 where
  x : ℚ
  y : ℚ
  z : ℚ
deriving DecidableEq, Repr

/-- `a.Dot(b)` -/
def V3.dot (a b : V3) : ℚ := a.x * b.x + a.y * b.y + a.z * b.z
/-- `(a - b).Mag2()` -/
def dist2 (a b : V3) : ℚ := (a.x - b.x) ^ 2 + (a.y - b.y) ^ 2 + (a.z - b.z) ^ 2

/-- `Vertex`, `End`, `VertexDirection`, `EndDirection` of a track, StitchAlg.cxx:62-65 -/
structure Trk where
  start : V3
  stop : V3
  startDir : V3
  stopDir : V3
deriving DecidableEq, Repr

/-- `CosAngTolerance`, `SpptSepTolerance`, StitchAlg.cxx:36-41 -/
structure Cfg where
  cos : ℚ
  sep : ℚ

/-- the strings "NA", "H", "T" -/
inductive Lab | NA | H | T
deriving DecidableEq, Repr

/-- an element of `fh` or `ft`: the end of the other track, its number (`none` for -12) and the separation squared, StitchAlg.cxx:67, 142-150, 213, 246 -/
structure Link where
  lab : Lab
  tgt : Option Nat
  sep2 : ℚ
deriving DecidableEq, Repr

/-- StitchAlg.cxx:213, 233, 246 -/
def noLink : Link := ⟨.NA, none, 0⟩

/-- directions aligned and points close, StitchAlg.cxx:86-92 -/
def matchEnds (c : Cfg) (d1 d2 p1 p2 : V3) : Bool := decide (c.cos < |d1.dot d2|) && decide (dist2 p1 p2 < c.sep ^ 2)

/-- StitchAlg.cxx:86 -/
def c12 (c : Cfg) (a b : Trk) : Bool := matchEnds c a.startDir b.stopDir a.start b.stop
/-- StitchAlg.cxx:88 -/
def c21 (c : Cfg) (a b : Trk) : Bool := matchEnds c a.stopDir b.startDir b.start a.stop
/-- StitchAlg.cxx:90 -/
def c11 (c : Cfg) (a b : Trk) : Bool := matchEnds c a.startDir b.startDir a.start b.start
/-- StitchAlg.cxx:92 -/
def c22 (c : Cfg) (a b : Trk) : Bool := matchEnds c a.stopDir b.stopDir a.stop b.stop

/-- the variables of the inner loop: `head`, `tail`, `matchhead`, `matchtail` (one pair of separations each once the loop body is done),
`headvv`, `tailvv`, StitchAlg.cxx:67-75, and the tables `fh`, `ft` -/
structure In where
  head : Bool
  tail : Bool
  mh : Option (ℚ × ℚ)
  mt : Option (ℚ × ℚ)
  hv : List Link
  tv : List Link
  fh : List Link
  ft : List Link
deriving Repr

/-- `sHT2`, StitchAlg.cxx:96-106 -/
def sHT2 (c : Cfg) (a b : Trk) : Lab :=
  if c21 c a b then .H else if c22 c a b then .T else if c11 c a b then .H else if c12 c a b then .T else .NA

/-- the tie split by distance, StitchAlg.cxx:112-115 -/
def tieHead (a b : Trk) : Bool :=
  decide (dist2 a.start b.stop < dist2 b.start a.stop) || decide (dist2 a.start b.stop < dist2 b.start b.stop) ||
  decide (dist2 a.start b.start < dist2 b.start a.stop) || decide (dist2 a.start b.start < dist2 b.start b.stop)

/-- the new candidate against the one kept: is it taken? StitchAlg.cxx:133-138, 167-172 -/
def better (old : Option (ℚ × ℚ)) (new : ℚ × ℚ) : Bool :=
  match old with
  | none => true
  | some o => decide (new.1 < o.1) || decide (new.2 < o.2)

/-- `headvv.erase(begin)` when longer than one, then `push_back`, StitchAlg.cxx:140-150, 174-184 -/
def pushLink (l : List Link) (x : Link) : List Link := (if 1 < l.length then l.drop 1 else l) ++ [x]

/-- the match of track `b` (number `jj`) with track `a`, StitchAlg.cxx:94-198 -/
def tryPair (c : Cfg) (a b : Trk) (jj : Nat) (s : In) : In :=
  if c12 c a b || c21 c a b || c11 c a b || c22 c a b then
    let h0 := s.head || c12 c a b || c11 c a b
    let t0 := s.tail || c21 c a b || c22 c a b
    let h := if h0 && t0 then tieHead a b else h0
    let t := if h0 && t0 then !tieHead a b else t0
    let lab := sHT2 c a b
    if h then
      let n := (dist2 a.start b.start, dist2 a.start b.stop)
      if better s.mh n then
        { s with head := h, tail := t, mh := some n, hv := pushLink s.hv ⟨lab, some jj, if lab = .H then n.1 else n.2⟩ }
      else { s with head := h, tail := t }
    else if t then
      let n := (dist2 b.start a.stop, dist2 a.stop b.stop)
      if better s.mt n then
        { s with head := h, tail := t, mt := some n, tv := pushLink s.tv ⟨lab, some jj, if lab = .T then n.1 else n.2⟩ }
      else { s with head := h, tail := t }
    else { s with head := h, tail := t }
  else s

/-- the candidate `b` against the links of the earlier tracks, StitchAlg.cxx:206-221: the table after it and whether the candidate is dropped -/
def resolve (b : Link) : List Link → List Link × Bool
  | [] => ([], false)
  | l :: r =>
    if l.tgt = b.tgt ∧ l.lab = b.lab then
      if b.sep2 < l.sep2 ∧ b.sep2 ≠ 0 then (noLink :: (resolve b r).1, (resolve b r).2)
      else if b.sep2 ≠ 0 then (l :: r, true)
      else (l :: (resolve b r).1, (resolve b r).2)
    else (l :: (resolve b r).1, (resolve b r).2)

/-- StitchAlg.cxx:202-222 (and 223-242 with the tails) -/
def settle (vv tab : List Link) : List Link × List Link :=
  match vv.getLast? with
  | none => (vv, tab)
  | some b => (if (resolve b tab).2 then vv.dropLast else vv, (resolve b tab).1)

/-- one turn of the inner loop, StitchAlg.cxx:77-244 -/
def inner (c : Cfg) (trks : List Trk) (a : Trk) (s : In) (jj : Nat) : In :=
  match trks[jj]? with
  | none => s
  | some b =>
    let s := tryPair c a b jj s
    let h := settle s.hv s.fh
    let t := settle s.tv s.ft
    { s with hv := h.1, fh := h.2, tv := t.1, ft := t.2 }

/-- one turn of the outer loop, StitchAlg.cxx:59-254 -/
def outer (c : Cfg) (trks : List Trk) (tab : List Link × List Link) (ii : Nat) : List Link × List Link :=
  match trks[ii]? with
  | none => tab
  | some a =>
    let s := (List.range' (ii + 1) (trks.length - (ii + 1))).foldl (inner c trks a) ⟨false, false, none, none, [], [], tab.1, tab.2⟩
    (s.fh ++ [s.hv.getLast?.getD noLink], s.ft ++ [s.tv.getLast?.getD noLink])

/-- `FindHeadsAndTails`, StitchAlg.cxx:43-257: the tables `fh` and `ft` -/
def findLinks (c : Cfg) (trks : List Trk) : List Link × List Link :=
  (List.range trks.length).foldl (outer c trks) ([], [])

/-! ## WalkStitch -/

/-- the variables of a walk, StitchAlg.cxx:353-358: the links are two-letter strings, here pairs of labels -/
structure W where
  walk : Nat
  sh : Lab
  st : Lab
  comp : List Nat
  ht : List (Lab × Lab)
  done : List Nat
deriving Repr

/-- `fh.at(walk)` -/
def at' (tab : List Link) (i : Nat) : Link := tab.getD i noLink

/-- one turn of the walk, StitchAlg.cxx:357-388 (`front = false`) and 396-427 (`front = true`) -/
def turn (front : Bool) (fh ft : List Link) (ii : Nat) (w : W) : W :=
  let sh := if w.walk ≠ ii then (at' fh w.walk).lab else w.sh
  let st := if w.walk ≠ ii then (at' ft w.walk).lab else w.st
  let hInd := if sh ≠ .NA then (at' fh w.walk).tgt else none
  let tInd := if st ≠ .NA then (at' ft w.walk).tgt else none
  let hs := hInd.toList
  let ts := tInd.toList
  let comp := if front then ts ++ (hs ++ w.comp) else w.comp ++ hs ++ ts
  let ht := if front then ts.map (fun _ => (st, Lab.T)) ++ (hs.map (fun _ => (sh, Lab.H)) ++ w.ht)
    else w.ht ++ hs.map (fun _ => (Lab.H, sh)) ++ ts.map (fun _ => (Lab.T, st))
  let walk := tInd.getD (hInd.getD w.walk)
  ⟨walk, sh, st, comp, ht, walk :: w.done⟩

/-- `while (chain)`: ends after a turn with both strings "NA"; `none` when the turns run out -/
def walkLoop (front : Bool) (fh ft : List Link) (ii : Nat) : Nat → W → Option W
  | 0, _ => none
  | n + 1, w =>
    let w' := turn front fh ft ii w
    if w'.sh = .NA ∧ w'.st = .NA then some w' else walkLoop front fh ft ii n w'

/-- one turn of the removal of repeated components, StitchAlg.cxx:433-446 -/
def dedupStep (s : List Nat × List (Lab × Lab)) (p : Nat) : List Nat × List (Lab × Lab) :=
  match s.1[p]? with
  | none => s
  | some t =>
    match (s.1.drop (p + 1)).idxOf? t with
    | none => s
    | some k => (s.1.eraseIdx (p + 1 + k), s.2.eraseIdx k)

/-- StitchAlg.cxx:433-446 -/
def dedup (s : List Nat × List (Lab × Lab)) : List Nat × List (Lab × Lab) := (List.range s.1.length).foldl dedupStep s

/-- `FirstStitch`, StitchAlg.cxx:280-296: each component with `true` when its points are taken from the last to the first -/
def firstStitch (comp : List Nat) (ht : List (Lab × Lab)) : List (Nat × Bool) :=
  comp.mapIdx (fun i t => (t, if ht.length = 0 then false
    else if i = 0 then decide ((ht.getD 0 (.NA, .NA)).1 = .H) else decide ((ht.getD (i - 1) (.NA, .NA)).2 = .T)))

/-- `fTrackComposite`, `fHT`, `fTrackVec` -/
structure Out where
  comps : List (List Nat)
  hts : List (List (Lab × Lab))
  vec : List (List (Nat × Bool))
deriving DecidableEq, Repr

/-- one turn of the loop of `WalkStitch`, StitchAlg.cxx:341-465; `none` when a walk does not end within `fuel` turns -/
def walkOne (fuel : Nat) (fh ft : List Link) (s : Out × List Nat) (ii : Nat) : Option (Out × List Nat) :=
  if ii ∈ s.2 then some s
  else do
    let w1 ← walkLoop false fh ft ii fuel ⟨ii, (at' fh ii).lab, .NA, [ii], [], s.2⟩
    let w2 ← walkLoop true fh ft ii fuel ⟨ii, .NA, (at' ft ii).lab, w1.comp, w1.ht, w1.done⟩
    let d := dedup (w2.comp, w2.ht)
    pure (⟨s.1.comps ++ [d.1], s.1.hts ++ [d.2], s.1.vec ++ [firstStitch d.1 d.2]⟩, w2.done)

/-- `WalkStitch`, StitchAlg.cxx:334-466 -/
def walkStitch (fuel : Nat) (fh ft : List Link) : Option (Out × List Nat) :=
  (List.range fh.length).foldlM (walkOne fuel fh ft) (⟨[], [], []⟩, [])

/-! ## CommonComponentStitch -/

/-- the first pair of composites with a common component, in the order of the four loops, StitchAlg.cxx:479-504: positions of the composites and
of the component in each -/
def findCommon (comps : List (List Nat)) : Option (Nat × Nat × Nat × Nat) :=
  (List.range comps.length).findSome? (fun i => (List.range' (i + 1) (comps.length - (i + 1))).findSome? (fun j =>
    (List.range (comps.getD i []).length).findSome? (fun a => (List.range (comps.getD j []).length).findSome? (fun b =>
      if (comps.getD i [])[a]? = (comps.getD j [])[b]? then some (i, j, a, b) else none))))

/-- `CommonComponentStitch`, StitchAlg.cxx:472-562: `none` when there is no common component -/
def commonStitch (o : Out) : Option Out :=
  match findCommon o.comps with
  | none => none
  | some (i, j, a, b) =>
    let ci := (o.comps.getD i []).eraseIdx a
    let cj := o.comps.getD j []
    let hi := o.hts.getD i []
    let hj := o.hts.getD j []
    let cj' := if b = 0 then ci ++ cj else if b = cj.length - 1 then cj ++ ci else cj
    let hj' := if b = 0 then hi.take ci.length ++ hj else if b = cj.length - 1 then hj ++ hi.take ci.length else hj
    some ⟨(o.comps.set j cj').eraseIdx i, (o.hts.set j hj').eraseIdx i,
      (((o.vec.eraseIdx j).insertIdx j (firstStitch cj' hj'))).eraseIdx i⟩

/-- the loop of the producer, TrackStitcher_module.cc:141-144: `none` when it does not end within `fuel` turns -/
def commonLoop : Nat → Out → Option Out
  | 0, _ => none
  | n + 1, o =>
    match commonStitch o with
    | none => some o
    | some o' => commonLoop n o'

/-- the producer, TrackStitcher_module.cc:136-144, with `fStizatch` set -/
def run (fuel : Nat) (c : Cfg) (trks : List Trk) : Option Out := do
  let w ← walkStitch fuel (findLinks c trks).1 (findLinks c trks).2
  commonLoop fuel w.1

end Verif.Stitch

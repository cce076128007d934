import Mathlib.Algebra.Order.Field.Rat
import Mathlib.Data.List.Sort
import Mathlib.Data.List.Dedup

/-!
Model of `apa::DisambigAlg`, larreco/RecoAlg/DisambigAlg.cxx:53-743: the disambiguation of the hits
of the wrapped induction planes.  A wrapped channel is connected to several wires; the algorithm
chooses one wire for each induction hit.

Simplifications, all of the file: times and lengths are rationals; the geometry services
(`ChannelToWire`, `PlaneWireToChannel`, `FirstChannelInView`, `ChannelToAPA`, `NearestChannel`,
`WireIDsIntersect`, `ThreeChanPos`, `APAChannelsIntersect`, `NearestWireIDOnChan`) are the fields of
`Geo`, arbitrary functions; the noise filter through the back tracker (lines 83-90) is taken to have
been applied to the input; the views are U, V and Z; the efficiency counters of
`AssessDisambigSoFar` are only logged and are left out.
-/

namespace Verif.Disambig

/-- `geo::View_t`: the three views the file knows. -/
inductive View
  | U | V | Z
deriving DecidableEq, Repr

/-- The fields of `geo::WireID` the file reads: validity, TPC, plane and wire. -/
structure Wid where
  valid : Bool
  tpc : Nat
  plane : Nat
  wire : Nat
deriving DecidableEq, Repr

/-- The fields of `recob::Hit` the file reads.  `idx` is the identity of the `art::Ptr`; `st`, `et`
are `PeakTimeMinusRMS()` and `PeakTimePlusRMS()`; `tpc` is `WireID().TPC`, read for Z hits only. -/
structure Hit where
  idx : Nat
  chan : Nat
  time : ℚ
  st : ℚ
  et : ℚ
  view : View
  tpc : Nat
deriving DecidableEq, Repr

/-- A crossing point in the (y, z) plane with its TPC (`geo::WireIDIntersection`). -/
structure Pt where
  y : ℚ
  z : ℚ
  tpc : Nat
deriving DecidableEq, Repr

/-- The geometry and detector services the file calls. -/
structure Geo where
  /-- `ChannelToWire` -/
  wires : Nat → List Wid
  /-- `PlaneWireToChannel` -/
  chanOf : Wid → Nat
  /-- `View(chan)` -/
  viewOf : Nat → View
  /-- `FirstChannelInView(view, chan)` -/
  first : View → Nat → Nat
  /-- `ChannelsInView(view)` -/
  perView : View → Nat
  /-- `ChannelToAPA` -/
  apaOf : Nat → Nat
  /-- `NearestChannel` of the start of a wire, at the centre of the TPC on the side of the wire,
  on the collection plane (apa, wire) -/
  zmin : Nat → Wid → Nat
  /-- the same for the end of the wire -/
  zmax : Nat → Wid → Nat
  /-- `WireIDsIntersect` -/
  cross : Wid → Wid → Bool
  /-- `ThreeChanPos(u, v, z)` -/
  threePos : Nat → Nat → Nat → Pt
  /-- `APAChannelsIntersect` -/
  inter : Nat → Nat → List Pt
  /-- `NearestWireIDOnChan(point, chan, plane of tpc)` -/
  nearest : Pt → Nat → Nat → Nat → Wid
  /-- `TimeOffsetU/V/Z` -/
  offU : ℚ
  offV : ℚ
  offZ : ℚ

/-- The disambiguation status: `fAPAToDHits`, `fHasBeenDisambiged` and `fChanTimeToWid`
(DisambigAlg.h, cleared in DisambigAlg.cxx:57-72).  The keys are (channel, peak time). -/
structure St where
  out : Nat → List (Hit × Wid)
  done : Nat → Nat × ℚ → Bool
  wid : Nat × ℚ → Option Wid

/-- The status after DisambigAlg.cxx:57-76 and 100-101: nothing decided. -/
def St.init : St := ⟨fun _ => [], fun _ _ => false, fun _ => none⟩

/-- `ChanTime`, DisambigAlg.cxx:100, 173, 347, 373. -/
def key (h : Hit) : Nat × ℚ := (h.chan, h.time)

/-- `MakeDisambigHit`, DisambigAlg.cxx:169-186. -/
def makeHit (h : Hit) (w : Wid) (apa : Nat) (s : St) : St :=
  if s.done apa (key h) then s
  else if !w.valid then s
  else
    { out := fun a => if a = apa then s.out a ++ [(h, w)] else s.out a
      done := fun a k => if a = apa ∧ k = key h then true else s.done a k
      wid := fun k => if k = key h then some w else s.wid k }

/-- `HitsOverlapInTime`, DisambigAlg.cxx:190-229: the shift of the first window, lines 202-213. -/
def offset (g : Geo) : View → ℚ
  | .U => g.offU
  | .V => g.offV
  | .Z => g.offZ

/-- `HitsOverlapInTime`, DisambigAlg.cxx:190-229.  Line 216 adds the offset to the start of the
second window; lines 223-226 shift the first hit a second time if the *first* hit is on Z and the
second is on neither U nor V. -/
def overlap (g : Geo) (a b : Hit) : Bool :=
  let as0 := a.st - offset g a.view
  let ae0 := a.et - offset g a.view
  let bs := match b.view with | .U => b.st + g.offU | .V => b.st - g.offV | .Z => b.st
  let be := match b.view with | .U => b.et - g.offU | .V => b.et - g.offV | .Z => b.et
  let twice := b.view = .Z ∧ a.view = .Z
  let as := if twice then as0 - g.offZ else as0
  let ae := if twice then ae0 - g.offZ else ae0
  decide ((as ≤ bs ∧ bs ≤ ae) ∨ (as ≤ be ∧ be ≤ ae) ∨ (bs ≤ as ∧ as ≤ be) ∨ (bs ≤ ae ∧ ae ≤ be))

/-- DisambigAlg.cxx:243-278: the wire `w` is reasonable for the hit: some Z hit strictly between the
two collection channels of the wire ends overlaps the hit in time. -/
def reasonable (g : Geo) (zs : List Hit) (apa : Nat) (h : Hit) (w : Wid) : Bool :=
  zs.any fun z => decide (¬(z.chan ≤ g.zmin apa w ∨ g.zmax apa w ≤ z.chan)) && overlap g h z

/-- The body of the loop of `TrivialDisambig`, DisambigAlg.cxx:238-303, for one hit. -/
def trivialHit (g : Geo) (zs : List Hit) (apa : Nat) (s : St) (h : Hit) : St :=
  let good := (g.wires h.chan).filter (reasonable g zs apa h)
  if good.length = 1 then good.foldl (fun s w => makeHit h w apa s) s else s

/-- `TrivialDisambig`, DisambigAlg.cxx:233-305. -/
def trivial (g : Geo) (zs : List Hit) (apa : Nat) (uv : List Hit) (s : St) : St :=
  uv.foldl (trivialHit g zs apa) s

/-- The wrapped neighbour channel, DisambigAlg.cxx:322-327. -/
def closeChan (g : Geo) (ext : ℤ) (dchan : Nat) : ℤ :=
  let view := g.viewOf dchan
  let first : ℤ := g.first view dchan
  let n : ℤ := g.perView view
  let t : ℤ := dchan + ext
  let t := if t < first then t + n else t
  if t > first + n - 1 then t - n else t

/-- DisambigAlg.cxx:340: an end of the window of the hit lies in `[lo, hi]`. -/
def touches (lo hi : ℚ) (h : Hit) : Bool :=
  decide ((lo ≤ h.st ∧ h.st ≤ hi) ∨ (lo ≤ h.et ∧ h.et ≤ hi))

/-- DisambigAlg.cxx:344-355: the first wire of the channel in the same TPC at distance `ext`. -/
def neighbour (g : Geo) (ext : ℤ) (dw : Wid) (chan : Nat) : Option Wid :=
  (g.wires chan).find? fun w => w.tpc = dw.tpc ∧ (w.wire : ℤ) - dw.wire = ext

/-- The body of the loop of `MakeCloseHits` over the hits of the channel,
DisambigAlg.cxx:334-357; the second component is `MakeCount`. -/
def closeStep (g : Geo) (ext : ℤ) (dw : Wid) (lo hi : ℚ) (chan : Nat) (p : St × Nat) (h : Hit) :
    St × Nat :=
  if touches lo hi h then
    match neighbour g ext dw chan with
    | none => p
    | some w =>
      if p.1.done (g.apaOf chan) (key h) then p
      else (makeHit h w (g.apaOf chan) p.1, p.2 + 1)
  else p

/-- `MakeCloseHits`, DisambigAlg.cxx:309-360.  `uv` are all the U and V hits; `fChannelToHits[chan]`
are those on the channel.  The exception of line 318 is `closeThrows`. -/
def closeHits (g : Geo) (uv : List Hit) (ext : ℤ) (dw : Wid) (lo hi : ℚ) (s : St) : St × Nat :=
  let c := closeChan g ext (g.chanOf dw)
  (uv.filter fun h => (h.chan : ℤ) = c).foldl (closeStep g ext dw lo hi c.toNat) (s, 0)

/-- The exception of `MakeCloseHits`, DisambigAlg.cxx:316-319. -/
def closeThrows (g : Geo) (dw : Wid) : Bool := decide (g.viewOf (g.chanOf dw) = .Z)

/-- One jump of `Crawl`, DisambigAlg.cxx:386-392: the two sides at distance `ext`. -/
def jump (g : Geo) (uv : List Hit) (h : Hit) (dw : Wid) (p : St × Nat) (ext : Nat) : St × Nat :=
  let t := (h.et - h.st) * ext
  let a := closeHits g uv (-ext) dw (h.st - 5 - t) (h.et + 5 + t) p.1
  let b := closeHits g uv ext dw (h.st - 5 - t) (h.et + 5 + t) a.1
  (b.1, p.2 + a.2 + b.2)

/-- The body of the loop of `Crawl` over the hits, DisambigAlg.cxx:372-396.  A decided hit always
has a wire (`wid_of_done`); the default-constructed `WireID` of `operator[]` is the `none` case. -/
def crawlHit (g : Geo) (uv : List Hit) (jumps : Nat) (apa : Nat) (p : St × Nat) (h : Hit) : St × Nat :=
  if p.1.done apa (key h) then
    match p.1.wid (key h) with
    | none => p
    | some dw => (List.range jumps).foldl (fun p e => jump g uv h dw p (e + 1)) p
  else p

/-- One pass of the `while` of `Crawl`, DisambigAlg.cxx:369-398. -/
def crawlPass (g : Geo) (uv : List Hit) (jumps apa : Nat) (s : St) : St × Nat :=
  (uv.filter fun h => g.apaOf h.chan = apa).foldl (crawlHit g uv jumps apa) (s, 0)

/-- `Crawl`, DisambigAlg.cxx:364-401, with a bound on the number of passes; `none` if the loop is
still running after them. -/
def crawl (g : Geo) (uv : List Hit) (jumps apa : Nat) : Nat → St → Option St
  | 0, _ => none
  | fuel + 1, s =>
    let r := crawlPass g uv jumps apa s
    if r.2 = 0 then some r.1 else crawl g uv jumps apa fuel r.1

/-- `CompareViews`, DisambigAlg.cxx:700-706: what a decided hit of the other view says of the wires
of the ambiguous one. -/
def dCount (g : Geo) (s : St) (apa : Nat) (others : List Hit) (w : Wid) : Nat :=
  others.countP fun o => s.done apa (key o) &&
    match s.wid (key o) with
    | none => false
    | some v => decide (w.tpc = v.tpc) && g.cross w v

/-- `CompareViews`, DisambigAlg.cxx:707-716: the crossings with the wires of an undecided hit of the
other view. -/
def aCount (g : Geo) (s : St) (apa : Nat) (others : List Hit) (w : Wid) : Nat :=
  ((others.filter fun o => !s.done apa (key o)).map fun o =>
    (g.wires o.chan).countP fun v => decide (w.tpc = v.tpc) && g.cross w v).sum

/-- The hits of the other view that overlap in time, DisambigAlg.cxx:691-692. -/
def otherView (g : Geo) (hits : List Hit) (h : Hit) : List Hit :=
  hits.filter fun o => decide (o.view ≠ h.view) && overlap g h o

/-- The body of the loop of `CompareViews` for one hit, DisambigAlg.cxx:679-733. -/
def compareHit (g : Geo) (hits : List Hit) (apa : Nat) (p : St × Nat) (h : Hit) : St × Nat :=
  if p.1.done apa (key h) then p
  else
    let ws := g.wires h.chan
    let others := otherView g hits h
    let s0 := p.1
    let dTot := (ws.map (dCount g s0 apa others)).sum
    let aTot := (ws.map (aCount g s0 apa others)).sum
    ws.foldl (fun q w =>
      if dTot = dCount g s0 apa others w ∧ 0 < dTot ∧ aTot = 0 then
        (makeHit h w apa q.1, q.2 + 1)
      else q) p

/-- `CompareViews`, DisambigAlg.cxx:672-736. -/
def compareViews (g : Geo) (uv : List Hit) (apa : Nat) (s : St) : St × Nat :=
  let hits := uv.filter fun h => g.apaOf h.chan = apa
  hits.foldl (compareHit g hits apa) (s, 0)

/-- The loop of DisambigAlg.cxx:149-153, with a bound on the passes (and on those of each `Crawl`). -/
def compareLoop (g : Geo) (uv : List Hit) (jumps apa cf : Nat) : Nat → St → Option St
  | 0, _ => none
  | fuel + 1, s =>
    let r := compareViews g uv apa s
    match crawl g uv jumps apa cf r.1 with
    | none => none
    | some s' => if r.2 = 0 then some s' else compareLoop g uv jumps apa cf fuel s'

/-- `UseEndPts`, DisambigAlg.cxx:553-568: the last end point of a view overlapping the Z end point,
and the number of them. -/
def endMatch (g : Geo) (endPts : List Hit) (z : Hit) (v : View) : List Hit :=
  endPts.filter fun h => decide (h.view ≠ .Z) && overlap g z h && decide (h.view = v)

/-- `UseEndPts`, DisambigAlg.cxx:546-612: one Z end point.  The third branch (lines 601-611) has the
condition of the second and is never reached. -/
def useZ (g : Geo) (endPts : List Hit) (apa : Nat) (s : St) (z : Hit) : St :=
  match endMatch g endPts z .U, endMatch g endPts z .V with
  | [u], [v] =>
    let p := g.threePos u.chan v.chan z.chan
    makeHit v (g.nearest p v.chan z.tpc 1) apa (makeHit u (g.nearest p u.chan z.tpc 0) apa s)
  | [u], _ =>
    match g.inter u.chan z.chan with
    | [p] => makeHit u (g.nearest p u.chan z.tpc 0) apa s
    | _ => s
  | _, _ => s

/-- DisambigAlg.cxx:620-622: the plane of an induction end point. -/
def planeOf (h : Hit) : Nat := if h.view = .V then 1 else 0

/-- `UseEndPts`, DisambigAlg.cxx:536-634, without the final `Crawl`. -/
def usePts (g : Geo) (endPts : List Hit) (apa : Nat) (s : St) : St :=
  let zs := endPts.filter fun h => h.view = .Z
  let s := zs.foldl (useZ g endPts apa) s
  match zs, endPts with
  | [], [a, b] =>
    if overlap g a b then
      match g.inter a.chan b.chan with
      | [p] =>
        makeHit b (g.nearest p b.chan p.tpc (planeOf b)) apa
          (makeHit a (g.nearest p a.chan p.tpc (planeOf a)) apa s)
      | _ => s
    else s
  | _, _ => s

/-- `UseEndPts`, DisambigAlg.cxx:532-637. -/
def useEndPts (g : Geo) (uv : List Hit) (endPts : List Hit) (jumps apa cf : Nat) (s : St) : Option St :=
  if endPts = [] then some s else crawl g uv jumps apa cf (usePts g endPts apa s)

/-- The configuration of DisambigAlg.cxx:40-48. -/
structure Cfg where
  doCrawl : Bool
  useEndP : Bool
  doCompare : Bool
  jumps : Nat

/-- The U and V hits of the input, DisambigAlg.cxx:99-104. -/
def uvHits (hits : List Hit) : List Hit := hits.filter fun h => h.view ≠ .Z

/-- `fAPAToZHits[apa]`, DisambigAlg.cxx:95-97. -/
def zHits (g : Geo) (hits : List Hit) (apa : Nat) : List Hit :=
  hits.filter fun h => decide (h.view = .Z) && decide (g.apaOf h.chan = apa)

/-- The stages for one APA, DisambigAlg.cxx:118-158.  `endPts` is the end-point finder
(`FindChanTimeEndPts`), an argument here. -/
def runApa (g : Geo) (c : Cfg) (endPts : Nat → List Hit) (hits : List Hit) (fuel apa : Nat) (s : St) :
    Option St :=
  let uv := uvHits hits
  let s := trivial g (zHits g hits apa) apa (uv.filter fun h => g.apaOf h.chan = apa) s
  (if c.doCrawl then crawl g uv c.jumps apa fuel s else some s).bind fun s =>
  (if c.useEndP then useEndPts g uv (endPts apa) c.jumps apa fuel s else some s).bind fun s =>
  if c.doCompare then compareLoop g uv c.jumps apa fuel fuel s else some s

/-- The APAs with U or V hits in the order of the map, DisambigAlg.cxx:115-116. -/
def apas (g : Geo) (hits : List Hit) : List Nat :=
  ((uvHits hits).map fun h => g.apaOf h.chan).dedup.insertionSort (· ≤ ·)

/-- The loop over the APAs, DisambigAlg.cxx:115-164: the status and `fDisambigHits`. -/
def runLoop (g : Geo) (c : Cfg) (endPts : Nat → List Hit) (hits : List Hit) (fuel : Nat) :
    List Nat → St → List (Hit × Wid) → Option (List (Hit × Wid))
  | [], _, acc => some acc
  | a :: as, s, acc =>
    match runApa g c endPts hits fuel a s with
    | none => none
    | some s' => runLoop g c endPts hits fuel as s' (acc ++ s'.out a)

/-- `RunDisambig`, DisambigAlg.cxx:53-165: the list of disambiguated hits, `none` if a loop has not
ended after `fuel` passes. -/
def run (g : Geo) (c : Cfg) (endPts : Nat → List Hit) (hits : List Hit) (fuel : Nat) :
    Option (List (Hit × Wid)) :=
  runLoop g c endPts hits fuel (apas g hits) St.init []

/-! ### The end-point finder -/

/-- `FindChanTimeEndPts`, DisambigAlg.cxx:458-459: the channel distance with its wrap, which only the
positive side takes. -/
def chanDist (range close cent : ℚ) : ℚ :=
  let d := close - cent
  if d > range / 2 then range - d else d

/-- `FindChanTimeEndPts`, DisambigAlg.cxx:474-486: the smallest and largest angle, from the initial
values `2π + 1` and `0`. -/
def angleRange (pi : ℚ) (as : List ℚ) : ℚ × ℚ :=
  as.foldl (fun p a => (if a < p.1 then a else p.1, if a > p.2 then a else p.2)) (2 * pi + 1, 0)

/-- `FindChanTimeEndPts`, DisambigAlg.cxx:495-496: the reflection across the vertical. -/
def reflect (pi a : ℚ) : ℚ :=
  let a := if a > 0 then pi - a else a
  if a < 0 then -pi - a else a

/-- `FindChanTimeEndPts`, DisambigAlg.cxx:471-502: the decision for one hit from the angles of its
close neighbours; `r` is `fMaxEndPRadRange`. -/
def isEndPoint (pi r : ℚ) (as : List ℚ) : Bool :=
  if as.length < 5 then false
  else
    let near := as.any fun a => decide (a + r > pi)
    let far := as.any fun a => decide (¬ a + r > pi ∧ a - r < -pi)
    let p := angleRange pi as
    let p := if near && far then
        (as.map (reflect pi)).foldl
          (fun p a => (if a < p.1 then a else p.1, if a > p.2 then a else p.2)) p
      else p
    decide (p.2 - p.1 < r)

end Verif.Disambig

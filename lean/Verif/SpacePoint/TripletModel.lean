import Verif.Basic
import Mathlib.Algebra.Order.Field.Rat
import Mathlib.Algebra.Order.Group.Abs
/-!
# Model of `TripletFinder`

Source: `/repo/larreco/SpacePointSolver/TripletFinder.{h,cxx}`. `double` is modelled by exact rationals; pointers to hits are
numbers (0 = null) and compare as such; the heap is a function from addresses to hits. The readout geometry is a parameter.
`std::sort` is any function that permutes its argument into sorted order. Not modelled: printing, overflow of the counter.
-/
namespace Verif.Triplet
open Verif

/-- a point on the wire planes (`geo::WireIDIntersection`: y, z) -/
abbrev Pt := ℚ × ℚ

/-- `recob::Hit`: channel and peak time -/
structure Hit where
  chan : Nat
  time : ℚ

/-- `HitOrChan`, TripletFinder.h:24-31 -/
structure HC where
  chan : Nat
  hit : Nat
  xpos : ℚ
deriving DecidableEq

/-- constructor from a bad channel, TripletFinder.h:25 -/
def HC.bad (c : Nat) : HC := ⟨c, 0, 0⟩

/-- `ChannelDoublet`, TripletFinder.h:33-38 -/
structure Doublet where
  a : HC
  b : HC
  pt : Pt
deriving DecidableEq

/-- `HitTriplet`, TripletFinder.h:44-47 -/
structure Trip where
  x : Nat
  u : Nat
  v : Nat
  px : ℚ
  pt : Pt
deriving DecidableEq

/-- `std::sort` with a comparison -/
structure Sorter {α : Type} (less : α → α → Bool) where
  run : List α → List α
  perm : ∀ l, (run l).Perm l
  sorted : ∀ l, (run l).Pairwise (fun a b => less b a = false)

/-! ## Intersection cache -/

/-- `fPtMap`, TripletFinder.cxx:108 -/
abbrev Cache := List ((Nat × Nat) × Option Pt)

/-- `IntersectionCache::operator()`, TripletFinder.cxx:79-87; `isect` is `ISect` -/
def cacheGet (isect : Nat → Nat → Option Pt) (a b : Nat) (c : Cache) : Option Pt × Cache :=
  match c.lookup (a, b) with
  | some r => (r, c)
  | none => (isect a b, ((a, b), isect a b) :: c)

/-- the readout geometry: TPCs of a channel (`ROPtoTPCs(ChannelToROP(..))`), its wires, the TPC of a wire, whether it is a
collection wire, drift position of a time on a wire, crossing point of two wires -/
structure Geo where
  tpcs : Nat → List Nat
  wires : Nat → List Nat
  wireTPC : Nat → Nat
  coll : Nat → Bool
  toX : ℚ → Nat → ℚ
  inter : Nat → Nat → Option Pt

/-- inner loop of `ISect`, TripletFinder.cxx:95-99 -/
def isectInner (g : Geo) (tpc aw : Nat) : List Nat → Option Pt
  | [] => none
  | bw :: bs =>
    if g.wireTPC bw ≠ tpc then isectInner g tpc aw bs
    else match g.inter aw bw with
      | some p => some p
      | none => isectInner g tpc aw bs

/-- outer loop of `ISect`, TripletFinder.cxx:93-100 -/
def isectOuter (g : Geo) (tpc : Nat) (bws : List Nat) : List Nat → Option Pt
  | [] => none
  | aw :: as =>
    if g.wireTPC aw ≠ tpc then isectOuter g tpc bws as
    else match isectInner g tpc aw bws with
      | some p => some p
      | none => isectOuter g tpc bws as

/-- `ISect`, TripletFinder.cxx:90-103 -/
def isect (g : Geo) (tpc a b : Nat) : Option Pt := isectOuter g tpc (g.wires b) (g.wires a)

/-! ## Doublets -/

/-- `CloseDrift`, TripletFinder.cxx:114-117 -/
def closeDrift (thr xa xb : ℚ) : Bool := decide (|xa - xb| < thr)

/-- loop over the bad channels, TripletFinder.cxx:303-305 -/
def badLoop (is : Nat → Nat → Option Pt) (a : HC) : List Nat → Cache × List Doublet → Cache × List Doublet
  | [], st => st
  | b :: bs, (c, ret) =>
    match cacheGet is a.chan b c with
    | (some p, c) => badLoop is a bs (c, ret ++ [⟨a, HC.bad b, p⟩])
    | (none, c) => badLoop is a bs (c, ret)

/-- the catch-up loop, TripletFinder.cxx:307-308; iterators are the remaining lists -/
def skipB (thr : ℚ) (a : HC) : List HC → List HC
  | [] => []
  | b :: bs => if decide (b.xpos < a.xpos) && !closeDrift thr b.xpos a.xpos then skipB thr a bs else b :: bs

/-- the loop over `bit`, TripletFinder.cxx:310-319 -/
def scanB (thr : ℚ) (is : Nat → Nat → Option Pt) (a : HC) : List HC → Cache × List Doublet → Cache × List Doublet
  | [], st => st
  | b :: bs, (c, ret) =>
    if decide (a.xpos < b.xpos) && !closeDrift thr b.xpos a.xpos then (c, ret)
    else match cacheGet is a.chan b.chan c with
      | (some p, c) => scanB thr is a bs (c, ret ++ [⟨a, b, p⟩])
      | (none, c) => scanB thr is a bs (c, ret)

/-- the loop over `ahits`, TripletFinder.cxx:301-320 -/
def helperLoop (thr : ℚ) (is : Nat → Nat → Option Pt) (bbads : List Nat) : List HC → List HC → Cache × List Doublet → Cache × List Doublet
  | [], _, st => st
  | a :: as, bbegin, st =>
    let st := badLoop is a bbads st
    let bbegin := skipB thr a bbegin
    helperLoop thr is bbads as bbegin (scanB thr is a bbegin st)

/-- `DoubletHelper`, TripletFinder.cxx:289-323 -/
def doubletHelper (thr : ℚ) (is : Nat → Nat → Option Pt) (ahits bhits : List HC) (bbads : List Nat) : List Doublet :=
  (helperLoop thr is bbads ahits bhits ([], [])).2

/-- `DoubletsXU`, `DoubletsXV`, TripletFinder.cxx:261-286 -/
def doublets (thr : ℚ) (is : Nat → Nat → Option Pt) (xhits bhits : List HC) (xbads bbads : List Nat) : List Doublet :=
  doubletHelper thr is xhits bhits bbads ++ (doubletHelper thr is bhits [] xbads).map (fun d => ⟨d.b, d.a, d.pt⟩)

/-! ## Triplets -/

/-- `CloseSpace`, TripletFinder.cxx:120-126 (`sqrt(s) < t` iff `0 < t` and `s < t²`) -/
def closeSpace (t : ℚ) (p q : Pt) : Bool := decide (0 < t) && decide ((p.1 - q.1) ^ 2 + (p.2 - q.2) ^ 2 < t ^ 2)

/-- `LessThanXHit`, TripletFinder.cxx:128-134 -/
def lessX (p q : Doublet) : Bool :=
  if p.a.hit = 0 ∧ q.a.hit = 0 then decide (p.a.chan < q.a.chan) else decide (p.a.hit < q.a.hit)

/-- `SameXHit`, TripletFinder.cxx:136-140 -/
def sameX (p q : Doublet) : Bool :=
  if p.a.hit = 0 ∧ q.a.hit = 0 then decide (p.a.chan = q.a.chan) else decide (p.a.hit = q.a.hit)

/-- checks before the UV intersection is asked for, TripletFinder.cxx:178-182 -/
def preOK (thr : ℚ) (xu xv : Doublet) : Bool :=
  !(decide (xu.a.hit = 0) && decide (xu.b.hit = 0)) && !(decide (xu.a.hit = 0) && decide (xv.b.hit = 0)) &&
  !(decide (xu.b.hit = 0) && decide (xv.b.hit = 0)) &&
  !(decide (xu.b.hit ≠ 0) && decide (xv.b.hit ≠ 0) && !closeDrift thr xu.b.xpos xv.b.xpos)

/-- `if (h.hit) { xavg += h.xpos; ++nx; }` -/
def accX (h : HC) (p : ℚ × Nat) : ℚ × Nat := if h.hit ≠ 0 then (p.1 + h.xpos, p.2 + 1) else p

/-- the position and the triplet, TripletFinder.cxx:192-211 -/
def mkTrip (xu xv : Doublet) (uv : Pt) : Trip :=
  let p := accX xv.b (accX xu.b (accX xu.a (0, 0)))
  ⟨xu.a.hit, xu.b.hit, xv.b.hit, p.1 / p.2, ((xu.pt.1 + xv.pt.1 + uv.1) / 3, (xu.pt.2 + xv.pt.2 + uv.2) / 3)⟩

/-- the three-way closeness check, TripletFinder.cxx:188-190 -/
def close3 (t : ℚ) (xu xv : Doublet) (uv : Pt) : Bool := closeSpace t xu.pt xv.pt && closeSpace t xu.pt uv && closeSpace t xv.pt uv

structure JoinSt where
  n : Nat
  cache : Cache
  ret : List Trip

/-- `fMaxTriplets > 0 and nxuv > fMaxTriplets`, TripletFinder.cxx:174, 213 -/
def full (max : Int) (n : Nat) : Bool := decide (max > 0) && decide ((n : Int) > max)

/-- the loop over `xvit`, TripletFinder.cxx:173-214; the range condition `SameXHit` is checked first -/
def innerXV (max : Int) (thr t : ℚ) (is : Nat → Nat → Option Pt) (xu : Doublet) : List Doublet → JoinSt → JoinSt
  | [], st => st
  | xv :: rest, st =>
    if sameX xv xu = false then st
    else if full max st.n then st
    else if preOK thr xu xv = false then innerXV max thr t is xu rest st
    else match cacheGet is xu.b.chan xv.b.chan st.cache with
      | (none, c) => innerXV max thr t is xu rest { st with cache := c }
      | (some uv, c) =>
        if close3 t xu xv uv = false then innerXV max thr t is xu rest { st with cache := c }
        else if full max (st.n + 1) then ⟨st.n + 1, c, st.ret ++ [mkTrip xu xv uv]⟩
        else innerXV max thr t is xu rest ⟨st.n + 1, c, st.ret ++ [mkTrip xu xv uv]⟩

/-- the catch-up loop, TripletFinder.cxx:169-170 -/
def skipX (xu : Doublet) : List Doublet → List Doublet
  | [] => []
  | xv :: rest => if lessX xv xu then skipX xu rest else xv :: rest

/-- the loop over `xus`, TripletFinder.cxx:164-215 -/
def joinLoop (max : Int) (thr t : ℚ) (is : Nat → Nat → Option Pt) : List Doublet → List Doublet → JoinSt → JoinSt
  | [], _, st => st
  | xu :: xus, xvs, st =>
    let xvs := skipX xu xvs
    joinLoop max thr t is xus xvs (innerXV max thr t is xu xvs st)

/-- the work of `Triplets` in one TPC, TripletFinder.cxx:150-215 -/
def tripletsTPC (srt : Sorter lessX) (max : Int) (thr t : ℚ) (is : Nat → Nat → Option Pt) (xs us vs : List HC) (xb ub vb : List Nat) : List Trip :=
  (joinLoop max thr t is (srt.run (doublets thr is xs us xb ub)) (srt.run (doublets thr is xs vs xb vb)) ⟨0, [], []⟩).ret

/-! ## Constructor -/

/-- a `std::map` from TPC to a vector, in key order -/
abbrev TMap (α : Type) := List (Nat × List α)

/-- `out[tpc].push_back(v)` -/
def push {α : Type} (k : Nat) (v : α) : TMap α → TMap α
  | [] => [(k, [v])]
  | (k', l) :: m => if k < k' then (k, [v]) :: (k', l) :: m else if k = k' then (k', l ++ [v]) :: m else (k', l) :: push k v m

/-- `m[tpc]` as a value (an absent key gives an empty vector) -/
def get {α : Type} (m : TMap α) (k : Nat) : List α := (m.lookup k).getD []

/-- the loop over the wires of a hit's channel, TripletFinder.cxx:47-52 -/
def hitX (g : Geo) (off time : ℚ) (tpc : Nat) : List Nat → ℚ → ℚ
  | [], x => x
  | w :: ws, x => hitX g off time tpc ws
      (if g.wireTPC w = tpc then (if g.coll w then g.toX time w + off else g.toX time w) else x)

/-- the entry of a hit in one TPC, TripletFinder.cxx:46-54 -/
def entry (g : Geo) (off : ℚ) (mem : Nat → Hit) (h tpc : Nat) : HC :=
  ⟨(mem h).chan, h, hitX g off (mem h).time tpc (g.wires (mem h).chan) 0⟩

/-- the two loops of `FillHitMap`, TripletFinder.cxx:43-56 -/
def fillHits (g : Geo) (off : ℚ) (mem : Nat → Hit) (hits : List Nat) : TMap HC :=
  hits.foldl (fun m h => (g.tpcs (mem h).chan).foldl (fun m tpc => push tpc (entry g off mem h tpc) m) m) []

/-- the comparison of TripletFinder.cxx:58 -/
def lessHC (a b : HC) : Bool := decide (a.xpos < b.xpos)

/-- `FillHitMap`, TripletFinder.cxx:39-59 -/
def fillHitMap (srt : Sorter lessHC) (g : Geo) (off : ℚ) (mem : Nat → Hit) (hits : List Nat) : TMap HC :=
  (fillHits g off mem hits).map (fun e => (e.1, srt.run e.2))

/-- `FillBadMap`, TripletFinder.cxx:62-70 -/
def fillBadMap (g : Geo) (bads : List Nat) : TMap Nat :=
  bads.foldl (fun m c => (g.tpcs c).foldl (fun m tpc => push tpc c m) m) []

/-- everything the constructor is given -/
structure Input where
  geo : Geo
  mem : Nat → Hit
  xhits : List Nat
  uhits : List Nat
  vhits : List Nat
  xbad : List Nat
  ubad : List Nat
  vbad : List Nat
  distThresh : ℚ
  distThreshDrift : ℚ
  xhitOffset : ℚ
  maxTriplets : Int

/-- `Triplets`, TripletFinder.cxx:143-225 -/
def triplets (sh : Sorter lessHC) (sd : Sorter lessX) (i : Input) : List Trip :=
  (fillHitMap sh i.geo i.xhitOffset i.mem i.xhits).flatMap (fun e =>
    tripletsTPC sd i.maxTriplets i.distThreshDrift i.distThresh (isect i.geo e.1) e.2
      (get (fillHitMap sh i.geo i.xhitOffset i.mem i.uhits) e.1) (get (fillHitMap sh i.geo i.xhitOffset i.mem i.vhits) e.1)
      (get (fillBadMap i.geo i.xbad) e.1) (get (fillBadMap i.geo i.ubad) e.1) (get (fillBadMap i.geo i.vbad) e.1))

/-- one triplet of `TripletsTwoView`, TripletFinder.cxx:238-251 -/
def mkTwo (xu : Doublet) : Trip :=
  let p : ℚ × Nat := if xu.b.hit ≠ 0 then (xu.a.xpos + xu.b.xpos, 2) else (xu.a.xpos, 1)
  ⟨xu.a.hit, xu.b.hit, 0, p.1 / p.2, xu.pt⟩

/-- `TripletsTwoView`, TripletFinder.cxx:228-258 -/
def tripletsTwoView (sh : Sorter lessHC) (i : Input) : List Trip :=
  (fillHitMap sh i.geo i.xhitOffset i.mem i.xhits).flatMap (fun e =>
    (doublets i.distThreshDrift (isect i.geo e.1) e.2 (get (fillHitMap sh i.geo i.xhitOffset i.mem i.uhits) e.1)
      (get (fillBadMap i.geo i.xbad) e.1) (get (fillBadMap i.geo i.ubad) e.1)).map mkTwo)

end Verif.Triplet

import Verif.Basic
import Mathlib.Data.List.Sort
import Mathlib.Data.Rat.Floor
import Mathlib.Algebra.Order.Field.Rat
/-!
# Model of `cluster::BlurredClusteringAlg`

Source: `/repo/larreco/RecoAlg/BlurredClusteringAlg.{h,cxx}`.

Charges, times and widths are exact rationals. An image is rectangular: its two sizes and a function from wire bin and tick bin.
`int` does not overflow. Debug output is not modelled. A hit carries the global wire number `GlobalWire` gives it; the geometry
lookup itself (BlurredClusteringAlg.cxx:374-419) is not modelled.
-/
namespace Verif.Blur
open Verif

/-- what the code reads of a `recob::Hit`: a number standing for the pointer, `GlobalWire(hit.WireID())`, `PeakTime()`, `Integral()`,
`RMS()` -/
structure Hit where
  id : Nat
  wire : Int
  peak : ℚ
  charge : ℚ
  rms : ℚ
deriving DecidableEq, Repr

/-- the parameters, BlurredClusteringAlg.h:141-154 (distances and blur radii are taken to be non-negative) -/
structure Cfg where
  blurWire : Nat := 1
  blurTick : Nat := 1
  sigmaWire : ℚ := 1
  sigmaTick : ℚ := 1
  maxTickWidth : Nat := 1
  wireDist : Nat := 1
  tickDist : Nat := 1
  nbrThr : Nat := 8
  minNbr : Nat := 0
  minSize : Nat := 1
  minSeed : ℚ := 1
  timeThr : ℚ := 1
  chargeThr : ℚ := 0

/-- `std::vector<std::vector<double>>`, rectangular -/
structure Img where
  nx : Nat
  ny : Nat
  val : Nat → Nat → ℚ

/-- `fHitMap`; `none` is a null pointer -/
abbrev HitMap := Nat → Nat → Option Hit

/-! ## Filling the image -/

/-- conversion of a `double` to `int`: towards zero -/
def trunc (q : ℚ) : Int := if 0 ≤ q then ⌊q⌋ else ⌈q⌉

/-- the four bounds found so far: lower and upper tick, lower and upper wire -/
structure Bounds where
  loT : Int
  hiT : Int
  loW : Int
  hiW : Int
deriving DecidableEq, Repr

/-- one round of the loop over the hits, BlurredClusteringAlg.cxx:142-148 -/
def boundStep (b : Bounds) (h : Hit) : Bounds where
  loT := if h.peak < b.loT then trunc h.peak else b.loT
  hiT := if h.peak > b.hiT then trunc h.peak else b.hiT
  loW := if h.wire < b.loW then h.wire else b.loW
  hiW := if h.wire > b.hiW then h.wire else b.hiW

/-- the bounds with the margin, BlurredClusteringAlg.cxx:137-152 -/
def bounds (window maxWires : Int) (hs : List Hit) : Bounds :=
  let b := hs.foldl boundStep ⟨window, 0, maxWires, 0⟩
  ⟨b.loT - 20, b.hiT + 20, b.loW - 20, b.hiW + 20⟩

/-- image and hit map while they are filled -/
structure Fill where
  val : Nat → Nat → ℚ
  map : HitMap

/-- one round of the second loop over the hits, BlurredClusteringAlg.cxx:164-174; `vector::at` throws out of range -/
def fillStep (b : Bounds) (nx ny : Nat) (f : Fill) (h : Hit) : Res Fill :=
  let x := h.wire - b.loW
  let y := trunc h.peak - b.loT
  if 0 ≤ x ∧ x < nx ∧ 0 ≤ y ∧ y < ny then
    if f.val x.toNat y.toNat < h.charge then
      .ok ⟨fun i j => if i = x.toNat ∧ j = y.toNat then h.charge else f.val i j,
           fun i j => if i = x.toNat ∧ j = y.toNat then some h else f.map i j⟩
    else .ok f
  else .throw

/-- the second loop over the hits, BlurredClusteringAlg.cxx:164-174 -/
def fillLoop (b : Bounds) (nx ny : Nat) : List Hit → Fill → Res Fill
  | [], f => .ok f
  | h :: hs, f =>
    match fillStep b nx ny f h with
    | .ok f' => fillLoop b nx ny hs f'
    | .throw => .throw
    | .ub => .ub

/-- `ConvertRecobHitsToVector`, BlurredClusteringAlg.cxx:133-187, without the list of dead wires; a vector of negative size throws;
`hits.front()` of no hits is undefined -/
def toVector (window maxWires : Int) (hs : List Hit) : Res (Img × HitMap) :=
  let b := bounds window maxWires hs
  if b.hiW - b.loW < 0 ∨ b.hiT - b.loT < 0 then .throw
  else
    let nx := (b.hiW - b.loW).toNat
    let ny := (b.hiT - b.loT).toNat
    match fillLoop b nx ny hs ⟨fun _ _ => 0, fun _ _ => none⟩ with
    | .ok f => if hs = [] then .ub else .ok (⟨nx, ny, f.val⟩, f.map)
    | .throw => .throw
    | .ub => .ub

/-! ## Bins -/

/-- `ConvertWireTickToBin`, BlurredClusteringAlg.cxx:633-639 -/
def binOf (nx x y : Nat) : Nat := y * nx + x

/-- `ConvertBinToCharge`, BlurredClusteringAlg.cxx:641-648; the bins used are in range -/
def chargeOf (im : Img) (b : Nat) : ℚ := im.val (b % im.nx) (b / im.nx)

/-- `ConvertBinToRecobHit`, BlurredClusteringAlg.cxx:624-631 -/
def hitOf (nx : Nat) (hm : HitMap) (b : Nat) : Option Hit := hm (b % nx) (b / nx)

/-- `GetTimeOfBin`, BlurredClusteringAlg.cxx:704-709 -/
def timeOf (nx : Nat) (hm : HitMap) (b : Nat) : ℚ :=
  match hitOf nx hm b with
  | none => -10000
  | some h => h.peak

/-- `PassesTimeCut`, BlurredClusteringAlg.cxx:774-781 -/
def passes (thr : ℚ) (times : List ℚ) (t : ℚ) : Bool := times.any (fun u => decide (|t - u| < thr))

/-- `ConvertBinsToRecobHits`, BlurredClusteringAlg.cxx:604-622 -/
def binsToHits (nx : Nat) (hm : HitMap) (bins : List Nat) : List Hit := bins.filterMap (hitOf nx hm)

/-- `ConvertBinsToClusters`, BlurredClusteringAlg.cxx:108-131 -/
def toClusters (P : Cfg) (nx : Nat) (hm : HitMap) (all : List (List Nat)) : List (List Hit) :=
  (all.map (binsToHits nx hm)).filter (fun c => decide (P.minSize ≤ c.length))

/-! ## `FindClusters` -/

/-- the order of `std::sort(values.rbegin(), values.rend())`: decreasing charge, then decreasing bin; BlurredClusteringAlg.cxx:210 -/
def geVal (a b : ℚ × Nat) : Prop := b.1 < a.1 ∨ (b.1 = a.1 ∧ b.2 ≤ a.2)

instance : DecidableRel geVal := fun a b => inferInstanceAs (Decidable (b.1 < a.1 ∨ (b.1 = a.1 ∧ b.2 ≤ a.2)))

/-- the bins in the order they are put into `values`, BlurredClusteringAlg.cxx:202-207 -/
def allBins (nx ny : Nat) : List Nat := (List.range nx).flatMap (fun x => (List.range ny).map (fun y => binOf nx x y))

/-- `values` after sorting, BlurredClusteringAlg.cxx:199-210 -/
def values (im : Img) : List (ℚ × Nat) :=
  ((allBins im.nx im.ny).map (fun b => (chargeOf im b, b))).insertionSort geVal

/-- the integers from `c - d` to `c + d` which are valid coordinates below `n`, in increasing order -/
def window (n c d : Nat) : List Nat := (List.range (2 * d + 1)).filterMap (fun k => if d ≤ c + k ∧ c + k - d < n then some (c + k - d) else none)

/-- the bins looked at around a bin, in order; BlurredClusteringAlg.cxx:252-258 -/
def nbrs (P : Cfg) (nx ny b : Nat) : List Nat :=
  (window nx (b % nx) P.wireDist).flatMap (fun x =>
    (window ny ((b / nx) % ny) P.tickDist).filterMap (fun y =>
      if x = b % nx ∧ y = (b / nx) % ny then none else some (binOf nx x y)))

/-- a cluster while it grows: the used bins, the bins and times of the cluster -/
structure St where
  used : Nat → Bool
  cl : List Nat
  times : List ℚ

/-- `used[bin] = v` -/
def setUsed (used : Nat → Bool) (b : Nat) (v : Bool) : Nat → Bool := fun i => if i = b then v else used i

/-- `if (time > 0) times.push_back(time)`, BlurredClusteringAlg.cxx:238, 276, 319 -/
def pushTime (times : List ℚ) (t : ℚ) : List ℚ := if 0 < t then times ++ [t] else times

/-- does the bin pass the time cut while growing, BlurredClusteringAlg.cxx:269 -/
def timeOk (P : Cfg) (times : List ℚ) (t : ℚ) : Bool := !(decide (0 < t) && decide (0 < times.length) && !passes P.timeThr times t)

/-- put a bin into the cluster, BlurredClusteringAlg.cxx:273-276, 316-319 -/
def St.add (s : St) (b : Nat) (t : ℚ) : St := ⟨setUsed s.used b true, s.cl ++ [b], pushTime s.times t⟩

/-- one neighbour, BlurredClusteringAlg.cxx:260-277 -/
def growOne (P : Cfg) (im : Img) (hm : HitMap) (s : St) (n : Nat) : St :=
  if n ≥ im.nx * im.ny then s
  else if s.used n then s
  else if timeOk P s.times (timeOf im.nx hm n) = false then s
  else if P.chargeThr < chargeOf im n then s.add n (timeOf im.nx hm n)
  else s

/-- the neighbours of one bin, BlurredClusteringAlg.cxx:248-279 -/
def growBin (P : Cfg) (im : Img) (hm : HitMap) (s : St) (b : Nat) : St := (nbrs P im.nx im.ny b).foldl (growOne P im hm) s

/-- the loop over the bins of the growing cluster from position `k`, BlurredClusteringAlg.cxx:245-281; `none`: still looping after
`fuel` rounds -/
def growPass (P : Cfg) (im : Img) (hm : HitMap) : Nat → Nat → St → Option St
  | 0, k, s => if s.cl.length ≤ k then some s else none
  | fuel + 1, k, s =>
    if h : k < s.cl.length then growPass P im hm fuel (k + 1) (growBin P im hm s s.cl[k])
    else some s

/-- the loop until nothing is added, BlurredClusteringAlg.cxx:241-285; a bin was added when the cluster got longer -/
def grow (P : Cfg) (im : Img) (hm : HitMap) (fuel : Nat) : Nat → St → Option St
  | 0, _ => none
  | n + 1, s =>
    match growPass P im hm fuel 0 s with
    | none => none
    | some s' => if s'.cl.length = s.cl.length then some s' else grow P im hm fuel n s'

/-- `bin < nbinsx || bin % nbinsx == 0 || ...`, BlurredClusteringAlg.cxx:306-307, 338-339 -/
def onEdge (nx ny b : Nat) : Bool :=
  decide (b < nx) || decide (b % nx = 0) || decide (b % nx = nx - 1) || decide (b ≥ nx * (ny - 1))

/-- the eight offsets of the two loops from -1 to 1, BlurredClusteringAlg.cxx:300-302, 755-757 -/
def offs : List (Int × Int) := [(-1, -1), (-1, 0), (-1, 1), (0, -1), (0, 1), (1, -1), (1, 0), (1, 1)]

/-- `NumNeighbours`, BlurredClusteringAlg.cxx:748-772; `used.at` out of range throws: `none` -/
def numNbr (nx ny : Nat) (used : Nat → Bool) (b : Nat) : Option Nat :=
  if offs.all (fun o => decide (0 ≤ (b : Int) + o.1 + o.2 * nx) && decide ((b : Int) + o.1 + o.2 * nx < nx * ny)) then
    some ((offs.filter (fun o => used ((b : Int) + o.1 + o.2 * nx).toNat)).length)
  else none

/-- one neighbour in the loop filling holes, BlurredClusteringAlg.cxx:304-320; `none`: exception -/
def holeOne (P : Cfg) (im : Img) (hm : HitMap) (b : Nat) (s : St) (o : Int × Int) : Option St :=
  let n := (b : Int) + o.1 + o.2 * im.nx
  if n < im.nx then some s
  else if onEdge im.nx im.ny n.toNat then some s
  else if s.used n.toNat then some s
  else
    match numNbr im.nx im.ny s.used n.toNat with
    | none => none
    | some c =>
      if P.nbrThr < c ∧ passes P.timeThr s.times (timeOf im.nx hm n.toNat) = true then
        some (s.add n.toNat (timeOf im.nx hm n.toNat))
      else some s

/-- the eight neighbours of one bin, BlurredClusteringAlg.cxx:300-322 -/
def holeBin (P : Cfg) (im : Img) (hm : HitMap) (b : Nat) : List (Int × Int) → St → Option St
  | [], s => some s
  | o :: os, s =>
    match holeOne P im hm b s o with
    | none => none
    | some s' => holeBin P im hm b os s'

/-- the loop filling holes, BlurredClusteringAlg.cxx:297-324 -/
def holes (P : Cfg) (im : Img) (hm : HitMap) : Nat → Nat → St → Option St
  | 0, k, s => if s.cl.length ≤ k then some s else none
  | fuel + 1, k, s =>
    if h : k < s.cl.length then
      match holeBin P im hm s.cl[k] offs s with
      | none => none
      | some s' => holes P im hm fuel (k + 1) s'
    else some s

/-- the used bins and the bins of the cluster while peninsulas are removed -/
structure Pen where
  used : Nat → Bool
  cl : List Nat

/-- one bin in the loop removing peninsulas, BlurredClusteringAlg.cxx:335-347; `none`: exception -/
def penOne (P : Cfg) (nx ny : Nat) (s : Pen) (k : Nat) : Option Pen :=
  match s.cl[k]? with
  | none => some s
  | some b =>
    if onEdge nx ny b then some s
    else
      match numNbr nx ny s.used b with
      | none => none
      | some c => if c < P.minNbr then some ⟨setUsed s.used b false, s.cl.eraseIdx k⟩ else some s

/-- the loop over the bins from the last to the first, BlurredClusteringAlg.cxx:334-348; the argument is the number of bins left -/
def penPass (P : Cfg) (nx ny : Nat) : Nat → Pen → Option Pen
  | 0, s => some s
  | k + 1, s =>
    match penOne P nx ny s k with
    | none => none
    | some s' => penPass P nx ny k s'

/-- the loop removing peninsulas until none is removed, BlurredClusteringAlg.cxx:330-351; a bin was removed when the cluster got
shorter -/
def pens (P : Cfg) (nx ny : Nat) : Nat → Pen → Option Pen
  | 0, _ => none
  | n + 1, s =>
    match penPass P nx ny s.cl.length s with
    | none => none
    | some s' => if s'.cl.length = s.cl.length then some s' else pens P nx ny n s'

/-- give the bins of a cluster that is too small back, BlurredClusteringAlg.cxx:289-292, 358-361 -/
def release (used : Nat → Bool) (cl : List Nat) : Nat → Bool := cl.foldl (fun u b => setUsed u b false) used

/-- the state of the outer loop: the used bins and the clusters stored -/
structure Out where
  used : Nat → Bool
  all : List (List Nat)

/-- the loops of one round of the outer loop run at most this often -/
def fuelOf (im : Img) : Nat := im.nx * im.ny + 1

/-- the seed of a cluster, BlurredClusteringAlg.cxx:231-238 -/
def seed (im : Img) (hm : HitMap) (used : Nat → Bool) (b : Nat) : St :=
  ⟨setUsed used b true, [b], pushTime [] (timeOf im.nx hm b)⟩

/-- the end of one round: store the cluster or give its bins back, BlurredClusteringAlg.cxx:357-366 -/
def finish (P : Cfg) (o : Out) (s : Pen) : Out :=
  if s.cl.length < P.minSize then ⟨release s.used s.cl, o.all⟩ else ⟨s.used, o.all ++ [s.cl]⟩

/-- one round of the outer loop for a bin above the seed threshold, BlurredClusteringAlg.cxx:221-366; `none`: exception, or a loop
that does not end -/
def round (P : Cfg) (im : Img) (hm : HitMap) (o : Out) (b : Nat) : Option Out :=
  if o.used b then some o
  else
    match grow P im hm (fuelOf im) (fuelOf im) (seed im hm o.used b) with
    | none => none
    | some s =>
      if s.cl.length < P.minSize then some ⟨release s.used s.cl, o.all⟩
      else
        match holes P im hm (fuelOf im) 0 s with
        | none => none
        | some s =>
          match pens P im.nx im.ny (fuelOf im) ⟨s.used, s.cl⟩ with
          | none => none
          | some s => some (finish P o s)

/-- the outer loop, BlurredClusteringAlg.cxx:218-368; `values[niter]` past the end is undefined -/
def clusterLoop (P : Cfg) (im : Img) (hm : HitMap) : List (ℚ × Nat) → Out → Res Out
  | [], _ => .ub
  | v :: vs, o =>
    if v.1 < P.minSeed then .ok o
    else
      match round P im hm o v.2 with
      | none => .throw
      | some o' => clusterLoop P im hm vs o'

/-- `FindClusters` on a vector of clusters that is empty at the call, BlurredClusteringAlg.cxx:189-372; `throw` also stands for a loop
that does not end (`C138` shows that neither happens) -/
def findClusters (P : Cfg) (im : Img) (hm : HitMap) : Res (List (List Nat)) :=
  match clusterLoop P im hm (values im) ⟨fun _ => false, []⟩ with
  | .ok o => .ok o.all
  | .throw => .throw
  | .ub => .ub

/-! ## Blurring -/

/-- `std::round`: to the nearest integer, halves away from zero -/
def roundAway (q : ℚ) : Int := if 0 ≤ q then ⌊q + 1 / 2⌋ else ⌈q - 1 / 2⌉

/-- the four blurring parameters from the direction `(ux, uy)`, BlurredClusteringAlg.cxx:695-700; the fit of the direction
(BlurredClusteringAlg.cxx:675-693) is not modelled -/
def blurPars (P : Cfg) (ux uy : ℚ) : Nat × Nat × Nat × Nat :=
  (max (roundAway (P.blurWire * ux)).natAbs 1, max (roundAway (P.blurTick * uy)).natAbs 1,
   max (roundAway (P.sigmaWire * ux)).natAbs 1, max (roundAway (P.sigmaTick * uy)).natAbs 1)

/-- `fKernelWidth`, BlurredClusteringAlg.cxx:53 -/
def kW (P : Cfg) : Nat := 2 * P.blurWire + 1
/-- `fKernelHeight`, BlurredClusteringAlg.cxx:54 -/
def kH (P : Cfg) : Nat := 2 * P.blurTick * P.maxTickWidth + 1

/-- the kernel of two widths as `MakeKernels` fills it, BlurredClusteringAlg.cxx:724-742; `g` is the Gaussian weight of an offset,
left abstract -/
def kernel (P : Cfg) (g : Nat → Nat → Int → Int → ℚ) (sw st : Nat) : List ℚ :=
  (List.range (kW P * kH P)).map (fun key =>
    g sw st ((key % kW P : Nat) - (P.blurWire : Int)) ((key / kW P : Nat) - ((P.blurTick * P.maxTickWidth : Nat) : Int)))

/-- `fAllKernels[sigma_wire][sigma_tick]`, BlurredClusteringAlg.cxx:714-717, 447; out of range is undefined -/
def kernelAt (P : Cfg) (g : Nat → Nat → Int → Int → ℚ) (sw st : Nat) : Option (List ℚ) :=
  if sw < ⌊P.sigmaWire + 1⌋.toNat ∧ st < ⌊P.sigmaTick * P.maxTickWidth + 1⌋.toNat then some (kernel P g sw st) else none

/-- `tick_scale`, BlurredClusteringAlg.cxx:444-446; the integer part of the square root of `q` is the integer square root of the
integer part of `q` -/
def tickScale (P : Cfg) (st : Nat) (rms : ℚ) : Nat :=
  max (min (Nat.sqrt ⌊(rms ^ 2 + (st : ℚ) ^ 2) / (st : ℚ) ^ 2⌋.toNat) P.maxTickWidth) 1

/-- `DeadWireCount`, BlurredClusteringAlg.cxx:650-671, with `2 * r + 1` for the width -/
def deadCount (dead : Nat → Bool) (nx x r : Nat) : Nat × Nat :=
  (((List.range x).filter (fun w => decide (x ≤ w + r) && dead w)).length,
   ((List.range nx).filter (fun w => decide (x < w) && decide (w ≤ x + r) && dead w)).length)

/-- the integers from `a` (inclusive) to `b` (exclusive) -/
def intRange (a b : Int) : List Int := (List.range (b - a).toNat).map (fun k => a + (k : Nat))

/-- the blurred image and `dead_wires_passed` -/
structure BSt where
  copy : Nat → Nat → ℚ
  dwp : Int

/-- one round of the loop over `blury`, BlurredClusteringAlg.cxx:464-472; `none`: access out of range -/
def blurOne (P : Cfg) (im : Img) (dead : Nat → Bool) (ker : List ℚ) (x y : Nat) (bx : Int) (s : BSt) (by_ : Int) : Option BSt :=
  let d1 := if bx < 0 ∧ dead ((x : Int) + bx).toNat = true then s.dwp - 1 else s.dwp
  let idx := (kW P : Int) * ((kH P / 2 : Nat) + by_) + ((kW P / 2 : Nat) + (bx - d1))
  if 0 ≤ idx ∧ idx < ker.length then
    let xx := (x : Int) + bx
    let yy := (y : Int) + by_
    let copy' := if 0 ≤ xx ∧ xx < im.nx ∧ 0 ≤ yy ∧ yy < im.ny then
        fun i j => if i = xx.toNat ∧ j = yy.toNat then s.copy i j + ker.getD idx.toNat 0 * im.val x y else s.copy i j
      else s.copy
    if 0 < bx then
      if xx < im.nx then some ⟨copy', if dead xx.toNat then d1 + 1 else d1⟩ else none
    else some ⟨copy', d1⟩
  else none

/-- a loop that may end in an access out of range -/
def loopM {α σ : Type} (f : σ → α → Option σ) : List α → σ → Option σ
  | [], s => some s
  | a :: as, s =>
    match f s a with
    | none => none
    | some s' => loopM f as s'

/-- the loop over `blury` for one `blurx`, BlurredClusteringAlg.cxx:460-473 -/
def blurCol (P : Cfg) (im : Img) (dead : Nat → Bool) (ker : List ℚ) (bt ts : Nat) (x y : Nat) (s : BSt) (bx : Int) : Option BSt :=
  if (x : Int) + bx < 0 then some s
  else loopM (blurOne P im dead ker x y bx) (intRange (-(bt * ts : Nat)) ((bt * ts : Nat) + 1)) s

/-- one filled bin, BlurredClusteringAlg.cxx:441-474; a filled bin has a hit, a null pointer there is undefined -/
def blurBin (P : Cfg) (g : Nat → Nat → Int → Int → ℚ) (pars : Nat × Nat × Nat × Nat) (im : Img) (hm : HitMap) (dead : Nat → Bool)
    (copy : Nat → Nat → ℚ) (xy : Nat × Nat) : Option (Nat → Nat → ℚ) :=
  if im.val xy.1 xy.2 = 0 then some copy
  else
    match hm xy.1 xy.2 with
    | none => none
    | some h =>
      match kernelAt P g pars.2.2.1 (pars.2.2.2 * tickScale P pars.2.2.2 h.rms) with
      | none => none
      | some ker =>
        let dc := deadCount dead im.nx xy.1 pars.1
        (loopM (blurCol P im dead ker pars.2.1 (tickScale P pars.2.2.2 h.rms) xy.1 xy.2)
          (intRange (-((pars.1 + dc.1 : Nat) : Int)) ((pars.1 + 1 + dc.2 : Nat) : Int)) ⟨copy, dc.1⟩).map BSt.copy

/-- the bins in the order of the two loops, BlurredClusteringAlg.cxx:438-439 -/
def xyBins (nx ny : Nat) : List (Nat × Nat) := (List.range nx).flatMap (fun x => (List.range ny).map (fun y => (x, y)))

/-- `GaussianBlur`, BlurredClusteringAlg.cxx:421-484, for given blurring parameters; `none`: access out of range -/
def blur (P : Cfg) (g : Nat → Nat → Int → Int → ℚ) (pars : Nat × Nat × Nat × Nat) (im : Img) (hm : HitMap) (dead : Nat → Bool) :
    Option Img :=
  if P.sigmaWire = 0 ∧ P.sigmaTick = 0 then some im
  else (loopM (blurBin P g pars im hm dead) (xyBins im.nx im.ny) (fun _ _ => 0)).map (fun c => ⟨im.nx, im.ny, c⟩)

end Verif.Blur

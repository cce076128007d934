import Mathlib.Data.Rat.Floor
import Mathlib.Data.List.Basic
import Mathlib.Tactic.Linarith

/-!
# Model of the image provider and of the geometric helpers of projection matching

larreco/RecoAlg/ImagePatternAlgs/DataProvider/DataProviderAlg.cxx, larreco/RecoAlg/PMAlg/Utilities.cxx.

Simplifications: rationals for floating point numbers; the noise that can be added (random numbers) is left out; the calibration of the lifetime is a list of factors;
the wires of the plane are given with each input channel.  An access outside a vector gives `none`.
-/

namespace Verif.DataProv

/-! ### Scaling of samples -/

/-- The settings of the scaling, larreco/RecoAlg/ImagePatternAlgs/DataProvider/DataProviderAlg.cxx:91-95; `calib` is the constant of the plane. -/
structure SCfg where
  calib : ℚ
  adcMin : ℚ
  adcMax : ℚ
  outMin : ℚ
  outMax : ℚ

/-- larreco/RecoAlg/ImagePatternAlgs/DataProvider/DataProviderAlg.cxx:94. -/
def SCfg.scale (c : SCfg) : ℚ := (c.outMax - c.outMin) / (c.adcMax - c.adcMin)

/-- `ZeroLevel`, larreco/RecoAlg/ImagePatternAlgs/DataProvider/DataProviderAlg.cxx:95. -/
def SCfg.zero (c : SCfg) : ℚ := c.outMin + c.scale * (0 - c.adcMin)

/-- The constructor accepts the settings, larreco/RecoAlg/ImagePatternAlgs/DataProvider/DataProviderAlg.cxx:97-102. -/
def SCfg.ok (c : SCfg) : Prop := c.adcMin < c.adcMax ∧ c.scale ≠ 0

/-- `scaleAdcSample`, larreco/RecoAlg/ImagePatternAlgs/DataProvider/DataProviderAlg.cxx:358-370. -/
def scaleOne (c : SCfg) (val : ℚ) : ℚ :=
  let v := val * c.calib
  let v := if v < c.adcMin then c.adcMin else if v > c.adcMax then c.adcMax else v
  c.outMin + c.scale * (v - c.adcMin)

/-- One sample in the loop over four, larreco/RecoAlg/ImagePatternAlgs/DataProvider/DataProviderAlg.cxx:380-400. -/
def scaleFour (c : SCfg) (val : ℚ) : ℚ :=
  let v := val * c.calib
  let v := if v < c.adcMin then c.adcMin else v
  let v := if v > c.adcMax then c.adcMax else v
  c.outMin + c.scale * (v - c.adcMin)

/-- `scaleAdcSamples`, larreco/RecoAlg/ImagePatternAlgs/DataProvider/DataProviderAlg.cxx:372-408: four at a time, then the tail. -/
def scaleAll (c : SCfg) : List ℚ → List ℚ
  | a :: b :: d :: e :: rest => scaleFour c a :: scaleFour c b :: scaleFour c d :: scaleFour c e :: scaleAll c rest
  | tail => tail.map (scaleOne c)

/-! ### Downscaling -/

/-- larreco/RecoAlg/ImagePatternAlgs/DataProvider/DataProviderAlg.h:62. -/
inductive Mode
  | max
  | maxMean
  | mean
  deriving DecidableEq

/-- A sample with its lifetime correction, larreco/RecoAlg/ImagePatternAlgs/DataProvider/DataProviderAlg.cxx:199-201. -/
def samp (adc life : List ℚ) (t0 k : Nat) : ℚ := adc.getD k 0 * life.getD (k + t0) 0

/-- The largest of `n + 1` samples from `k0`, larreco/RecoAlg/ImagePatternAlgs/DataProvider/DataProviderAlg.cxx:199-203. -/
def maxVal (s : Nat → ℚ) (k0 : Nat) : Nat → ℚ
  | 0 => s k0
  | n + 1 => let m := maxVal s k0 n; if s (k0 + (n + 1)) > m then s (k0 + (n + 1)) else m

/-- The number of the first largest of `n + 1` samples from `k0`, larreco/RecoAlg/ImagePatternAlgs/DataProvider/DataProviderAlg.cxx:219-227. -/
def maxIdx (s : Nat → ℚ) (k0 : Nat) : Nat → Nat
  | 0 => k0
  | n + 1 => let m := maxIdx s k0 n; if s (k0 + (n + 1)) > s m then k0 + (n + 1) else m

/-- The mean of the largest sample and its neighbours, larreco/RecoAlg/ImagePatternAlgs/DataProvider/DataProviderAlg.cxx:219-239. -/
def maxMean (s : Nat → ℚ) (size k0 w : Nat) : ℚ :=
  let m := maxIdx s k0 (w - 1)
  let (a, n) := if m > 0 then (s m + s (m - 1), (2 : Nat)) else (s m, 1)
  let (a, n) := if m + 1 < size then (a + s (m + 1), n + 1) else (a, n)
  a / n

/-- The mean of the window, larreco/RecoAlg/ImagePatternAlgs/DataProvider/DataProviderAlg.cxx:254-261. -/
def meanVal (s : Nat → ℚ) (nLife t0 k0 w : Nat) : ℚ :=
  ((List.range w).map fun j => if k0 + j + t0 < nLife then s (k0 + j) else 0).sum * (1 / w)

/-- One pixel before scaling: `downscale`, larreco/RecoAlg/ImagePatternAlgs/DataProvider/DataProviderAlg.h:185-195. -/
def pixel (mode : Mode) (w : Nat) (adc life : List ℚ) (t0 i : Nat) : ℚ :=
  match mode with
  | .max => maxVal (samp adc life t0) (i * w) (w - 1)
  | .maxMean => maxMean (samp adc life t0) adc.length (i * w) w
  | .mean => meanVal (samp adc life t0) life.length t0 (i * w) w

/-- All reads for pixel `i` are within the vectors. -/
def readsOk (mode : Mode) (w : Nat) (adc life : List ℚ) (t0 i : Nat) : Bool :=
  ((List.range w).all fun j => decide (i * w + j < adc.length) && (decide (mode = .mean) || decide (i * w + j + t0 < life.length))) &&
  (decide (mode ≠ .maxMean) || (let m := maxIdx (samp adc life t0) (i * w) (w - 1); decide (m + 1 < adc.length → m + 1 + t0 < life.length)))

/-- `downscaleMax`, `downscaleMaxMean`, `downscaleMean`, larreco/RecoAlg/ImagePatternAlgs/DataProvider/DataProviderAlg.cxx:187-265. -/
def downscale (c : SCfg) (mode : Mode) (w : Nat) (life : List ℚ) (dst : Nat) (adc : List ℚ) (t0 : Nat) : Option (List ℚ) :=
  let kStop := min dst adc.length
  if (List.range kStop).all fun i => readsOk mode w adc life t0 i then
    some (scaleAll c ((List.range dst).map fun i => if i < kStop then pixel mode w adc life t0 i else 0))
  else none

/-! ### The image -/

/-- The settings of the image. -/
structure Cfg extends SCfg where
  mode : Mode
  window : Nat
  full : Bool

/-- The image, larreco/RecoAlg/ImagePatternAlgs/DataProvider/DataProviderAlg.h:48-57, with the sums of large samples. -/
structure View where
  rows : List (List ℚ)
  chans : List (Option Nat)
  sum : ℚ
  area : Nat
  any : Bool
  deriving DecidableEq, Repr

/-- Number of cached drifts: `resizeView`, larreco/RecoAlg/ImagePatternAlgs/DataProvider/DataProviderAlg.cxx:119-120. -/
def cached (c : Cfg) (drifts : Nat) : Nat := if c.full then drifts / c.window else drifts

/-- `resizeView` and the reset of the sums, larreco/RecoAlg/ImagePatternAlgs/DataProvider/DataProviderAlg.cxx:108-139, 299-300. -/
def emptyView (c : Cfg) (wires drifts : Nat) : View :=
  ⟨List.replicate wires (List.replicate (cached c drifts) c.toSCfg.zero), List.replicate wires none, 0, 0, false⟩

/-- `setWireData`, larreco/RecoAlg/ImagePatternAlgs/DataProvider/DataProviderAlg.cxx:267-280: the outer `none` is an access outside a vector. -/
def setWireData (c : Cfg) (life : List ℚ) (v : View) (adc : List ℚ) (idx : Nat) : Option (Option (List ℚ)) :=
  match v.rows[idx]? with
  | none => some none
  | some row =>
    if c.full then
      if adc ≠ [] then (downscale c.toSCfg c.mode c.window life row.length adc 0).map some else some none
    else if adc = [] then some none
    else if adc.length ≤ row.length then some (some adc)
    else some (some (adc.take row.length))

/-- One channel with its status, the numbers of its wires in the plane, and its signal. -/
structure InWire where
  chan : Nat
  good : Bool
  ids : List Nat
  adc : List ℚ

/-- One wire of one channel, larreco/RecoAlg/ImagePatternAlgs/DataProvider/DataProviderAlg.cxx:316-343. -/
def setOne (c : Cfg) (drifts : Nat) (life : List ℚ) (v : View) (chan : Nat) (adc : List ℚ) (idx : Nat) : Option View :=
  if adc.length < drifts then some v
  else match setWireData c life v adc idx with
    | none => none
    | some none => some v
    | some (some row) =>
      let big := adc.filter fun x => decide (x ≥ 10)
      some ⟨v.rows.set idx row, v.chans.set idx (some chan), v.sum + big.sum, v.area + big.length, true⟩

/-- The loops over channels and their wires, larreco/RecoAlg/ImagePatternAlgs/DataProvider/DataProviderAlg.cxx:309-345. -/
def setWires (c : Cfg) (drifts : Nat) (life : List ℚ) : View → List InWire → Option View
  | v, [] => some v
  | v, w :: rest =>
    if w.good then
      match w.ids.foldlM (fun v idx => setOne c drifts life v w.chan w.adc idx) v with
      | none => none
      | some v' => setWires c drifts life v' rest
    else setWires c drifts life v rest

/-- `applyBlur`, larreco/RecoAlg/ImagePatternAlgs/DataProvider/DataProviderAlg.cxx:411-433.  The loop runs to `size - margin_right`, which is a very large number if there
are fewer rows: `none`. -/
def blur (kernel : List ℚ) (rows : List (List ℚ)) : Option (List (List ℚ)) :=
  if kernel.length < 2 then some rows
  else
    let left := (kernel.length - 1) / 2
    let right := kernel.length - left - 1
    if rows.length < right then none
    else some (rows.mapIdx fun w row =>
      if left ≤ w ∧ w < rows.length - right then
        row.mapIdx fun d _ => ((List.range kernel.length).map fun i => kernel.getD i 0 * (rows.getD (w + i - left) []).getD d 0).sum
      else row)

/-- `getDriftIndex`, larreco/RecoAlg/ImagePatternAlgs/DataProvider/DataProviderAlg.h:197-203, for a drift that is not negative. -/
def driftIndex (c : Cfg) (drift : Nat) : Nat := if c.full then drift / c.window else drift

/-- `getPixelOrZero`, larreco/RecoAlg/ImagePatternAlgs/DataProvider/DataProviderAlg.h:129-137. -/
def getPixel (c : Cfg) (drifts : Nat) (rows : List (List ℚ)) (wire : Int) (drift : Nat) : ℚ :=
  let d := driftIndex c drift
  if 0 ≤ wire ∧ wire < rows.length ∧ d < cached c drifts then (rows.getD wire.toNat []).getD d 0 else 0

/-- `poolMax`, larreco/RecoAlg/ImagePatternAlgs/DataProvider/DataProviderAlg.cxx:142-169. -/
def poolMax (c : Cfg) (drifts : Nat) (rows : List (List ℚ)) (wire : Int) (drift r : Nat) : ℚ :=
  let rd : Int := if c.full then r else r * c.window
  let d : Int := driftIndex c drift
  let d0 := if d - rd < 0 then 0 else d - rd
  let d1 := if d + rd ≥ cached c drifts then (cached c drifts : Int) - 1 else d + rd
  let w0 := if wire - r < 0 then 0 else wire - r
  let w1 := if wire + r ≥ rows.length then (rows.length : Int) - 1 else wire + r
  (List.range (w1 + 1 - w0).toNat).foldl (fun m (i : Nat) =>
    (List.range (d1 + 1 - d0).toNat).foldl (fun m (j : Nat) =>
      let a := (rows.getD (w0 + i).toNat []).getD (d0 + j).toNat 0
      if a > m then a else m) m) 0

/-! ### Patches -/

/-- `patchFromDownsampledView`, larreco/RecoAlg/ImagePatternAlgs/DataProvider/DataProviderAlg.cxx:437-474: writes into the given patch. -/
def patchDown (c : Cfg) (rows : List (List ℚ)) (wire : Nat) (drift : ℚ) (sizeW sizeD : Nat) (patch : List (List ℚ)) : Option (List (List ℚ)) :=
  let halfW := sizeW / 2
  let halfD := sizeD / 2
  let sd : Int := ⌊drift / c.window⌋
  if patch.length < 2 * halfW then none
  else (patch.zipIdx).mapM fun p =>
    if p.2 < 2 * halfW then
      let w : Int := wire - halfW + p.2
      if 0 ≤ w ∧ w < rows.length then
        if p.1.length < 2 * halfD then none
        else some (p.1.mapIdx fun j x =>
          if j < 2 * halfD then
            let d : Int := sd - halfD + j
            if 0 ≤ d ∧ d < (rows.getD w.toNat []).length then (rows.getD w.toNat []).getD d.toNat 0 else c.toSCfg.zero
          else x)
      else some (p.1.map fun _ => c.toSCfg.zero)
    else some p.1

/-- The buffer for one wire of the patch, larreco/RecoAlg/ImagePatternAlgs/DataProvider/DataProviderAlg.cxx:499-513. -/
def fillTmp (c : Cfg) (rows : List (List ℚ)) (w d0 d1 : Int) (tmp : List ℚ) : List ℚ :=
  if 0 ≤ w ∧ w < rows.length then
    tmp.mapIdx fun j x =>
      if d0 + j < d1 then
        if 0 ≤ d0 + j ∧ d0 + j < (rows.getD w.toNat []).length then (rows.getD w.toNat []).getD (d0 + j).toNat 0 else c.toSCfg.zero
      else x
  else tmp.map fun _ => c.toSCfg.zero

/-- The rows of the patch, from number `i`: larreco/RecoAlg/ImagePatternAlgs/DataProvider/DataProviderAlg.cxx:498-516. -/
def origRows (c : Cfg) (rows : List (List ℚ)) (life : List ℚ) (w0 d0 d1 : Int) (n i : Nat) (tmp : List ℚ) : List (List ℚ) → Option (List (List ℚ))
  | [] => if i < n then none else some []
  | p :: rest =>
    if i < n then
      let tmp' := fillTmp c rows (w0 + i) d0 d1 tmp
      match downscale c.toSCfg c.mode c.window life p.length tmp' d0.toNat, origRows c rows life w0 d0 d1 n (i + 1) tmp' rest with
      | some r, some rs => some (r :: rs)
      | _, _ => none
    else some (p :: rest)

/-- `patchFromOriginalView`, larreco/RecoAlg/ImagePatternAlgs/DataProvider/DataProviderAlg.cxx:476-518. -/
def patchOrig (c : Cfg) (rows : List (List ℚ)) (life : List ℚ) (wire : Nat) (drift : ℚ) (sizeW sizeD : Nat) (patch : List (List ℚ)) : Option (List (List ℚ)) :=
  let dsize := c.window * sizeD
  let halfW := sizeW / 2
  let halfD := dsize / 2
  let d0 := if ⌊drift⌋ - (halfD : Int) < 0 then 0 else ⌊drift⌋ - (halfD : Int)
  let d1 := ⌊drift⌋ + (halfD : Int)
  origRows c rows life ((wire : Int) - halfW) d0 d1 (2 * halfW) 0 (List.replicate dsize 0) patch

/-- `getPatch`, larreco/RecoAlg/ImagePatternAlgs/DataProvider/DataProviderAlg.h:107-125: the patch is an empty vector. -/
def getPatch (c : Cfg) (rows : List (List ℚ)) (life : List ℚ) (wire : Nat) (drift : ℚ) (sizeW sizeD : Nat) : Option (List (List ℚ)) :=
  if c.full then patchDown c rows wire drift sizeW sizeD [] else patchOrig c rows life wire drift sizeW sizeD []

end Verif.DataProv

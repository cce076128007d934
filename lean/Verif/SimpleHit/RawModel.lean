import Mathlib.Data.Rat.Floor
import Mathlib.Algebra.Order.Field.Rat

/-!
# `hit::RawHitFinder`

Models larreco/HitFinder/RawHitFinder_module.cc for one channel.  The waveform less its pedestal is a function `s` on
ticks, of which the ticks `0 .. n - 1` exist.
-/

namespace Verif.RawHit

/-! ### Collection planes -/

/-- A run of ticks above threshold with its first maximum. -/
structure Run where
  start : Nat
  stop : Nat
  ibin : Nat
  madc : ℚ
  deriving DecidableEq, Repr

/-- The inner loop: larreco/HitFinder/RawHitFinder_module.cc:282-290; returns `bin`, `ibin` and `madc`. -/
def runLoop (s : Nat → ℚ) (n : Nat) (thr : ℚ) (bin ibin : Nat) (madc : ℚ) : Nat × Nat × ℚ :=
  if bin < n then
    if s bin > thr then
      if s bin > madc then runLoop s n thr (bin + 1) bin (s bin) else runLoop s n thr (bin + 1) ibin madc
    else (bin, ibin, madc)
  else (bin, ibin, madc)
termination_by n - bin

/-- The loop over the ticks, larreco/HitFinder/RawHitFinder_module.cc:273-329; `fuel` is the number of ticks left (each
round goes to a later tick). -/
def colLoop (s : Nat → ℚ) (n : Nat) (thr : ℚ) : Nat → Nat → List Run
  | 0, _ => []
  | fuel + 1, bin =>
    if bin < n then
      if s bin > thr then
        let r := runLoop s n thr bin 0 thr
        if bin ≠ r.1 - 1 then ⟨bin, r.1 - 1, r.2.1, r.2.2⟩ :: colLoop s n thr fuel (r.1 + 1)
        else colLoop s n thr fuel (r.1 + 1)
      else colLoop s n thr fuel (bin + 1)
    else []

/-- The runs of a channel. -/
def runs (s : Nat → ℚ) (n : Nat) (thr : ℚ) : List Run := colLoop s n thr n 0

/-- `moreTail`, larreco/HitFinder/RawHitFinder_module.cc:308-309. -/
def moreTail (f : ℚ) (colMin : Int) (r : Run) : Int :=
  let m := ⌈f * ((r.stop : ℚ) - r.start)⌉
  if m < colMin then colMin else m

/-- The loop over `i` from `start - moreTail` to `end + moreTail`, for an arbitrary summand:
larreco/HitFinder/RawHitFinder_module.cc:311-318. -/
def tailSum (g : Nat → ℚ) (n : Nat) : Nat → Int → ℚ
  | 0, _ => 0
  | k + 1, i => (if i < n ∧ i ≥ 0 then g i.toNat else 0) + tailSum g n k (i + 1)

/-- the number of rounds of this loop -/
def tailCount (f : ℚ) (colMin : Int) (r : Run) : Nat :=
  ((r.stop : Int) + moreTail f colMin r + 1 - (r.start - moreTail f colMin r)).toNat

/-- `totSig`, larreco/HitFinder/RawHitFinder_module.cc:316. -/
def charge (s : Nat → ℚ) (n : Nat) (f : ℚ) (colMin : Int) (r : Run) : ℚ :=
  tailSum s n (tailCount f colMin r) (r.start - moreTail f colMin r)

/-- `myrms` before the root, larreco/HitFinder/RawHitFinder_module.cc:313-314, 321-323. -/
def rms2 (s : Nat → ℚ) (n : Nat) (f : ℚ) (colMin : Int) (r : Run) : ℚ :=
  tailSum (fun i => ((r.ibin : ℚ) - i) * ((r.ibin : ℚ) - i) * s i) n (tailCount f colMin r)
    (r.start - moreTail f colMin r) / charge s n f colMin r

/-- `SummedADC` of a hit: the ticks from `start` up to, not including, `end`,
larreco/HitFinder/RawHitFinder_module.cc:374-376. -/
def summed (s : Nat → ℚ) (a b : Nat) : ℚ := ((List.range' a (b - a)).map s).sum

/-! ### Induction planes -/

/-- A dip: the time of the zero crossing is `bin + num / den`. -/
structure Dip where
  bin : Nat
  num : ℚ
  den : ℚ
  start : Nat
  stop : Nat
  height : ℚ
  charge : ℚ
  deriving DecidableEq, Repr

/-- `while (c(thisadc) && bin > stop) { bin--; thisadc = holder[bin]; }`: larreco/HitFinder/RawHitFinder_module.cc:209-212,
222-225, 227-230. -/
def stepBack (s : Nat → ℚ) (c : ℚ → Bool) (stop : Nat) : Nat → ℚ → Nat × ℚ
  | 0, adc => (0, adc)
  | bin + 1, adc => if c adc ∧ bin + 1 > stop then stepBack s c stop bin (s bin) else (bin + 1, adc)

/-- The loop over the dip, larreco/HitFinder/RawHitFinder_module.cc:238-243: `(bin, thisadc, minadc, totSig)`. -/
def dipLoop (s : Nat → ℚ) (n : Nat) (negthr : ℚ) (bin : Nat) (adc mn tot : ℚ) : Nat × ℚ × ℚ × ℚ :=
  if bin < n then
    if adc < negthr then
      dipLoop s n negthr (bin + 1) (s bin) (if s bin < mn then s bin else mn) (tot + |adc|)
    else (bin, adc, mn, tot)
  else (bin, adc, mn, tot)
termination_by n - bin

/-- `while (thisadc < 0 && bin < fDataSize)`, larreco/HitFinder/RawHitFinder_module.cc:250-254. -/
def toBaseline (s : Nat → ℚ) (n : Nat) (bin : Nat) (adc : ℚ) : Nat :=
  if bin < n then
    if adc < 0 then if bin + 1 = n then n else toBaseline s n (bin + 1) (s (bin + 1))
    else bin
  else bin
termination_by n - bin

/-- The times of a dip found at tick `place`, larreco/HitFinder/RawHitFinder_module.cc:207-231. -/
def dipTimes (s : Nat → ℚ) (thr : ℚ) (cutoff : Int) (place : Nat) : Nat × ℚ × ℚ × Nat :=
  let z := stepBack s (fun a => decide (a ≤ 0)) 0 place (s place)
  let stop : Nat := if cutoff < z.1 then ((z.1 : Int) - cutoff).toNat else 0
  let u := stepBack s (fun a => decide (a < thr)) stop z.1 z.2
  let b := if u.1 ≥ 2 then u.1 - 2 else u.1
  let v := stepBack s (fun a => decide (a > thr)) stop b u.2
  (z.1, z.2, z.2 - s (z.1 + 1), v.1 + 1)

/-- The loop over the ticks, larreco/HitFinder/RawHitFinder_module.cc:202-257; `fuel` is the number of ticks left. -/
def indLoop (s : Nat → ℚ) (n : Nat) (thr : ℚ) (cutoff : Int) : Nat → Nat → List Dip
  | 0, _ => []
  | fuel + 1, bin =>
    if bin < n - 1 then
      if s bin < -thr ∧ s (bin + 1) < -thr then
        let t := dipTimes s thr cutoff bin
        let d := dipLoop s n (-thr) (bin + 1) (s bin) (s bin) |s bin|
        ⟨t.1, t.2.1, t.2.2.1, t.2.2.2, d.1 - 1, -d.2.2.1, d.2.2.2⟩ ::
          indLoop s n thr cutoff fuel (toBaseline s n d.1 d.2.1 + 1)
      else indLoop s n thr cutoff fuel (bin + 1)
    else []

/-- The dips of a channel: larreco/HitFinder/RawHitFinder_module.cc:195-258. -/
def dips (s : Nat → ℚ) (n : Nat) (thr : ℚ) (cutoff : Int) : List Dip := indLoop s n thr cutoff n 1

end Verif.RawHit

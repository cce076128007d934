import Mathlib.Data.Rat.Floor
import Mathlib.Algebra.Order.Field.Rat

/-!
# `hit::TTHitFinder`

Models larreco/HitFinder/TTHitFinder_module.cc for one wire.  The signal is a function `s` on ticks, of which the
ticks `0 .. n - 1` exist.
-/

namespace Verif.TTHit

/-- `IndWidth`, `ColWidth`: larreco/HitFinder/TTHitFinder_module.cc:64-74. -/
def setWidth (w : Int) : Nat := if w < 1 then 1 else w.toNat

/-- `peak_val`, larreco/HitFinder/TTHitFinder_module.cc:141-145. -/
def peak (s : Int → ℚ) (w : Nat) (t : Nat) : ℚ :=
  if w % 2 = 1 then s t else (1 / 2 : ℚ) * (s t + s (t + 1))

/-- `begin_tail_tick`: `floor(time_bin - (width - 1) / 2)`, larreco/HitFinder/TTHitFinder_module.cc:133, 155. -/
def beginTick (w t : Nat) : Int := ⌊(t : ℚ) - ((w : ℚ) - 1) / 2⌋

/-- `getTotalCharge` from tick `b` on, larreco/HitFinder/TTHitFinder_module.cc:219-234. -/
def totalCharge (s : Int → ℚ) (tail : ℚ) : Nat → Int → ℚ → ℚ
  | 0, _, tot => tot
  | k + 1, b, tot => if s b < tail then -999 else totalCharge s tail k (b + 1) (tot + s b)

/-- A hit: the peak time, the first and last tick, the peak and the charge. -/
structure Hit where
  time : ℚ
  startTick : Int
  endTick : Int
  amp : ℚ
  charge : ℚ
  deriving DecidableEq, Repr

/-- conversion to an integer, towards zero -/
def trunc (x : ℚ) : Int := if 0 ≤ x then ⌊x⌋ else ⌈x⌉

/-- One tick, larreco/HitFinder/TTHitFinder_module.cc:139-198. -/
def tick (s : Int → ℚ) (n w : Nat) (thr tail : ℚ) (t : Nat) : Option Hit :=
  if peak s w t < thr then none
  else if (t : ℚ) - ((w : ℚ) - 1) / 2 < 0 then none
  else if (t : ℚ) + ((w : ℚ) - 1) / 2 > n then none
  else
    let c := totalCharge s tail w (beginTick w t) 0
    if c = -999 then none
    else
      let time : ℚ := if w % 2 = 0 then t + 1 / 2 else t
      some ⟨time, trunc (time - w), trunc (time + w), peak s w t, c⟩

/-- The hits of a wire, larreco/HitFinder/TTHitFinder_module.cc:138-199. -/
def hits (s : Int → ℚ) (n w : Nat) (thr tail : ℚ) : List Hit := (List.range n).filterMap (tick s n w thr tail)

/-- The ticks read by `getTotalCharge`, larreco/HitFinder/TTHitFinder_module.cc:224-231. -/
def chargeReads (s : Int → ℚ) (tail : ℚ) : Nat → Int → List Int
  | 0, _ => []
  | k + 1, b => if s b < tail then [b] else b :: chargeReads s tail k (b + 1)

/-- The ticks read for one tick: larreco/HitFinder/TTHitFinder_module.cc:141-156. -/
def reads (s : Int → ℚ) (n w : Nat) (thr tail : ℚ) (t : Nat) : List Int :=
  (if w % 2 = 1 then [(t : Int)] else [(t : Int), (t : Int) + 1]) ++
  if peak s w t < thr then []
  else if (t : ℚ) - ((w : ℚ) - 1) / 2 < 0 then []
  else if (t : ℚ) + ((w : ℚ) - 1) / 2 > n then []
  else chargeReads s tail w (beginTick w t)

end Verif.TTHit

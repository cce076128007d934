import Verif.Basic
/-!
# Model of the Hough accumulator
Source: `/repo/larreco/RecoAlg/HoughBaseAlg.cxx` (and `.h`). The base class `lar::CountersMap` belongs to another
repository; its contract is assumed: a key is split into a block (the largest multiple of 64 not above the key) and an
index inside the block, `next_block()` goes to index 0 of the following block, a missing counter reads 0, new blocks are
zero, `block.fill(i, n, v)` assigns `n` counters from `i`. Keys are mathematical integers (the code uses `int`);
counters are `signed char` with wrap-around.
-/
namespace Verif.Hough
open Verif

/-- `NCounters`, HoughBaseAlg.cxx:96 -/
abbrev N : Nat := 64

/-- conversion to `signed char` -/
def wrap8 (v : Int) : Int := (v + 128) % 256 - 128

abbrev Block := Nat → Int
/-- the underlying `std::map`, in key order -/
abbrev CMap := List (Int × Block)

/-- iterator (or "end") as the key it points to, with a value: `PairValue_t`, HoughBaseAlg.h:290 -/
abbrev Max := Option Int × Int

def zeroBlock : Block := fun _ => 0

/-- `CountersMap::operator[]` (assumed contract) -/
def cnt (m : CMap) (k : Int) : Int :=
  match (m.find? (fun e => e.1 == k - k % N)) with
  | some e => e.2 (k % N).toNat
  | none => 0

/-- `while (n--)` of `unchecked_add_range_max`, HoughBaseAlg.cxx:221-225 -/
def addInner (blk : Int) (delta : Int) : Nat → Nat → Block → Max → Block × Max
  | 0, _, B, mx => (B, mx)
  | n + 1, c, B, mx =>
    let value := wrap8 (B c + delta)
    let B' : Block := fun j => if j = c then value else B j
    let mx' := if value > mx.2 then (some (blk + c), value) else mx
    addInner blk delta n (c + 1) B' mx'

/-- insertion of a missing block at the iterator, HoughBaseAlg.cxx:213-216 and 177-180; `suf` is the rest of the map from
the iterator on. `std::map` inserts in key order whatever the hint; that this is the same place is shown by the
sortedness of the result. -/
def ensure (blk : Int) (suf : CMap) : CMap :=
  match suf with
  | [] => [(blk, zeroBlock)]
  | (k, B) :: t => if k ≠ blk then (blk, zeroBlock) :: (k, B) :: t else (k, B) :: t

/-- main loop of `unchecked_add_range_max`, HoughBaseAlg.cxx:212-229; the map is `pre ++ suf` with the iterator between;
`none` = loop budget exhausted -/
def addLoop (delta : Int) : Nat → CMap → CMap → Int → Nat → Nat → Max → Option (CMap × Max)
  | 0, _, _, _, _, _, _ => none
  | fuel + 1, pre, suf, blk, ctr, left, mx =>
    match ensure blk suf with
    | [] => none
    | (k, B) :: t =>
      let n := min left (N - ctr)
      let left' := left - n
      let r := addInner blk delta n ctr B mx
      if left' ≤ 0 then some (pre ++ (k, r.1) :: t, r.2)
      else addLoop delta fuel (pre ++ [(k, r.1)]) t (blk + N) 0 left' r.2

/-- `unchecked_add_range_max` with the iterator from `lower_bound`, HoughBaseAlg.cxx:201-249 -/
def addRangeMax (fuel : Nat) (m : CMap) (b e : Int) (delta : Int) (minMax : Int) : Option (CMap × Max) :=
  if b > e then some (m, (none, minMax))
  else
    let blk := b - b % N
    addLoop delta fuel (m.takeWhile (fun x => decide (x.1 < blk))) (m.dropWhile (fun x => decide (x.1 < blk)))
      blk (b % N).toNat (e - b).toNat (none, minMax)

/-- `increment(begin, end)`, HoughBaseAlg.cxx:125-130 -/
def increment (fuel : Nat) (m : CMap) (b e : Int) : Option CMap := (addRangeMax fuel m b e 1 127).map (·.1)
/-- `decrement(begin, end)`, HoughBaseAlg.cxx:132-137 -/
def decrement (fuel : Nat) (m : CMap) (b e : Int) : Option CMap := (addRangeMax fuel m b e (-1) 127).map (·.1)
/-- `increment_and_get_max`, HoughBaseAlg.h:367-370 and 386-389 (default threshold -128) -/
def incrementMax (fuel : Nat) (m : CMap) (b e : Int) (cur : Int := -128) : Option (CMap × Max) := addRangeMax fuel m b e 1 cur

/-- `size_t` subtraction -/
def subSize (a b : Nat) : Nat := if b ≤ a then a - b else 2 ^ 64 + a - b

/-- main loop of `unchecked_set_range`, HoughBaseAlg.cxx:176-187. Line 184 reads `if (left -= n <= 0) break;`, that is
`left -= (n <= 0 ? 1 : 0)` followed by a test of `left`. -/
def setLoop (value : Int) : Nat → CMap → CMap → Int → Nat → Nat → Option CMap
  | 0, _, _, _, _, _ => none
  | fuel + 1, pre, suf, blk, ctr, left =>
    match ensure blk suf with
    | [] => none
    | (k, B) :: t =>
      let n := min left (N - ctr)
      let B' : Block := fun j => if ctr ≤ j ∧ j < ctr + n then value else B j
      let left' := subSize left (if n ≤ 0 then 1 else 0)
      if left' ≠ 0 then some (pre ++ (k, B') :: t)
      else setLoop value fuel (pre ++ [(k, B')]) t (blk + N) 0 left'

/-- `set(begin, end, value)`, HoughBaseAlg.h:337-340, HoughBaseAlg.cxx:165-199 -/
def setRange (fuel : Nat) (m : CMap) (b e value : Int) : Option CMap :=
  if b > e then some m
  else
    let blk := b - b % N
    setLoop value fuel (m.takeWhile (fun x => decide (x.1 < blk))) (m.dropWhile (fun x => decide (x.1 < blk)))
      blk (b % N).toNat (e - b).toNat

/-- inner `for` of `get_max`, HoughBaseAlg.cxx:149-153, which advances the block iterator at *every* counter: `it` is
the rest of the map from the iterator. Incrementing an end iterator is undefined. -/
def getMaxInner (B : Block) : Nat → Nat → CMap → Max → Res (CMap × Max)
  | 0, _, it, mx => .ok (it, mx)
  | n + 1, i, it, mx =>
    match it with
    | [] => .ub
    | (k, _) :: t => getMaxInner B n (i + 1) t (if B i > mx.2 then (some (k + i), B i) else mx)

/-- `while` of `get_max(current_max)`, HoughBaseAlg.cxx:147-154 -/
def getMaxLoop : Nat → CMap → Max → Res Max
  | _, [], mx => .ok mx
  | 0, _ :: _, _ => .ub
  | fuel + 1, (k, B) :: t, mx =>
    match getMaxInner B N 0 ((k, B) :: t) mx with
    | .ok (it, mx') => getMaxLoop fuel it mx'
    | .throw => .throw
    | .ub => .ub

/-- `get_max(current_max)`, HoughBaseAlg.cxx:139-156 -/
def getMax (m : CMap) (cur : Int) : Res Max := getMaxLoop m.length m (none, cur)
/-- `get_max()`, HoughBaseAlg.cxx:158-163: starts from the *largest* counter value -/
def getMaxDefault (m : CMap) : Res Max := getMax m 127

/-! ## The transform -/

/-- `HoughTransform` members, HoughBaseAlg.cxx:101-112. The distance cell of a point at an angle step, a `double`
computation from the tables (lines 753, 765-766), is an arbitrary function `dist x y i`; step 0 is the priming value of
line 753. -/
structure Hough where
  dx : Nat
  dy : Nat
  numAngle : Nat
  dist : Int → Int → Nat → Int
  accum : Nat → CMap
  numAcc : Int

/-- the range `[first_dist, end_dist[` of an angle step, HoughBaseAlg.cxx:789-801 -/
def range (last d : Int) : Int × Int :=
  if last = d then (d, d + 1)
  else (if d > last then last else d + 1, if d > last then d else last + 1)

def setRow (a : Nat → CMap) (i : Nat) (m : CMap) : Nat → CMap := fun j => if j = i then m else a j

/-- the loop over angles of `DoAddPointReturnMax`, HoughBaseAlg.cxx:760-822; result: accumulator, `max`, `max_val` -/
def angleLoop (fuel : Nat) (dist : Nat → Int) (sub : Bool) :
    Nat → Nat → (Nat → CMap) → (Int × Int × Int) → Int → Int → Option ((Nat → CMap) × (Int × Int × Int))
  | 0, _, acc, mx, _, _ => some (acc, mx)
  | n + 1, i, acc, mx, mval, last =>
    let d := dist i
    let r := range last d
    if sub then
      match decrement fuel (acc i) r.1 r.2 with
      | none => none
      | some m => angleLoop fuel dist sub n (i + 1) (setRow acc i m) mx mval d
    else
      match incrementMax fuel (acc i) r.1 r.2 mval with
      | none => none
      | some (m, pm) =>
        let better := pm.2 > mval
        angleLoop fuel dist sub n (i + 1) (setRow acc i m)
          (if better then (pm.2, pm.1.getD 0, (i : Int)) else mx) (if better then pm.2 else mval) d

/-- `DoAddPointReturnMax`, HoughBaseAlg.cxx:740-830 -/
def doAdd (fuel : Nat) (h : Hough) (x y : Int) (sub : Bool) : Option (Hough × (Int × Int × Int)) :=
  match angleLoop fuel (h.dist x y) sub (h.numAngle - 1) 1 h.accum (-1, -1, -1) 2 (h.dist x y 0) with
  | none => none
  | some (acc, mx) => some ({ h with accum := acc, numAcc := if sub then h.numAcc - 1 else h.numAcc + 1 }, mx)

def outside (h : Hough) (x y : Int) : Bool := x > h.dx || y > h.dy || x < 0 || y < 0

/-- `AddPointReturnMax`, HoughBaseAlg.cxx:647-655 -/
def addPoint (fuel : Nat) (h : Hough) (x y : Int) : Option (Hough × (Int × Int × Int)) :=
  if outside h x y then some (h, (0, 0, 0)) else doAdd fuel h x y false

/-- `SubtractPoint`, HoughBaseAlg.cxx:658-663 -/
def subtractPoint (fuel : Nat) (h : Hough) (x y : Int) : Option (Hough × Bool) :=
  if outside h x y then some (h, false) else (doAdd fuel h x y true).map (fun r => (r.1, true))

/-- `GetCell(row, col)`, HoughBaseAlg.cxx:639-642 -/
def getCell (h : Hough) (row : Nat) (col : Int) : Int := cnt (h.accum row) col

end Verif.Hough

import Verif.Basic
import Mathlib.Data.Rat.Defs
import Mathlib.Algebra.Order.Field.Rat
import Mathlib.Data.Rat.Floor
import Mathlib.Data.List.Sort
import Mathlib.Data.List.Dedup
/-!
# Model of `reco_tool::WaveformTools`

Source: `/repo/larreco/HitFinder/HitFinderTools/WaveformTools_tool.cc`. Samples are exact rationals (the code is a template
over `short`, `float` and `double`; NaNs and rounding are not modelled). Histogram filling is dropped. Iterators are positions.
-/
namespace Verif.Wave
open Verif

/-! ## Erosion, dilation, opening, closing -/

/-- `std::min_element` / `max_element` over `[lo, lo+m)`: the first best one; `lo` itself for an empty range. `lt a b` = "a is
strictly better than b". -/
def bestElt (lt : ℚ → ℚ → Bool) (w : Nat → ℚ) (lo m : Nat) : Nat :=
  (List.range' (lo + 1) (m - 1)).foldl (fun b k => if lt (w k) (w b) then k else b) lo

/-- the maximum of `std::minmax_element`: the last best one -/
def lastElt (lt : ℚ → ℚ → Bool) (w : Nat → ℚ) (lo m : Nat) : Nat :=
  (List.range' (lo + 1) (m - 1)).foldl (fun b k => if lt (w b) (w k) then b else k) lo

/-- one of the four loops (WaveformTools_tool.cc:620-645 for the minimum and, independently, the maximum; 722-742; 758-780):
`p` is the position of the current extreme; dereferencing the end is undefined -/
def slideLoop (lt : ℚ → ℚ → Bool) (w : Nat → ℚ) (n h : Nat) : List Nat → Nat → Res (List ℚ)
  | [], _ => .ok []
  | i :: is, p =>
    let p' := if n - i > h then
        (if i ≥ p + h then bestElt lt w (i + 1 - h) (2 * h) else if lt (w (i + h)) (w p) then i + h else p)
      else p
    if p' < n then
      match slideLoop lt w n h is p' with
      | .ok r => .ok (w p' :: r)
      | .throw => .throw
      | .ub => .ub
    else .ub

def ltMin (a b : ℚ) : Bool := decide (a < b)
def ltMax (a b : ℚ) : Bool := decide (b < a)

/-- `*it` of a waveform -/
def at' (w : List ℚ) (k : Nat) : ℚ := w.getD k 0

/-- half window of `getErosionDilationAverageDifference`, WaveformTools_tool.cc:597-598 (the structuring element is not negative) -/
def halfWindow (se n : Nat) : Nat := min (se / 2) n

/-- erosion vector, WaveformTools_tool.cc:596-645 -/
def erosion (se : Nat) (w : List ℚ) : Res (List ℚ) :=
  let h := halfWindow se w.length
  slideLoop ltMin (at' w) w.length h (List.range w.length) (bestElt ltMin (at' w) 0 h)

/-- dilation vector, WaveformTools_tool.cc:596-646 -/
def dilation (se : Nat) (w : List ℚ) : Res (List ℚ) :=
  let h := halfWindow se w.length
  slideLoop ltMax (at' w) w.length h (List.range w.length) (lastElt ltMax (at' w) 0 h)

/-- `getErosionDilationAverageDifference`, WaveformTools_tool.cc:587-660: erosion, dilation, average, difference -/
def eroDil (se : Nat) (w : List ℚ) : Res (List ℚ × List ℚ × List ℚ × List ℚ) :=
  match erosion se w, dilation se w with
  | .ok e, .ok d => .ok (e, d, List.zipWith (fun a b => 1 / 2 * (b + a)) e d, List.zipWith (fun a b => b - a) e d)
  | _, _ => .ub

/-- `getOpeningAndClosing`, opening part, WaveformTools_tool.cc:709-748; the half window is not clamped: the initial
search reads `h` samples -/
def opening (se : Nat) (e : List ℚ) : Res (List ℚ) :=
  if se / 2 > e.length then .ub
  else slideLoop ltMax (at' e) e.length (se / 2) (List.range e.length) (bestElt ltMax (at' e) 0 (se / 2))

/-- closing part, WaveformTools_tool.cc:750-790 -/
def closing (se : Nat) (d : List ℚ) : Res (List ℚ) :=
  if se / 2 > d.length then .ub
  else slideLoop ltMin (at' d) d.length (se / 2) (List.range d.length) (bestElt ltMin (at' d) 0 (se / 2))

/-! ## Smoothing -/

/-- weighted average, WaveformTools_tool.cc:186-188 -/
def tri (w : List ℚ) (t : Nat) : ℚ :=
  (at' w (t - 2) + 2 * at' w (t - 1) + 3 * at' w t + 2 * at' w (t + 1) + at' w (t + 2)) / 9

/-- the loop `while (curInItr++ != stopInItr)`, WaveformTools_tool.cc:184-191: `cur` is the input position before the
increment, `out` the output position; a position past the stop never meets it again and runs off the vector -/
def triLoop (w : List ℚ) (stop : Nat) : Nat → Nat → Nat → List ℚ → Res (List ℚ)
  | 0, _, _, _ => .ub
  | fuel + 1, cur, out, s =>
    if cur = stop then .ok s
    else if cur > stop then .ub
    else triLoop w stop fuel (cur + 1) (out + 1) (s.set out (tri w (cur + 1)))

/-- `std::copy(src + a, src + b, dst + c)` -/
def copy (src : List ℚ) (a b c : Nat) (dst : List ℚ) : List ℚ :=
  (List.range dst.length).map (fun k => if c ≤ k ∧ k < c + (b - a) then at' src (a + (k - c)) else at' dst k)

/-- `vector::resize(n)` -/
def resize (l : List ℚ) (n : Nat) : List ℚ := l.take n ++ List.replicate (n - l.length) 0

/-- `triangleSmooth`, WaveformTools_tool.cc:168-199; `old` is the previous content of the output vector -/
def triangleSmooth (w old : List ℚ) (lowest : Nat) : Res (List ℚ) :=
  let s := if w.length ≠ old.length then resize old w.length else old
  if w.length > 4 then
    if 2 + lowest > w.length then .ub
    else
      let s := copy w 0 (2 + lowest) 0 s
      let s := copy w (w.length - 2) w.length (w.length - 2) s
      triLoop w (w.length - 3) (w.length + 1) (1 + lowest) (2 + lowest) s
  else .ok (copy w 0 w.length 0 s)

/-- sorted copy of a window -/
def sorted (l : List ℚ) : List ℚ := l.insertionSort (· ≤ ·)

/-- the loop of `medianSmooth`, WaveformTools_tool.cc:241-250: `cnt` windows remain, the next starts at `start` -/
def medLoop (w : List ℚ) (nb : Nat) : Nat → Nat → List ℚ → List ℚ
  | 0, _, s => s
  | cnt + 1, start, s =>
    medLoop w nb cnt (start + 1) (s.set (start + nb / 2) ((sorted ((w.drop start).take nb)).getD (nb / 2) 0))

/-- `medianSmooth`, WaveformTools_tool.cc:217-256; with fewer samples than bins an iterator is moved before the beginning -/
def medianSmooth (w old : List ℚ) (nBins : Nat) : Res (List ℚ) :=
  let nb := if nBins % 2 = 0 then nBins + 1 else nBins
  let s := if w.length ≠ old.length then resize old w.length else old
  if w.length < nb then .ub
  else
    let s := copy w 0 (nb / 2) 0 s
    let s := medLoop w nb (w.length - nb) 0 s
    .ok (copy w (w.length - nb + nb / 2) w.length (w.length - nb + nb / 2) s)

/-- the loop of `firstDerivative`, WaveformTools_tool.cc:366-367 -/
def derivLoop (w : List ℚ) : Nat → Nat → List ℚ → List ℚ
  | 0, _, s => s
  | cnt + 1, idx, s => derivLoop w cnt (idx + 1) (s.set idx (1 / 2 * (at' w (idx + 1) - at' w (idx - 1))))

/-- `firstDerivative`, WaveformTools_tool.cc:360-370: `size() - 1` of an empty vector is huge and `at(1)` throws -/
def firstDerivative (w old : List ℚ) : Res (List ℚ) :=
  if w.length = 0 then .throw else .ok (derivLoop w (w.length - 2) 1 (resize old w.length))

/-! ## Truncated mean -/

/-- `std::round`: halves away from zero -/
def roundQ (x : ℚ) : ℤ := if 0 ≤ x then ⌊x + 1 / 2⌋ else ⌈x - 1 / 2⌉

/-- the counting loop, WaveformTools_tool.cc:292-301: `frequencyMap` as a function (0 = absent), `mpCount`, `mpVal` -/
def modeLoop : List ℤ → (ℤ → Nat) × Nat × ℤ → (ℤ → Nat) × Nat × ℤ
  | [], st => st
  | v :: vs, (f, c, m) =>
    let f' : ℤ → Nat := fun k => if k = v then f k + 1 else f k
    if f' v > c then modeLoop vs (f', f' v, v) else modeLoop vs (f', c, m)

/-- the averaging loop, WaveformTools_tool.cc:308-315: returns `(meanSum, meanCnt)` -/
def meanLoop (f : ℤ → Nat) (c : Nat) (m : ℤ) : List ℤ → ℤ × Nat → ℤ × Nat
  | [], st => st
  | idx :: is, (s, n) =>
    if f (m + idx) ≠ 0 ∧ 5 * f (m + idx) > c then meanLoop f c m is (s + (m + idx) * f (m + idx), n + f (m + idx))
    else meanLoop f c m is (s, n)

/-- `getTruncatedMeanRMS`, WaveformTools_tool.cc:276-342: mean, square of the full rms, square of the truncated rms, `nTrunc`.
Simplifications: the squares are returned instead of their roots; `int` overflow is not modelled; an empty waveform gives
0 instead of 0/0. -/
def truncMean (w : List ℚ) : ℚ × ℚ × ℚ × Nat :=
  let bins := w.map (fun v => roundQ (4 * v))
  let (f, c, m) := modeLoop bins (fun _ => 0, 0, 0)
  let range := min 16 (bins.dedup.length / 2 + 1)
  let (s, n) := meanLoop f c m ((List.range (2 * range + 1)).map (fun k : Nat => (k : ℤ) - range)) (0, 0)
  let mean := 1 / 4 * (s : ℚ) / n
  let loc := (w.map (· - mean)).insertionSort (fun a b => |a| ≤ |b|)
  (mean, max 0 ((loc.map (fun x => x * x)).sum / w.length), max 0 (((loc.take n).map (fun x => x * x)).sum / n), n)

/-! ## Peaks -/

/-- `max_element` of the absolute value over `[a, b)`, WaveformTools_tool.cc:404-407 -/
def absMax (w : Nat → ℚ) (a b : Nat) : Nat :=
  (List.range' (a + 1) (b - a - 1)).foldl (fun m k => if |w m| < |w k| then k else m) a

/-- search of the negative lobe, WaveformTools_tool.cc:420-428; `rd` reads a position (undefined past the vector) -/
def lobeFwd (rd : Nat → Res ℚ) (thr : ℚ) (first stop : Nat) : Nat → Nat → Nat → Res Nat
  | 0, _, _ => .ub
  | fuel + 1, t, second =>
    if t = stop then .ok second
    else match rd (t + 1), rd second with
      | .ok v, .ok sv =>
        if v < -thr then lobeFwd rd thr first stop fuel (t + 1) (if v < sv then t + 1 else second)
        else if second ≠ first then .ok second
        else lobeFwd rd thr first stop fuel (t + 1) second
      | _, _ => .ub

/-- search of the positive lobe, WaveformTools_tool.cc:432-440 -/
def lobeBwd (rd : Nat → Res ℚ) (thr : ℚ) (first start : Nat) : Nat → Nat → Nat → Res Nat
  | 0, _, _ => .ub
  | fuel + 1, t, second =>
    if t = start then .ok second
    else match rd (t - 1), rd second with
      | .ok v, .ok sv =>
        if v > thr then lobeBwd rd thr first start fuel (t - 1) (if v > sv then t - 1 else second)
        else if second ≠ first then .ok second
        else lobeBwd rd thr first start fuel (t - 1) second
      | _, _ => .ub

/-- `while (firstItr != startItr) if (*--firstItr < 0.) break;`, WaveformTools_tool.cc:452-453 -/
def backToZero (rd : Nat → Res ℚ) (start : Nat) : Nat → Nat → Res Nat
  | 0, _ => .ub
  | fuel + 1, t => if t = start then .ok t else match rd (t - 1) with
    | .ok v => if v < 0 then .ok (t - 1) else backToZero rd start fuel (t - 1)
    | _ => .ub

/-- `while (secondItr != stopItr) if (*++secondItr > 0.) break;`, WaveformTools_tool.cc:454-455 -/
def fwdToZero (rd : Nat → Res ℚ) (stop : Nat) : Nat → Nat → Res Nat
  | 0, _ => .ub
  | fuel + 1, t => if t = stop then .ok t else match rd (t + 1) with
    | .ok v => if v > 0 then .ok (t + 1) else fwdToZero rd stop fuel (t + 1)
    | _ => .ub

/-- reading a sample through an iterator: undefined outside the vector -/
def rdOf (w : List ℚ) : Nat → Res ℚ := fun k => match w[k]? with
  | some v => .ok v
  | none => .ub

/-- the two lobes `(firstItr, secondItr)` around the largest sample `m`, WaveformTools_tool.cc:416-443 -/
def lobes (w : List ℚ) (thr : ℚ) (start stop m : Nat) : Res (Nat × Nat) :=
  if at' w m > 0 then
    (match lobeFwd (rdOf w) thr m stop (w.length + 2) m m with | .ok s => .ok (m, s) | _ => .ub)
  else (match lobeBwd (rdOf w) thr m start (w.length + 2) m m with | .ok s => .ok (s, m) | _ => .ub)

/-- `findPeaks` on `[start, stop)`, WaveformTools_tool.cc:394-476; ticks are positions in the whole vector (`firstTick` = its
offset). `none` = recursion budget exhausted. -/
def findPeaks (w : List ℚ) (thr : ℚ) : Nat → Nat → Nat → List (Nat × Nat × Nat) → Option (Res (List (Nat × Nat × Nat)))
  | 0, _, _, _ => none
  | fuel + 1, start, stop, out =>
    if stop - start > 4 then
      let m := absMax (at' w) start stop
      if |at' w m| > thr then
        match lobes w thr start stop m with
        | .ok (f, s) =>
          if f ≠ s then
            match backToZero (rdOf w) start (w.length + 2) f, fwdToZero (rdOf w) stop (w.length + 2) s with
            | .ok f', .ok s' =>
              match findPeaks w thr fuel start f' out with
              | some (.ok out1) => findPeaks w thr fuel s' stop (out1 ++ [(f', f + (s - f) / 2, s')])
              | some (.throw) => some .throw
              | some (.ub) => some .ub
              | none => none
            | _, _ => some .ub
          else some (.ok out)
        | _ => some .ub
      else some (.ok out)
    else some (.ok out)

end Verif.Wave

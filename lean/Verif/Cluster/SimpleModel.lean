import Verif.Basic
import Mathlib.Data.List.Basic
import Mathlib.Algebra.Order.Field.Rat
/-!
# Model of `tss::SimpleClustering`

Source: `/repo/larreco/ClusterFinder/TrackShowerSplitter/Segmentation2D/SimpleClustering.{h,cxx}`, `TssHit2D.h`. Wire numbers are
32-bit unsigned, `size_t` is 64-bit unsigned. Ticks are unbounded integers (no overflow of `EndTick() + 1`). A pointer to a hit is
the hit with its number `id`.
-/
namespace Verif.Simple
open Verif

/-- `tss::Hit2D`, TssHit2D.h:25-51 -/
structure Hit where
  id : Nat
  wire : Nat
  peak : ℚ
  start : Int
  stop : Int
deriving DecidableEq

abbrev Cluster := List Hit

/-- `h2.Wire() - 1` in unsigned arithmetic, SimpleClustering.cxx:185 -/
def pred32 (w : Nat) : Nat := (w + (2 ^ 32 - 1)) % 2 ^ 32
/-- `h2.Wire() + 1` in unsigned arithmetic, SimpleClustering.cxx:185 -/
def succ32 (w : Nat) : Nat := (w + 1) % 2 ^ 32

/-- `hitsTouching(const Hit2D&, const Hit2D&)`, SimpleClustering.cxx:180-193 -/
def touch (h1 h2 : Hit) : Bool :=
  if h1.wire = h2.wire ∧ h1.peak = h2.peak then false
  else if h1.wire ≥ pred32 h2.wire ∧ h1.wire ≤ succ32 h2.wire then
    decide ((h2.start ≤ h1.start ∧ h1.start ≤ h2.stop + 1) ∨ (h2.start ≤ h1.stop + 1 ∧ h1.stop ≤ h2.stop) ∨
      (h2.start ≥ h1.start ∧ h1.stop ≥ h2.stop))
  else false

/-- `hitsTouching(const Cluster2D&, const Hit2D&)`, SimpleClustering.cxx:196-202 -/
def touchCH (c : Cluster) (h : Hit) : Bool := c.any (fun x => touch x h)

/-- `hitsTouching(const Cluster2D&, const Cluster2D&)`, SimpleClustering.cxx:205-211 -/
def touchCC (c1 c2 : Cluster) : Bool := c1.any (fun x => touchCH c2 x)

/-- the loop over `j`, SimpleClustering.cxx:222-233; the first argument is the number of rounds left, `clusters.size() - j` -/
def innerJ (i : Nat) : Nat → Nat → List Cluster → Bool → List Cluster × Bool
  | 0, _, cl, m => (cl, m)
  | n + 1, j, cl, m =>
    if touchCC (cl.getD i []) (cl.getD j []) then innerJ i n j ((cl.set i (cl.getD i [] ++ cl.getD j [])).eraseIdx j) true
    else innerJ i n (j + 1) cl m

/-- `clusters.size() - 1` in 64-bit unsigned arithmetic, SimpleClustering.cxx:221 -/
def lastIdx (n : Nat) : Nat := (n + (2 ^ 64 - 1)) % 2 ^ 64

/-- the loop over `i`, SimpleClustering.cxx:220-235; `none`: still looping after `fuel` rounds -/
def outerI : Nat → Nat → List Cluster → Bool → Option (List Cluster × Bool)
  | 0, i, cl, m => if i < lastIdx cl.length then none else some (cl, m)
  | fuel + 1, i, cl, m =>
    if i < lastIdx cl.length then
      outerI fuel (i + 1) (innerJ i (cl.length - (i + 1)) (i + 1) cl m).1 (innerJ i (cl.length - (i + 1)) (i + 1) cl m).2
    else some (cl, m)

/-- `merge`, SimpleClustering.cxx:214-237; `fuel` bounds the rounds of each loop -/
def merge (fuel : Nat) : Nat → List Cluster → Option (List Cluster)
  | 0, _ => none
  | n + 1, cl =>
    match outerI fuel 0 cl false with
    | none => none
    | some (cl, true) => merge fuel n cl
    | some (cl, false) => some cl

/-- the search for a cluster to join, SimpleClustering.cxx:244-256 -/
def insertHit (h : Hit) : List Cluster → List Cluster
  | [] => [[h]]
  | c :: cs => if touchCH c h then (c ++ [h]) :: cs else c :: insertHit h cs

/-- `run`, SimpleClustering.cxx:240-259 and 262-281 -/
def run (fuel : Nat) (inp : List Hit) : Option (List Cluster) := merge fuel fuel (inp.foldl (fun r h => insertHit h r) [])

end Verif.Simple

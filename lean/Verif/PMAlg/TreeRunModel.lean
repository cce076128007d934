import Verif.PMAlg.TreeModel
import Mathlib.Algebra.Order.Field.Rat
import Mathlib.Algebra.Order.Ring.Abs
/-!
# Model of the functions of `pma::Track3D` that act on every track of a tree
Source: `/repo/larreco/RecoAlg/PMAlg/PmaTrack3D.cxx:1960-2228, 2284-2360`. The functions have the same
recursion; it is written once (`run`), with what a function does at a node and at the end of a track as a
parameter. None of the modelled steps changes the pointers between tracks, nodes and segments.
-/
namespace Verif.PMAlg.Tree

/-- what happens in the loop: a node is visited, or the loop over the nodes of a track is over -/
inductive Ev where
  | node (v : Nat)
  | done (t : Nat)
deriving DecidableEq

/-- the tracks `seg->Parent()` of the segments `seg != segThis` that leave a node, in order -/
def others (g : Graph) (t v : Nat) : List Nat := ((g.next v).filter fun s => some s ≠ nextSeg g t v).map g.trk

/-- The recursion of `UpdateParamsInTree`, `TuneSinglePass`, `MakeProjectionInTree`, `SortHitsInTree`,
`GetObjFnInTree` and `ApplyDriftShiftInTree`, PmaTrack3D.cxx:1960-2228 and 2284-2324: for each node from the
first one (or the one after it) its own step, then the recursion into the other tracks that leave it, and at
the end the step of the track. `none` = the budget is used up, or `front()` of a track without nodes. -/
def run {σ : Type} (g : Graph) (step : σ → Ev → σ) : Nat → σ → Nat → Bool → Option σ
  | 0, _, _, _ => none
  | f + 1, st, t, skip =>
    match startNode g t skip with
    | none => none
    | some none => some (step st (.done t))
    | some (some v) =>
      match along g t (f + 1) v with
      | none => none
      | some ns =>
        match ns.foldlM (fun st v => (others g t v).foldlM (fun st u => run g step f st u true) (step st (.node v))) st with
        | none => none
        | some st => some (step st (.done t))

/-! ### Objective function and parameters -/

/-- `GetObjFnInTree`, PmaTrack3D.cxx:2205-2228; `obj t` stands for `GetObjFunction()` of the track -/
def objStep (obj : Nat → ℚ) (x : ℚ) : Ev → ℚ
  | .node _ => x
  | .done t => x + obj t

/-- `UpdateParamsInTree`, PmaTrack3D.cxx:1960-1997; `upd t` stands for `UpdateParams()` of the track. The depth is
only used for a message. -/
def updStep (upd : Nat → Bool) (x : Bool) : Ev → Bool
  | .node _ => x
  | .done t => if !upd t then false else x

/-- `MakeProjectionInTree`, `SortHitsInTree`, PmaTrack3D.cxx:2155-2203: the tracks in the order in which their
`MakeProjection()` or `SortHits()` is called -/
def callStep (l : List Nat) : Ev → List Nat
  | .node _ => l
  | .done t => l ++ [t]

/-! ### Drift shift -/

/-- what a shift along the drift changes: position and offset of the nodes (PmaNode3D.h:113-118), the position of the
hits and assigned points of a track (as the sum of the shifts), `fT0` with its flag -/
structure Sh where
  x : Nat → ℚ
  off : Nat → ℚ
  hit : Nat → ℚ
  t0 : Nat → Option ℚ

/-- `SetT0FromDx`, PmaTrack3D.cxx:2326-2360: `pos` the drift sign of the TPC of the first node, `coef` the
coefficient from ticks to X, `tick` the tick period -/
def t0FromDx (coef tick : ℚ) (pos : Bool) (dx : ℚ) : ℚ :=
  let sign : ℚ := if pos then (if dx > 0 then 1 else -1) else (if dx > 0 then -1 else 1)
  |dx / coef| * sign * tick

/-- the steps of `ApplyDriftShiftInTree`, PmaTrack3D.cxx:2296 and 2311-2323; `pos v` is the drift sign of the TPC of a
node -/
def shStep (g : Graph) (coef tick : ℚ) (pos : Nat → Bool) (dx : ℚ) (s : Sh) : Ev → Sh
  | .node v => { s with
      x := Function.update s.x v (s.x v + dx)
      off := Function.update s.off v (s.off v + dx) }
  | .done t => { s with
      hit := Function.update s.hit t (s.hit t + dx)
      t0 := match (g.nodes t).head? with
        | some v => Function.update s.t0 t (some (t0FromDx coef tick (pos v) (s.off v)))
        | none => s.t0 }

/-- `ApplyDriftShiftInTree`, PmaTrack3D.cxx:2284-2324 -/
def shift (g : Graph) (coef tick : ℚ) (pos : Nat → Bool) (dx : ℚ) (f : Nat) (s : Sh) (t : Nat) : Option Sh :=
  run g (shStep g coef tick pos dx) f s t false

end Verif.PMAlg.Tree

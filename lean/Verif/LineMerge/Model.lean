import Mathlib.Data.Rat.Floor
import Mathlib.Algebra.Order.Field.Rat
import Mathlib.Data.List.Basic

/-!
# `cluster::LineMerger`

Models larreco/ClusterFinder/LineMerger_module.cc.  Numbers are rational instead of floating point; the arc tangent is
an arbitrary function.  The input clusters are valid.  Not modelled: the uncertainties, the quantities computed from the hits by
`StandardClusterParamsAlg`.
-/

namespace Verif.LineMerge

/-- One end of a cluster, larreco/ClusterFinder/LineMerger_module.cc:228-238. -/
structure End where
  wire : ℚ
  tick : ℚ
  charge : ℚ
  angle : ℚ
  opening : ℚ
  deriving DecidableEq, Repr

/-- An input cluster with its hits; `plane` is `none` if it is not valid. -/
structure Cl where
  id : Nat
  view : Nat
  plane : Option Nat
  start : End
  stop : End
  width : ℚ
  hits : List Nat
  deriving DecidableEq, Repr

/-- The settings, larreco/ClusterFinder/LineMerger_module.cc:342-343, and the arc tangent. -/
structure Cfg where
  slope : ℚ
  window : ℚ
  atan : ℚ → ℚ

/-- `SlopeCompatibility`, larreco/ClusterFinder/LineMerger_module.cc:512-519. -/
def slopeOk (c : Cfg) (a b : ℚ) : Bool := decide (|c.atan a - c.atan b| < c.slope)

/-- The square of the distance of two ends, larreco/ClusterFinder/LineMerger_module.cc:531-538. -/
def dist2 (a b : End) : ℚ := (a.wire - b.wire) * (a.wire - b.wire) * (27 / 2) + (a.tick - b.tick) * (a.tick - b.tick)

/-- The root of `d2` is less than the window. -/
def near (c : Cfg) (d2 : ℚ) : Bool := decide (0 < c.window ∧ d2 < c.window * c.window)

/-- `EndpointCompatibility`, larreco/ClusterFinder/LineMerger_module.cc:521-546. -/
def endpoints (c : Cfg) (a b : Cl) : Int :=
  if near c (dist2 a.stop b.start) then 1 else if near c (dist2 a.start b.stop) then -1 else 0

/-- Should the cluster `b` be added to `a`?  larreco/ClusterFinder/LineMerger_module.cc:432-451. -/
def match2 (c : Cfg) (a b : Cl) : Bool :=
  (slopeOk c a.start.angle b.stop.angle || slopeOk c a.stop.angle b.start.angle) && decide (endpoints c a b ≠ 0)

/-- `ClusterMerger::Add` for a merger that is not empty, larreco/ClusterFinder/LineMerger_module.cc:253-276, with that of the
hits, larreco/ClusterFinder/LineMerger_module.cc:319-337. -/
def add (a b : Cl) (prepend : Bool) : Cl :=
  if b.view ≠ a.view then a
  else if b.plane.isSome ∧ a.plane.isSome ∧ b.plane ≠ a.plane then a
  else
    { a with
      start := if b.start.wire < a.start.wire then b.start else a.start
      stop := if b.stop.wire < a.stop.wire then b.stop else a.stop
      width := if b.width > a.width then b.width else a.width
      plane := if a.plane.isSome then a.plane else b.plane
      hits := if prepend then b.hits ++ a.hits else a.hits ++ b.hits }

/-- The loop over the second cluster, larreco/ClusterFinder/LineMerger_module.cc:421-461: the merged cluster and the clusters
that are left (those not marked as matched). -/
def absorb (c : Cfg) : Cl → List Cl → Cl × List Cl
  | a, [] => (a, [])
  | a, b :: t =>
    if match2 c a b then absorb c (add a b (decide (endpoints c a b = 1))) t
    else
      let r := absorb c a t
      (r.1, b :: r.2)

theorem absorb_length (c : Cfg) : ∀ (l : List Cl) (a : Cl), (absorb c a l).2.length ≤ l.length := by
  intro l
  induction l with
  | nil => intro a; simp [absorb]
  | cons b t ih =>
    intro a
    rw [absorb]
    split
    · exact (ih _).trans (Nat.le_succ _)
    · simpa using ih a

/-- The loop over the first cluster, larreco/ClusterFinder/LineMerger_module.cc:404-498.  All clusters before the first one that
is not matched are matched, so the second loop only meets later ones. -/
def merge (c : Cfg) : List Cl → List Cl
  | [] => []
  | a :: t =>
    let r := absorb c a t
    r.1 :: merge c r.2
termination_by l => l.length
decreasing_by
  have := absorb_length c t a
  simp only [List.length_cons]
  omega

/-- The index of a view: U, V, Z are 0, 1, 2 (`geo::View_t`); others are ignored,
larreco/ClusterFinder/LineMerger_module.cc:377-383. -/
def viewIndex (v : Nat) : Option Nat := if v = 0 then some 0 else if v = 1 then some 1 else if v = 2 then some 2 else none

/-- `produce`, larreco/ClusterFinder/LineMerger_module.cc:349-508: view by view. -/
def produce (c : Cfg) (cls : List Cl) : List Cl :=
  (List.range 3).flatMap fun i => merge c (cls.filter fun x => decide (viewIndex x.view = some i))

end Verif.LineMerge

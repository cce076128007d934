import Mathlib.Algebra.Order.Ring.Rat
import Mathlib.Data.Int.Order.Basic
import Mathlib.Algebra.Order.Group.Unbundled.Abs

/-!
# Hit readers, `APAHitFinder_module`, `ClusterPCA_module`, `TCCR`

`larreco/SpacePointSolver/HitReaders/HitsStandard_tool.cc` (R), `larreco/SpacePointSolver/HitReaders/HitsICARUS_tool.cc`
(I), `larreco/HitFinder/APAHitFinder_module.cc` (A), `larreco/ClusterFinder/ClusterPCA_module.cc` (P),
`larreco/RecoAlg/TCAlg/TCCR.cxx` (T).  Hits and clusters are their index in the collection.
-/

namespace Verif.SmallMods

/-- The views. -/
inductive View
  | u | v | z | y | other
deriving DecidableEq

/-! ### Hit readers -/

/-- A hit: key, if `Integral()` is negative or no number, if it is on a collection plane, view, plane. -/
structure RHit where
  key : ℕ
  bad : Bool
  col : Bool
  view : View
  plane : ℕ
deriving DecidableEq

/-- `xhits`, `uhits`, `vhits` and `is2view`. -/
structure Read where
  x : List RHit := []
  u : List RHit := []
  v : List RHit := []
  two : Bool := false
deriving DecidableEq

/-- One hit (R 80-106). -/
def readStep (s : Read) (h : RHit) : Read :=
  if h.bad then s
  else if h.col then
    let s := if h.view = .z then { s with x := s.x ++ [h] } else s
    let s := if h.view = .v then { s with x := s.x ++ [h], two := true } else s
    if h.view = .u ∨ h.view = .y then { s with u := s.u ++ [h], two := true } else s
  else
    let s := if h.view = .u then { s with u := s.u ++ [h] } else s
    if h.view = .v then { s with v := s.v ++ [h] } else s

/-- `HitsStandard::readHits` (R 72-111). -/
def readStandard (hs : List RHit) : Read := hs.foldl readStep {}

/-- `HitsICARUS::readHits` (I 72-96): `x`, `u` and `v` are the collection, first and second induction hits. -/
def readIcarus (hs : List RHit) : Read :=
  hs.foldl (fun s h =>
    if h.bad then s
    else if h.plane = 0 then { s with u := s.u ++ [h] }
    else if h.plane = 1 then { s with v := s.v ++ [h] }
    else { s with x := s.x ++ [h] }) {}

/-! ### `APAHitFinder` -/

/-- A hit of the output: the hit copied, its new wire if it has one, and the hit whose wire and digits are
associated. -/
structure AHit where
  src : ℕ
  wire : Option ℕ
  assn : ℕ
deriving DecidableEq

/-- `APAHitFinder::produce` (A 65-118): `views` are those of the hits, `dis` is what `RunDisambig` gives. -/
def apaHits (views : List View) (dis : List (ℕ × ℕ)) : List AHit :=
  dis.foldl (fun l d => l ++ [⟨d.1, some d.2, d.1⟩])
    (views.zipIdx.foldl (fun l v => if v.1 ≠ .z then l else l ++ [⟨v.2, none, v.2⟩]) [])

/-! ### `ClusterPCA` -/

/-- The view of a cluster (P 115-122): if it is not supported, `fView` is unchanged. -/
def viewNo (last : ℕ) : View → ℕ
  | .u => 0
  | .v => 1
  | .z => 2
  | _ => last

/-- The first loop (P 109-125): `fView` and `ClsIndex`; `none` if the index is not in the array, where the code is
undefined. -/
def clsStep (s : ℕ × List (List ℕ)) (c : View × ℕ) : Option (ℕ × List (List ℕ)) :=
  let f := viewNo s.1 c.1
  if f < 3 then some (f, s.2.modify f (fun l => l ++ [c.2])) else none

/-- `ClusterPCA::analyze` (P 97-155) for one event: the entries of the tree, view and cluster; `fView` is what the last
event left. -/
def analyze (fView : ℕ) (views : List View) : Option (List (ℕ × ℕ)) :=
  (views.zipIdx.foldlM clsStep (fView, [[], [], []])).map (fun s =>
    s.2.zipIdx.flatMap (fun l => l.1.map (fun c => (l.2, c))))

/-! ### `TCCR` -/

/-- The smallest of the distances to the four sides (T 47-56), `FLT_MAX` above them. -/
def nearest (y z y0 y1 z0 z1 big : ℚ) : ℚ :=
  let m := if |y - y0| < big then |y - y0| else big
  let m := if |y - y1| < m then |y - y1| else m
  let m := if |z - z0| < m then |z - z0| else m
  if |z - z1| < m then |z - z1| else m

/-- `CosmicScore` (T 39-64) for the start and the end of a particle. -/
def cosmicScore (sx sy sz ex ey ez y0 y1 z0 z1 big : ℚ) : ℚ :=
  let xmin := min sx ex
  let xmax := max sx ex
  let d := nearest sy sz y0 y1 z0 z1 big + nearest ey ez y0 y1 z0 z1 big
  if xmin < -2 ∨ xmax > 260 ∨ d < 30 then 1 else 0

/-- The loop over the map (T 96-104): `maxe` and `origin`; the map is a list of origin and energy in ascending order. -/
def origin (omap : List (ℤ × ℚ)) : ℤ :=
  (omap.foldl (fun (s : ℚ × ℤ) x => if x.2 > s.1 then (x.2, x.1) else s) (-1, 0)).2

end Verif.SmallMods

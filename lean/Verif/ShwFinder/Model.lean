import Mathlib.Algebra.Order.Ring.Rat

/-!
# `ShowerFinder_module`: showers from clusters in cones at vertices

`larreco/ShowerFinder/ShowerFinder_module.cc`.  Numbers are rational.
-/

namespace Verif.ShwFinder

/-- A hit of a cluster: key, wire and time. -/
structure Hit where
  key : ℕ
  x : ℚ
  y : ℚ

/-- A 2D vertex: `ID`, `Strength`, wire and time. -/
structure Vtx where
  id : ℤ
  strength : ℚ
  x : ℚ
  y : ℚ

/-- One scan: the two corners of the cone relative to its apex, `fScone` times the cosine and the sine of the
two angles (173-191): any numbers here. -/
structure Scan where
  x1 : ℚ
  y1 : ℚ
  x2 : ℚ
  y2 : ℚ

/-- The vertices that are used (122-131). -/
def select (vs : List Vtx) : List Vtx := vs.filter (fun v => v.id = 1 ∨ v.strength = 3)

/-- The test for a hit in the cone (186-191, 214-215).  A division by 0 is 0 here. -/
def inCone (v : Vtx) (s : Scan) (h : Hit) : Bool :=
  let xa := v.x
  let ya := v.y
  let x1 := xa + s.x1
  let y1 := ya + s.y1
  let x2 := xa + s.x2
  let y2 := ya + s.y2
  decide (h.y ≤ (y2 - ya) / (x2 - xa) * h.x + ya) && decide (h.y ≥ (y1 - ya) / (x1 - xa) * h.x + ya)

/-- The loop over the clusters (194-237): `protoShowers`.  State: the clusters found and the counter of the
hits, which is reset after each cluster with hits. -/
def proto (v : Vtx) (s : Scan) (cs : List (List Hit)) : List ℕ :=
  (cs.zipIdx.foldl (fun (a : List ℕ × ℕ) c =>
    if c.1.length = 0 then a
    else
      let n : ℕ := c.1.foldl (fun n h => if inCone v s h then n + 1 else n) a.2
      if (n : ℚ) / (c.1.length : ℚ) ≥ 1 / 2 then (a.1 ++ [c.2], 0) else (a.1, 0)) ([], 0)).1

/-- Number of showers, associations of shower and cluster, and of shower and hit. -/
structure Out where
  n : ℕ := 0
  ca : List (ℕ × ℕ) := []
  ha : List (ℕ × ℕ) := []
deriving DecidableEq

/-- The end of one scan (239-252). -/
def addShower (cs : List (List Hit)) (o : Out) (p : List ℕ) : Out :=
  if p = [] then o
  else
    { n := o.n + 1
      ca := o.ca ++ p.map (fun i => (o.n, i))
      ha := p.foldl (fun l i => l ++ (cs.getD i []).map (fun h => (o.n, h.key))) o.ha }

/-- `produce` (78-272): for each vertex that is used each scan. -/
def produce (vs : List Vtx) (scans : List Scan) (cs : List (List Hit)) : Out :=
  (select vs).foldl (fun o v => scans.foldl (fun o s => addShower cs o (proto v s cs)) o) {}

end Verif.ShwFinder

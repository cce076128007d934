import Verif.Basic
import Mathlib.Data.Rat.Defs
import Mathlib.Algebra.Order.Ring.Rat
/-!
# Model of `cluster::DBScan3DAlg`
Source: `/repo/larreco/RecoAlg/DBScan3DAlg.{h,cxx}`. Points are numbered `0..n-1`; the `cluster_id` members are a
function of the number. Coordinates and parameters are exact rationals (the code uses `float`/`double`); allocation
failures are not modelled.
-/
namespace Verif.DBScan3D

/-- DBScan3DAlg.h:34-35 -/
abbrev UNCLASSIFIED : Int := -1
abbrev NOISE : Int := -2

/-- `point_t`, DBScan3DAlg.h:58-62 (position of the space point and bad channel count) -/
structure Pt where
  x : ℚ
  y : ℚ
  z : ℚ
  bad : Nat
deriving DecidableEq

/-- `dist`, DBScan3DAlg.cxx:205-216: squared distance minus the squared bad channel allowance, at least 0 -/
def dist (w : ℚ) (a b : Pt) : ℚ :=
  max ((a.x - b.x) ^ 2 + (a.y - b.y) ^ 2 + (a.z - b.z) ^ 2 - (((a.bad + b.bad : Nat) : ℚ) * w) ^ 2) 0

/-- the test of DBScan3DAlg.cxx:109 on point numbers; `eps` is the configured epsilon, squared in the constructor
(DBScan3DAlg.cxx:24) -/
def near (eps w : ℚ) (pts : List Pt) (i j : Nat) : Bool :=
  match pts[i]?, pts[j]? with
  | some a, some b => ! decide (dist w a b > eps * eps)
  | _, _ => false

abbrev Labels := Nat → Int

def upd (lab : Labels) (i : Nat) (c : Int) : Labels := fun j => if j = i then c else lab j

section
variable (n minpts : Nat) (nr : Nat → Nat → Bool)

/-- `get_epsilon_neighbours`, DBScan3DAlg.cxx:100-120: a list of the other points within epsilon -/
def nbrs (i : Nat) : List Nat := (List.range n).filter (fun j => decide (j ≠ i) && nr i j)

/-- loop body of `spread`, DBScan3DAlg.cxx:184-196; state: labels and the seeds still to be visited -/
def touch (c : Int) (s : Labels × List Nat) (d : Nat) : Labels × List Nat :=
  if s.1 d = NOISE ∨ s.1 d = UNCLASSIFIED then
    (upd s.1 d c, if s.1 d = UNCLASSIFIED then s.2 ++ [d] else s.2)
  else s

/-- `spread`, DBScan3DAlg.cxx:174-203 -/
def spread (c : Int) (lab : Labels) (pend : List Nat) (i : Nat) : Labels × List Nat :=
  if (nbrs n nr i).length ≥ minpts then (nbrs n nr i).foldl (touch c) (lab, pend) else (lab, pend)

/-- the growing `while (h)` loop over the seeds, DBScan3DAlg.cxx:161-165; `none` = not finished within the budget -/
def seedLoop (c : Int) : Nat → Labels → List Nat → Option Labels
  | _, lab, [] => some lab
  | 0, _, _ :: _ => none
  | fuel + 1, lab, h :: t => let s := spread n minpts nr c lab t h; seedLoop c fuel s.1 s.2

/-- `expand`, DBScan3DAlg.cxx:144-172 (`true` = CORE_POINT) -/
def expand (fuel : Nat) (lab : Labels) (i : Nat) (c : Nat) : Option (Labels × Bool) :=
  if (nbrs n nr i).length < minpts then some (upd lab i NOISE, false)
  else
    let lab1 := (nbrs n nr i).foldl (fun l j => upd l j c) (upd lab i c)
    (seedLoop n minpts nr c fuel lab1 (nbrs n nr i)).map (fun l => (l, true))

/-- loop of `dbscan`, DBScan3DAlg.cxx:134-142, over the points in `is`; returns labels and the number of clusters -/
def scanLoop (fuel : Nat) : List Nat → Labels → Nat → Option (Labels × Nat)
  | [], lab, c => some (lab, c)
  | i :: is, lab, c =>
    if lab i = UNCLASSIFIED then
      match expand n minpts nr fuel lab i c with
      | none => none
      | some (lab', core) => scanLoop fuel is lab' (if core then c + 1 else c)
    else scanLoop fuel is lab c

/-- `dbscan`, on points as left by `init` (all unclassified, DBScan3DAlg.cxx:56) -/
def dbscanOn (fuel : Nat) : Option (Labels × Nat) :=
  scanLoop n minpts nr fuel (List.range n) (fun _ => UNCLASSIFIED) 0
end

/-- `init` followed by `dbscan` on the given points -/
def dbscan (fuel : Nat) (eps w : ℚ) (minpts : Nat) (pts : List Pt) : Option (Labels × Nat) :=
  dbscanOn pts.length minpts (near eps w pts) fuel

end Verif.DBScan3D

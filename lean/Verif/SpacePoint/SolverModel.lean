import Verif.Basic
import Mathlib.Algebra.Order.Field.Rat
import Mathlib.Data.List.Dedup
/-!
# Model of the space point solver

Source: `/repo/larreco/SpacePointSolver/QuadExpr.{h,cxx}`, `Solver.{h,cxx}`. `double` is modelled by exact rationals; a division
by zero is treated case by case (`vertex`). Pointers to space charges and induction wires are numbers. `abort()` is `.throw`;
dereferencing a null pointer is `.ub`. Not modelled: coordinates, channel numbers, printing, `delete`.
-/
namespace Verif.Solver
open Verif

/-! ## Quadratic expressions -/

/-- `QuadExpr`, QuadExpr.h:8-34: `a*x^2 + b*x + c` -/
structure Quad where
  a : ℚ
  b : ℚ
  c : ℚ
deriving DecidableEq, Repr

namespace Quad
/-- implicit constructor from a number, QuadExpr.h:10 -/
def const (v : ℚ) : Quad := ⟨0, 0, v⟩
/-- `QuadExpr::X`, QuadExpr.cxx:8-13 -/
def X : Quad := ⟨0, 1, 0⟩
/-- `operator+`, `operator+=`, QuadExpr.cxx:15-28 -/
def add (e f : Quad) : Quad := ⟨e.a + f.a, e.b + f.b, e.c + f.c⟩
/-- `operator-`, `operator-=`, QuadExpr.cxx:30-43 -/
def sub (e f : Quad) : Quad := ⟨e.a - f.a, e.b - f.b, e.c - f.c⟩
/-- `operator*`, QuadExpr.cxx:45-59 -/
def mul (e f : Quad) : Res Quad :=
  if (e.b ≠ 0 ∧ f.a ≠ 0) ∨ (e.a ≠ 0 ∧ f.b ≠ 0) ∨ (e.a ≠ 0 ∧ f.a ≠ 0) then .throw
  else .ok ⟨e.c * f.a + e.a * f.c + e.b * f.b, e.c * f.b + e.b * f.c, e.c * f.c⟩
/-- `Eval`, QuadExpr.cxx:67-70 -/
def eval (e : Quad) (x : ℚ) : ℚ := e.a * x * x + e.b * x + e.c
end Quad

/-! ## Configuration and state -/

/-- the fixed part of the problem: induction wires of each space charge (null = none), its neighbours with couplings,
charge of each induction wire (Solver.h:15-57) -/
structure Cfg where
  w1 : Nat → Option Nat
  w2 : Nat → Option Nat
  nei : Nat → List (Nat × ℚ)
  q : Nat → ℚ

/-- the part that changes: `SpaceCharge::fPred`, `SpaceCharge::fNeiPotential`, `InductionWireHit::fPred` -/
structure State where
  pred : Nat → ℚ
  pot : Nat → ℚ
  wpred : Nat → ℚ

/-- everything zero, as constructed (Solver.cxx:16, 27) -/
def State.zero : State := ⟨fun _ => 0, fun _ => 0, fun _ => 0⟩

def bump (f : Nat → ℚ) (k : Nat) (d : ℚ) : Nat → ℚ := fun j => if j = k then f j + d else f j

/-- `if (wire) wire->fPred += dq` -/
def bumpWire (f : Nat → ℚ) (w : Option Nat) (d : ℚ) : Nat → ℚ :=
  match w with
  | none => f
  | some k => bump f k d

/-- `SpaceCharge::AddCharge`, Solver.cxx:32-41 -/
def addCharge (cfg : Cfg) (k : Nat) (dq : ℚ) (s : State) : State where
  pred := bump s.pred k dq
  pot := (cfg.nei k).foldl (fun p e => bump p e.1 (dq * e.2)) s.pot
  wpred := bumpWire (bumpWire s.wpred (cfg.w1 k) dq) (cfg.w2 k) dq

/-- constructor of `CollectionWireHit`, Solver.cxx:44-57 -/
def newWire (cfg : Cfg) (q : ℚ) (cross : List Nat) (s : State) : Res State :=
  if q < 0 then .throw else .ok (cross.foldl (fun s k => addCharge cfg k (q / cross.length) s) s)

/-! ## Metrics -/

/-- `Metric(double, QuadExpr)`, Solver.cxx:76-79: `sqr(q - p)` -/
def wireExpr (q : ℚ) (p : Quad) : Res Quad := ((Quad.const q).sub p).mul ((Quad.const q).sub p)

/-- one wire term of the pair metric, Solver.cxx:150-166 and (second plane) 168-184 -/
def wirePair (cfg : Cfg) (s : State) (wi wj : Option Nat) (ret : Quad) : Res Quad :=
  if wi = wj then
    match wi with
    | none => .ok ret
    | some w => .ok (ret.add (Quad.const ((cfg.q w - s.wpred w) * (cfg.q w - s.wpred w))))
  else do
    let ret ← match wi with
      | none => pure ret
      | some w => do pure (ret.add (← wireExpr (cfg.q w) ((Quad.const (s.wpred w)).add Quad.X)))
    match wj with
      | none => pure ret
      | some w => do pure (ret.add (← wireExpr (cfg.q w) ((Quad.const (s.wpred w)).sub Quad.X)))

/-- coupling found by the search for `scj` among the neighbours of `sci`, Solver.cxx:138-139 -/
def firstCoupling (l : List (Nat × ℚ)) (j : Nat) : Option ℚ := (l.find? (fun e => decide (e.1 = j))).map (·.2)

/-- the self energy and interaction terms of the pair metric, Solver.cxx:123-150 -/
def alphaPair (cfg : Cfg) (α : ℚ) (s : State) (i j : Nat) : Res Quad :=
  if α ≠ 0 then do
    let pi := (Quad.const (s.pred i)).add Quad.X
    let pj := (Quad.const (s.pred j)).sub Quad.X
    let ret := (Quad.const 0).sub (← (← pi.mul pi).mul (Quad.const α))
    let ret := ret.sub (← (← pj.mul pj).mul (Quad.const α))
    let ret := ret.sub (← (← pi.mul (Quad.const (2 * α))).mul (Quad.const (s.pot i)))
    let ret := ret.sub (← (← pj.mul (Quad.const (2 * α))).mul (Quad.const (s.pot j)))
    match firstCoupling (cfg.nei i) j with
    | none => pure ret
    | some c => do
      let ret := ret.add (← (← (← pi.mul (Quad.const (2 * α))).mul (Quad.const (s.pred j))).mul (Quad.const c))
      let ret := ret.add (← (← (← pj.mul (Quad.const (2 * α))).mul (Quad.const (s.pred i))).mul (Quad.const c))
      let ret := ret.sub (← (← (← pi.mul (Quad.const (2 * α))).mul pj).mul (Quad.const c))
      pure ret
  else pure (Quad.const 0)

/-- `Metric(const SpaceCharge*, const SpaceCharge*, double)`, Solver.cxx:116-186 -/
def pairMetric (cfg : Cfg) (α : ℚ) (s : State) (i j : Nat) : Res Quad := do
  let ret ← alphaPair cfg α s i j
  let ret ← wirePair cfg s (cfg.w1 i) (cfg.w1 j) ret
  wirePair cfg s (cfg.w2 i) (cfg.w2 j) ret

/-- the self energy terms of `Metric(const SpaceCharge*, double)`, Solver.cxx:193-202 -/
def oneAlpha (α : ℚ) (s : State) (k : Nat) : Res Quad :=
  if α ≠ 0 then do
    let p := (Quad.const (s.pred k)).add Quad.X
    let ret := (Quad.const 0).sub (← (← p.mul p).mul (Quad.const α))
    pure (ret.sub (← (← p.mul (Quad.const (2 * α))).mul (Quad.const (s.pot k))))
  else pure (Quad.const 0)

/-- its wire terms, Solver.cxx:204-209: both wires are dereferenced unchecked -/
def oneWires (cfg : Cfg) (s : State) (ret : Quad) : Option Nat → Option Nat → Res Quad
  | some u, some v => do
    let ret := ret.add (← wireExpr (cfg.q u) ((Quad.const (s.wpred u)).add Quad.X))
    pure (ret.add (← wireExpr (cfg.q v) ((Quad.const (s.wpred v)).add Quad.X)))
  | _, _ => .ub

/-- `Metric(const SpaceCharge*, double)`, Solver.cxx:189-212 -/
def oneMetric (cfg : Cfg) (α : ℚ) (s : State) (k : Nat) : Res Quad := do
  let ret ← oneAlpha α s k
  oneWires cfg s ret (cfg.w1 k) (cfg.w2 k)

/-- the set of induction wires of some space charges, Solver.cxx:86-89 -/
def wiresOf (cfg : Cfg) (scs : List Nat) : List Nat := ((scs.filterMap cfg.w1) ++ (scs.filterMap cfg.w2)).dedup

/-- `Metric(const std::vector<SpaceCharge*>&, double)`, Solver.cxx:82-104 (exact arithmetic: the order of summation is not kept) -/
def metric (cfg : Cfg) (α : ℚ) (scs : List Nat) (s : State) : ℚ :=
  (if α ≠ 0 then (scs.map (fun k => -(α * (s.pred k * s.pred k)) - α * s.pred k * s.pot k)).sum else 0) +
  ((wiresOf cfg scs).map (fun w => (cfg.q w - s.wpred w) * (cfg.q w - s.wpred w))).sum

/-! ## Solving -/

/-- outcome of `-Linear() / (2 * Quadratic())` -/
inductive Vertex where
  | num (x : ℚ)
  | posInf
  | negInf
  | nan

/-- Solver.cxx:221, 288; `z` tells whether a zero denominator is a negative zero -/
def vertex (z : Bool) (e : Quad) : Vertex :=
  if e.a ≠ 0 then .num (-e.b / (2 * e.a))
  else if e.b = 0 then .nan
  else if decide (e.b < 0) = !z then .posInf else .negInf

/-- `std::min(xmax, x)` then `std::max(xmin, x)`, Solver.cxx:228-229 (comparisons with NaN are false) -/
def clampBoth (xmin xmax : ℚ) : Vertex → ℚ
  | .num x => max xmin (min xmax x)
  | .posInf => max xmin xmax
  | .negInf => xmin
  | .nan => max xmin xmax

/-- `SolvePair`, Solver.cxx:215-257 -/
def solvePair (cfg : Cfg) (α : ℚ) (z : Bool) (s : State) (i j : Nat) : Res ℚ := do
  let e ← pairMetric cfg α s i j
  let xmin := -s.pred i
  let xmax := s.pred j
  let x := clampBoth xmin xmax (vertex z e)
  let cn := e.eval xmin
  let cp := e.eval xmax
  if min (min cp cn) (e.eval x) > e.eval 0 + 1 then .throw
  else if min cn cp < e.eval x then (if cn < cp then .ok xmin else .ok xmax)
  else .ok x

/-- oracle for the sign of zero denominators -/
abbrev Signs := State → Nat → Nat → Bool

/-- inner loop of `Iterate(CollectionWireHit*)`, Solver.cxx:268-278 -/
def innerLoop (cfg : Cfg) (α : ℚ) (z : Signs) (i : Nat) : List Nat → State → Res State
  | [], s => .ok s
  | j :: js, s => do
    let x ← solvePair cfg α (z s i j) s i j
    if x = 0 then innerLoop cfg α z i js s
    else innerLoop cfg α z i js (addCharge cfg j (-x) (addCharge cfg i x s))

/-- `Iterate(CollectionWireHit*, double)`, Solver.cxx:260-280 -/
def iterateWire (cfg : Cfg) (α : ℚ) (z : Signs) : List Nat → State → Res State
  | [], s => .ok s
  | i :: rest, s => do
    let s ← innerLoop cfg α z i rest s
    iterateWire cfg α z rest s

/-- `Iterate(SpaceCharge*, double)`, Solver.cxx:283-307; `.ub` also stands for an infinite charge being added -/
def iterateOrphan (cfg : Cfg) (α : ℚ) (z : Signs) (k : Nat) (s : State) : Res State := do
  let e ← oneMetric cfg α s k
  let xmin := -s.pred k
  match vertex (z s k k) e with
  | .posInf => .ub
  | .num v =>
    let x := max xmin v
    if e.eval xmin < e.eval x then .ok (addCharge cfg k xmin s) else .ok (addCharge cfg k x s)
  | _ => .ok (addCharge cfg k xmin s)

/-- the do-while loop of `Iterate(cwires, ...)`, Solver.cxx:317-324; `none` = still looping after `fuel` rounds -/
def visitLoop (cfg : Cfg) (α : ℚ) (z : Signs) (cwires : List (List Nat)) : Nat → Nat → State → Option (Res State)
  | 0, _, _ => none
  | fuel + 1, idx, s =>
    match iterateWire cfg α z (cwires.getD idx []) s with
    | .ok s =>
      if (idx + 1299827) % cwires.length ≠ 0 then visitLoop cfg α z cwires fuel ((idx + 1299827) % cwires.length) s
      else some (.ok s)
    | .throw => some .throw
    | .ub => some .ub

/-- the final loop over the orphans, Solver.cxx:327-328 -/
def orphanLoop (cfg : Cfg) (α : ℚ) (z : Signs) : List Nat → State → Res State
  | [], s => .ok s
  | k :: ks, s => do
    let s ← iterateOrphan cfg α z k s
    orphanLoop cfg α z ks s

/-- `Iterate(cwires, orphanSCs, alpha)`, Solver.cxx:310-329 -/
def iterateAll (cfg : Cfg) (α : ℚ) (z : Signs) (cwires : List (List Nat)) (orphans : List Nat) (s : State) : Option (Res State) :=
  if cwires ≠ [] then
    match visitLoop cfg α z cwires (cwires.length + 1) 0 s with
    | some (.ok s) => some (orphanLoop cfg α z orphans s)
    | r => r
  else some (orphanLoop cfg α z orphans s)

end Verif.Solver

import Mathlib.Algebra.Order.Ring.Rat
import Mathlib.Algebra.Order.Group.Abs
import Mathlib.Algebra.Order.Field.Basic

/-!
# `pma::Node3D`: limits of a node and its optimisation along the gradient

`larreco/RecoAlg/PMAlg/PmaNode3D.cxx`.  Numbers are rational.  The objective function of the node
(`GetObjFunction`, 599-602) as a function of the position, with hits and neighbours fixed, is any function.
-/

namespace Verif.PmaNode

structure V3 where
  x : ℚ
  y : ℚ
  z : ℚ
deriving DecidableEq

def V3.add (a b : V3) : V3 := ⟨a.x + b.x, a.y + b.y, a.z + b.z⟩
def V3.smul (t : ℚ) (a : V3) : V3 := ⟨t * a.x, t * a.y, t * a.z⟩

/-- A node: the limits `fMinX .. fMaxZ` (68-84), `fMargin`, the step `dxi` of the gradient (its square
root is not modelled, 622), `fGradFixed`, and the objective. -/
structure Node where
  lo : V3
  hi : V3
  margin : ℚ
  dxi : ℚ
  fixX : Bool
  fixY : Bool
  fixZ : Bool
  f : V3 → ℚ

/-- The first and second coordinate of the test against limits in `LimitPoint3D` (139-146 and so on). -/
def lim1 (lo hi m v : ℚ) : ℚ × Bool :=
  let (v1, b1) := if v < lo - m then (lo - m, true) else (v, false)
  if v1 > hi + m then (hi + m, true) else (v1, b1)

/-- `LimitPoint3D` (135-167) and `SetPoint3D` (178-186): the new place and whether it was accepted. -/
def setPoint (n : Node) (p : V3) : V3 × Bool :=
  let (x, bx) := lim1 n.lo.x n.hi.x n.margin p.x
  let (y, bY) := lim1 n.lo.y n.hi.y n.margin p.y
  let (z, bz) := lim1 n.lo.z n.hi.z n.margin p.z
  (⟨x, y, z⟩, !(bx || bY || bz))

/-- `GetDistToWall` (89-106). -/
def distToWall (n : Node) (p : V3) : ℚ :=
  let d := p.x - n.lo.x
  let d := if n.hi.x - p.x < d then n.hi.x - p.x else d
  let d := if p.y - n.lo.y < d then p.y - n.lo.y else d
  let d := if n.hi.y - p.y < d then n.hi.y - p.y else d
  let d := if p.z - n.lo.z < d then p.z - n.lo.z else d
  if n.hi.z - p.z < d then n.hi.z - p.z else d

/-- `SameTPC` (108-116). -/
def sameTPC (n : Node) (p : V3) (m : ℚ) : Bool :=
  decide (n.lo.x - m ≤ p.x) && decide (p.x ≤ n.hi.x + m) &&
  decide (n.lo.y - m ≤ p.y) && decide (p.y ≤ n.hi.y + m) &&
  decide (n.lo.z - m ≤ p.z) && decide (p.z ≤ n.hi.z + m)

/-- One component of the gradient (631-639): the objective above and below, at the places after the
limits; `g0` is the objective at the start. -/
def comp (n : Node) (g0 : ℚ) (up dn : V3) : ℚ :=
  let gi := n.f (setPoint n up).1
  let a := (g0 - gi) / n.dxi
  let gi := n.f (setPoint n dn).1
  1 / 2 * (a + (gi - g0) / n.dxi)

/-- `MakeGradient` (604-676): the value returned, the gradient (from the previous one `old`) and the place
of the node after it. -/
def makeGradient (n : Node) (old p : V3) : ℚ × V3 × V3 :=
  if n.dxi < 6 / 10 ^ 37 then (0, old, p)
  else
    let g0 := n.f p
    let gx := if n.fixX then old.x else comp n g0 ⟨p.x + n.dxi, p.y, p.z⟩ ⟨p.x - n.dxi, p.y, p.z⟩
    let gy := if n.fixY then old.y else comp n g0 ⟨p.x, p.y + n.dxi, p.z⟩ ⟨p.x, p.y - n.dxi, p.z⟩
    let gz := if n.fixZ then old.z else comp n g0 ⟨p.x, p.y, p.z + n.dxi⟩ ⟨p.x, p.y, p.z - n.dxi⟩
    let q := (setPoint n p).1
    if gx * gx + gy * gy + gz * gz < 6 / 10 ^ 37 then (0, ⟨gx, gy, gz⟩, q) else (g0, ⟨gx, gy, gz⟩, q)

def zeroTol : ℚ := 1 / 10 ^ 15
def eps : ℚ := 6 / 10 ^ 37

/-- What a part of the search ends with: the value returned and the place of the node, or the three points
with their objectives, the number of steps and the place of the node. -/
inductive Res where
  | done (r : ℚ) (p : V3)
  | go (t1 g1 t2 g2 t3 g3 : ℚ) (steps : ℕ) (p : V3)
deriving DecidableEq

/-- The place `tmp + fGradient * t` (704-705). -/
def at' (tmp grad : V3) (t : ℚ) : V3 := tmp.add (V3.smul t grad)

/-- The first loop (690-725).  The first argument is 1001 minus the steps done.  A division by an objective
of 0 is 0 here (the code: infinite). -/
def first (n : Node) (tmp grad : V3) (g0 : ℚ) : ℕ → ℚ → ℚ → ℚ → ℚ → ℚ → Res
  | 0, _, _, _, _, _ => .done 0 (setPoint n tmp).1
  | k + 1, alfa, t2, g2, t3, g3 =>
    let t1 := t2
    let g1 := g2
    let t2 := t3
    let g2 := g3
    let alfa := alfa * (5 / 4)
    let t3 := t3 + alfa
    let s := setPoint n (at' tmp grad t3)
    let g3 := n.f s.1
    if !s.2 then
      if g3 < g2 then .done ((g0 - g3) / g3) s.1 else .done 0 (setPoint n tmp).1
    else if g3 < zeroTol then .done 0 s.1
    else if k = 0 then .done 0 (setPoint n tmp).1
    else if g3 < g2 then first n tmp grad g0 k alfa t2 g2 t3 g3
    else .go t1 g1 t2 g2 t3 g3 (1001 - k) s.1

/-- The second loop (729-773); the first argument limits the rounds of the model, `none` is when it is
used up.  In the exits at 754-763 the point that is chosen is not set: the node stays at `s.1`. -/
def second (n : Node) (tmp grad : V3) (g0 tol : ℚ) : ℕ → ℚ → ℚ → ℚ → ℚ → Option Res
  | 0, _, _, _, _ => none
  | k + 1, t1, g1, t2, g2 =>
    let t3 := t2
    let g3 := g2
    let t2 := (t1 * g3 + t3 * g1) / (g1 + g3)
    let t2 := 1 / 20 * t3 + 19 / 20 * t2
    if |t2 - t1| < tol then some (.done 0 (setPoint n tmp).1)
    else
      let s := setPoint n (at' tmp grad t2)
      let g2 := n.f s.1
      if !s.2 then
        if g2 < g0 then some (.done ((g0 - g2) / g2) s.1)
        else if g1 < g0 then some (.done ((g0 - g1) / g1) s.1)
        else if g3 < g0 then some (.done ((g0 - g3) / g3) s.1)
        else some (.done 0 (setPoint n tmp).1)
      else if g2 < zeroTol then some (.done 0 s.1)
      else if g2 ≥ g1 then second n tmp grad g0 tol k t1 g1 t2 g2
      else some (.go t1 g1 t2 g2 t3 g3 0 s.1)

/-- The point of the parabola through three points (786); if it is outside, that of 787. -/
def newT (t1 g1 t2 g2 t3 g3 p1 p2 : ℚ) : ℚ :=
  let t := t2 + ((t2 - t1) * p1 - (t2 - t3) * p2) / (2 * (p2 - p1))
  if t ≤ t1 ∨ t ≥ t3 then (t1 * g3 + t3 * g1) / (g1 + g3) else t

/-- The third loop (776-846); `g` is the last objective and `p` the place of the node.  The result is the
value returned and the place of the node. -/
def third (n : Node) (tmp grad : V3) (g0 tol : ℚ) :
    ℕ → ℚ → ℚ → ℚ → ℚ → ℚ → ℚ → ℚ → V3 → Option (ℚ × V3)
  | 0, _, _, _, _, _, _, _, _ => none
  | k + 1, t1, g1, t2, g2, t3, g3, g, p =>
    if ¬ |t1 - t3| > tol then some ((g0 - g) / g, p)
    else if |t2 - t1| < eps ∨ |t2 - t3| < eps then some ((g0 - g) / g, p)
    else if |g2 - g1| < eps ∧ |g2 - g3| < eps then some ((g0 - g) / g, p)
    else
      let p1 := (t2 - t1) * (g2 - g3)
      let p2 := (t2 - t3) * (g2 - g1)
      if |p1 - p2| < eps then some ((g0 - g) / g, p)
      else
        let t := newT t1 g1 t2 g2 t3 g3 p1 p2
        let s := setPoint n (at' tmp grad t)
        let g := n.f s.1
        if !s.2 then
          if g < g0 ∧ g < g1 ∧ g < g3 then some ((g0 - g) / g, s.1)
          else if g1 < g0 ∧ g1 < g3 then some ((g0 - g1) / g1, s.1)
          else if g3 < g0 then some ((g0 - g3) / g3, s.1)
          else some (0, (setPoint n tmp).1)
        else if g < zeroTol then some (0, s.1)
        else if |t - t2| < 1 / 5 * tol then some ((g0 - g) / g, s.1)
        else if g < g2 then
          if t < t2 then third n tmp grad g0 tol k t1 g1 t g t2 g2 g s.1
          else third n tmp grad g0 tol k t2 g2 t g t3 g3 g s.1
        else
          if t < t2 then third n tmp grad g0 tol k t g t2 g2 t3 g3 g s.1
          else third n tmp grad g0 tol k t1 g1 t2 g2 t g g s.1

/-- `StepWithGradient` (678-849): the value returned, the gradient and the place of the node.  The first
argument limits the rounds of the last two loops of the model. -/
def step (fuel : ℕ) (n : Node) (alfa tol : ℚ) (old tmp : V3) : Option (ℚ × V3 × V3) :=
  let (g, grad, pos) := makeGradient n old tmp
  if g < zeroTol then some (0, grad, pos)
  else
    match first n tmp grad g 1001 (alfa * (4 / 5)) 0 g 0 g with
    | .done r p => some (r, grad, p)
    | .go t1 g1 t2 g2 t3 g3 steps p =>
      if steps = 1 then
        match second n tmp grad g tol fuel t1 g1 t3 g3 with
        | none => none
        | some (.done r p) => some (r, grad, p)
        | some (.go t1 g1 t2 g2 t3 g3 _ p) =>
          (third n tmp grad g tol fuel t1 g1 t2 g2 t3 g3 g p).map (fun x => (x.1, grad, x.2))
      else
        (third n tmp grad g tol fuel t1 g1 t2 g2 t3 g3 g p).map (fun x => (x.1, grad, x.2))

/-- `Optimize` (851-858): the gradient and the place of the node.  `d` is the step of the gradient for a
place (606-622: it depends on the lengths of the segments). -/
def optimize (fuel : ℕ) (n : Node) (d : V3 → ℚ) (frozen : Bool) (old p : V3) : Option (V3 × V3) :=
  if frozen then some (old, p)
  else
    match step fuel { n with dxi := d p } (1 / 10) (1 / 500) old p with
    | none => none
    | some (dg, gr, q) =>
      match (if dg > 1 / 100 then step fuel { n with dxi := d q } (3 / 100) (1 / 10000) gr q
             else some (dg, gr, q)) with
      | none => none
      | some (dg, gr, q) =>
        match (if dg > 0 then step fuel { n with dxi := d q } (3 / 100) (1 / 10000) gr q
               else some (dg, gr, q)) with
        | none => none
        | some (_, gr, q) => some (gr, q)

end Verif.PmaNode

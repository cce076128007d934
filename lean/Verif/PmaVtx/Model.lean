import Mathlib.Algebra.Order.Ring.Rat
import Mathlib.Data.List.Basic

/-!
# Vertices of tracks: `PMAlgVertexing` and `VtxCandidate`

`larreco/RecoAlg/PMAlg/PmaVtxCandidate.cxx` (C), `larreco/RecoAlg/PMAlgVertexing.cxx` (V).  Numbers are rational.
`Compute` (the fit of a centre) and the geometry of tracks are functions of the tracks and segments; they are
given in `Env`.
-/

namespace Verif.PmaVtx

/-- What is given: `att`, if the trees of two tracks are attached (C 46, `Track3D::IsAttachedTo`); `len`, the
length of a track; and functions of the tracks and segments of a candidate: `far`, if the centres are more than
10 apart (C 280-281); `test`, the weighted distance of two centres (C 235-243); `close`, if two centres are less
than 15 apart (V 218); `mse`, the result of `Compute`; `angle`, `MaxAngle(1.0)`. -/
structure Env where
  att : ℕ → ℕ → Bool
  len : ℕ → ℚ
  far : List (ℕ × ℕ) → List (ℕ × ℕ) → Bool
  test : List (ℕ × ℕ) → List (ℕ × ℕ) → ℚ
  close : List (ℕ × ℕ) → List (ℕ × ℕ) → Bool
  mse : List (ℕ × ℕ) → ℚ
  angle : List (ℕ × ℕ) → ℚ

/-- A candidate: `fAssigned` (track and segment), and `fAssigned` at the last `Compute`, which gives the centre. -/
structure Cand where
  tr : List (ℕ × ℕ)
  fit : List (ℕ × ℕ)
deriving DecidableEq

/-- `Has(trk)` (C 26-31). -/
def has (l : List (ℕ × ℕ)) (t : ℕ) : Bool := l.any (fun x => t == x.1)

/-- `Has(other)` (C 33-38). -/
def hasC (c o : Cand) : Bool := o.tr.all (fun t => has c.tr t.1)

/-- `IsAttached(trk)` (C 40-52). -/
def isAtt (e : Env) (l : List (ℕ × ℕ)) (t : ℕ) : Bool := l.any (fun x => e.att t x.1)

/-- `IsAttached(other)` (C 54-59). -/
def isAttC (e : Env) (c o : Cand) : Bool := o.tr.any (fun t => isAtt e c.tr t.1)

/-- `HasLoops` (C 61-76). -/
def hasLoops (e : Env) (c : Cand) : Bool :=
  c.tr.zipIdx.any (fun t => c.tr.zipIdx.any (fun u => t.2 != u.2 && e.att t.1.1 u.1.1))

/-- The loop over the tracks of the other candidate (C 289-298): the tracks, how many are new, and whether an
attached track stopped it. -/
def mergeGo (e : Env) : List (ℕ × ℕ) → List (ℕ × ℕ) → ℕ → List (ℕ × ℕ) × ℕ × Bool
  | [], l, n => (l, n, false)
  | t :: r, l, n =>
    if isAtt e l t.1 then (l, n, true)
    else if has l t.1 then mergeGo e r l n
    else mergeGo e r (l ++ [t]) (n + 1)

/-- `MergeWith` (C 278-330). -/
def mergeWith (e : Env) (c o : Cand) : Bool × Cand :=
  if e.far c.fit o.fit then (false, c)
  else
    let g := mergeGo e o.tr c.tr 0
    if g.2.2 then (false, { c with tr := g.1 })
    else if g.2.1 = 0 then (false, { c with tr := g.1 })
    else if e.mse g.1 < 1 then (true, ⟨g.1, g.1⟩)
    else
      let b := g.1.take (g.1.length - g.2.1)
      (false, ⟨b, b⟩)

/-- The loop over `l` (V 168-179): candidate `k` and those after it. -/
def inner (c : Cand) : List Cand → Cand × List Cand
  | [] => (c, [])
  | x :: r =>
    if hasC x c then inner x r
    else if hasC c x then inner c r
    else ((inner c r).1, x :: (inner c r).2)

/-- The loop over `k` (V 167-181), at most `n` steps. -/
def dedupN : ℕ → List Cand → List Cand
  | 0, cs => cs
  | _, [] => []
  | n + 1, c :: r => (inner c r).1 :: dedupN n (inner c r).2

/-- The loop over `k` (V 167-181). -/
def dedup (cs : List Cand) : List Cand := dedupN cs.length cs

/-- The pairs of different candidates (V 187-199). -/
def pairs (n : ℕ) : List (ℕ × ℕ) :=
  (List.range n).flatMap (fun k => ((List.range n).filter (fun l => k < l)).map (fun l => (k, l)))

/-- One pair (V 191-196); `none` is `dmin = d_thr`. -/
def bestStep (e : Env) (cs : List Cand) (b : Option (ℚ × ℕ × ℕ)) (p : ℕ × ℕ) : Option (ℚ × ℕ × ℕ) :=
  match cs[p.1]?, cs[p.2]? with
  | some x, some y =>
    if e.test x.fit y.fit < (match b with | none => 1 | some q => q.1) then some (e.test x.fit y.fit, p) else b
  | _, _ => b

/-- The closest pair (V 184-200). -/
def bestPair (e : Env) (cs : List Cand) : Option (ℚ × ℕ × ℕ) := (pairs cs.length).foldl (bestStep e cs) none

/-- The first loop of `makeVertices` (V 164-205), at most `n` times. -/
def mergeLoop (e : Env) : ℕ → List Cand → List Cand
  | 0, cs => cs
  | n + 1, cs =>
    if cs.length ≤ 1 then cs
    else
      match bestPair e (dedup cs) with
      | none => dedup cs
      | some (_, k, l) =>
        match (dedup cs)[k]?, (dedup cs)[l]? with
        | some a, some b =>
          let m := mergeWith e a b
          if m.1 then mergeLoop e n (((dedup cs).set k m.2).eraseIdx l) else (dedup cs).set k m.2
        | _, _ => dedup cs

/-- A candidate can be selected (V 214-224). -/
def eligible (e : Env) (sel : List Cand) (v : Cand) : Bool :=
  !hasLoops e v && !sel.any (fun u => isAttC e u v || e.close u.fit v.fit)

/-- `Size(minLength)` (C 78-84). -/
def size (e : Env) (m : ℚ) (c : Cand) : ℕ := c.tr.foldl (fun n t => if e.len t.1 > m then n + 1 else n) 0

/-- The best candidate (V 211-250): `nmax`, `amax` and its index. -/
def bestCand (e : Env) (m : ℚ) (sel cs : List Cand) : ℕ × ℚ × Option ℕ :=
  cs.zipIdx.foldl (fun b v =>
    if eligible e sel v.1 then
      (if size e (2 * m) v.1 > b.1 ∨ (size e (2 * m) v.1 = b.1 ∧ e.angle v.1.tr > b.2.1) then
        (size e (2 * m) v.1, e.angle v.1.tr, some v.2) else b)
    else b) (0, 0, none)

/-- The second loop of `makeVertices` (V 208-257), at most `n` times: `toJoin` and `candidates`. -/
def select (e : Env) (m : ℚ) : ℕ → List Cand → List Cand → List Cand × List Cand
  | 0, sel, cs => (sel, cs)
  | n + 1, sel, cs =>
    match (bestCand e m sel cs).2.2 with
    | none => (sel, cs)
    | some i =>
      match cs[i]? with
      | none => (sel, cs)
      | some c => select e m n (sel ++ [c]) (cs.eraseIdx i)

/-- A track for `sortTracks`: key, `GetT0() != 0`, cosmic flag, shower-like, length. -/
structure Trk where
  key : ℕ
  t0 : Bool
  cosmic : Bool
  em : Bool
  len : ℚ
deriving DecidableEq

/-- `fOutTracks`, `fEmTracks` and `fExcludedTracks`; `fShortTracks` is never filled. -/
structure Sorted where
  out : List Trk := []
  em : List Trk := []
  exc : List Trk := []
deriving DecidableEq

/-- `sortTracks` (V 83-120). -/
def sortTracks (m : ℚ) (ts : List Trk) : Sorted :=
  ts.foldl (fun s t =>
    if t.t0 || t.cosmic then { s with exc := s.exc ++ [t] }
    else if t.em then
      (if t.len > 2 * m then { s with out := s.out ++ [t] } else { s with em := s.em ++ [t] })
    else
      (if t.len > m then { s with out := s.out ++ [t] } else { s with em := s.em ++ [t] })) {}

/-- `collectTracks` (V 51-80). -/
def collect (s : Sorted) : List Trk := s.out ++ [] ++ s.em ++ s.exc

end Verif.PmaVtx

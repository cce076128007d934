import Mathlib.Algebra.Order.Field.Rat
import Mathlib.Data.List.Basic

/-!
# Candidates of vertices: `VtxCandidate::Add` and the two passes

`larreco/RecoAlg/PMAlg/PmaVtxCandidate.cxx` (C), `larreco/RecoAlg/PMAlgVertexing.cxx` (V).  Numbers are rational.
`Compute`, `ComputeMse2D` and the distance to a segment are functions of the tracks and segments; they are given
in `Env`.
-/

namespace Verif.VtxAdd

/-- What is given: `att`, if the trees of two tracks are attached; `segs`, the lengths of the segments of a track;
`smin` is `fSegMinLength`; `mse` is the result of `Compute`; `dist` is the distance of the last segment to the
centre (C 107), `dist2` the root of `ComputeMse2D` (C 151). -/
structure Env where
  att : ℕ → ℕ → Bool
  segs : ℕ → List ℚ
  smin : ℚ
  mse : List (ℕ × ℕ) → ℚ
  dist : List (ℕ × ℕ) → ℚ
  dist2 : List (ℕ × ℕ) → ℚ

/-- A candidate: `fAssigned` (track and segment) and `fMse`. -/
structure Cand where
  tr : List (ℕ × ℕ) := []
  mse : ℚ := 0
deriving DecidableEq

/-- `kMaxDistToTrack` (`PmaVtxCandidate.h` 26). -/
def maxDist : ℚ := 4

/-- The segments that are not skipped (C 97-99, 134-137, 142-144): length and number. -/
def longs (e : Env) (t : ℕ) : List (ℚ × ℕ) := (e.segs t).zipIdx.filter (fun s => !decide (s.1 < e.smin))

/-- One segment for a third or later track (C 101-111): `min_mse`, `d_best`, `n_best`. -/
def step3 (e : Env) (tr : List (ℕ × ℕ)) (t : ℕ) (s : ℚ × ℚ × ℕ) (x : ℚ × ℕ) : ℚ × ℚ × ℕ :=
  let l := tr ++ [(t, x.2)]
  if e.mse l < s.1 then
    if e.dist l < s.2.1 then (e.mse l, e.dist l, x.2) else s
  else s

/-- A third or later track (C 94-126). -/
def add3 (e : Env) (c : Cand) (t : ℕ) : Bool × Cand :=
  let b := (longs e t).foldl (step3 e c.tr t) (maxDist * maxDist, maxDist, 0)
  if b.2.1 < maxDist then (true, ⟨c.tr ++ [(t, b.2.2)], e.mse (c.tr ++ [(t, b.2.2)])⟩)
  else (false, ⟨c.tr, e.mse c.tr⟩)

/-- `d_best`, `l_best`, `m_best` and `n_best`. -/
structure Best where
  d : ℚ
  l : ℚ := 0
  m : ℕ := 0
  n : ℕ := 0

/-- One pair of segments (C 146-163). -/
def step2 (e : Env) (t0 t : ℕ) (s : Best) (x : (ℚ × ℕ) × (ℚ × ℕ)) : Best :=
  let d := e.dist2 [(t0, x.1.2), (t, x.2.2)]
  if d < s.d then
    if x.1.1 + x.2.1 > 4 / 5 * ((s.d - d) / s.d) * s.l then ⟨d, x.1.1 + x.2.1, x.1.2, x.2.2⟩ else s
  else s

/-- The pairs of segments (C 134-145), in order. -/
def segPairs (e : Env) (t0 t : ℕ) : List ((ℚ × ℕ) × (ℚ × ℕ)) :=
  (longs e t0).flatMap (fun x => (longs e t).map (fun y => (x, y)))

/-- The pair taken (C 131-164). -/
def best2 (e : Env) (t0 t : ℕ) : Best := (segPairs e t0 t).foldl (step2 e t0 t) { d := maxDist }

/-- A second track (C 128-182); if it is refused, the segment of the first is the last one that was tried. -/
def add2 (e : Env) (p : ℕ × ℕ) (t : ℕ) : Bool × Cand :=
  let b := best2 e p.1 t
  if b.d < maxDist then (true, ⟨[(p.1, b.m), (t, b.n)], e.mse [(p.1, b.m), (t, b.n)]⟩)
  else (false, ⟨[(p.1, (longs e p.1).foldl (fun _ x => x.2) p.2)], 0⟩)

/-- A first track (C 184-193). -/
def add1 (e : Env) (c : Cand) (t : ℕ) : Bool × Cand :=
  if (e.segs t).any (fun s => decide (s ≥ e.smin)) then (true, { c with tr := [(t, 0)] }) else (false, ⟨[], 0⟩)

/-- `VtxCandidate::Add` (C 86-194). -/
def add (e : Env) (c : Cand) (t : ℕ) : Bool × Cand :=
  if c.tr.any (fun x => e.att t x.1) then (false, c)
  else
    match c.tr with
    | [] => add1 e c t
    | [p] => add2 e p t
    | _ => add3 e c t

/-- The inner loop of `firstPassCandidates` (V 127-138) for track `t` and those after it; the root of `fMse` is less
than 1 exactly if `fMse`, which is not negative, is. -/
def firstIn (e : Env) (t : ℕ) : List ℕ → List Cand → List Cand
  | [], cs => cs
  | u :: r, cs =>
    if (add e {} t).1 = false then cs
    else
      let a := add e (add e {} t).2 u
      firstIn e t r (if a.1 = true ∧ a.2.mse < 1 then cs ++ [a.2] else cs)

/-- `firstPassCandidates` (V 123-141), for at least one track. -/
def firstPass (e : Env) : List ℕ → List Cand → List Cand
  | [], cs => cs
  | t :: r, cs => firstPass e r (firstIn e t r cs)

/-- The inner loop of `secondPassCandidates` (V 148-157). -/
def secondIn (e : Env) (t : ℕ) : List ℕ → List Cand → List Cand
  | [], cs => cs
  | u :: r, cs =>
    if (add e {} t).1 = false then cs
    else if t = u then secondIn e t r cs
    else
      let a := add e (add e {} t).2 u
      secondIn e t r (if a.1 = true ∧ a.2.mse < 1 then cs ++ [a.2] else cs)

/-- `secondPassCandidates` (V 143-160); `len` is the length of a track, `m` is `fMinTrackLength`. -/
def secondPass (e : Env) (len : ℕ → ℚ) (m : ℚ) (em : List ℕ) : List ℕ → List Cand → List Cand
  | [], cs => cs
  | t :: r, cs => secondPass e len m em r (if len t > m then secondIn e t em cs else cs)

end Verif.VtxAdd

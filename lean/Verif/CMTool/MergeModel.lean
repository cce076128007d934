import Verif.Basic
/-!
# Model of `cmtool::CMergeBookKeeper`
Source: `/repo/larreco/RecoAlg/CMTool/CMToolBase/CMergeBookKeeper.{h,cxx}`.

`unsigned short`/`size_t` values are `Nat`. Differences such as `out_index2 - index` are truncated
subtractions here; in every state reachable through the API the minuend is at least the subtrahend
(that is part of what the proofs establish), so no wrap-around occurs.
-/
namespace Verif.CMTool
open Verif

/-- The object: `std::vector<unsigned short>` base (output label of every input index),
`_prohibit_merge`, `_out_cluster_count`. CMergeBookKeeper.h:29-102. -/
structure BK where
  labels : List Nat
  table : List (List Bool)
  cnt : Nat
deriving Repr, DecidableEq

namespace BK

/-- `Reset(n)`, CMergeBookKeeper.cxx:15-27 (also the constructor, :10-13). Row `i` has `n - i` cells. -/
def reset (n : Nat) : BK where
  labels := List.range n
  table := (List.range n).map (fun i => List.replicate (n - i) false)
  cnt := n

/-- `this->at(i)`: bounds-checked read of a label. -/
def labelAt (i : Nat) : Exec BK Nat := fun s =>
  match s.labels[i]? with
  | some v => (.ok v, s)
  | none => (.throw, s)

/-- `_prohibit_merge.at(i).at(j)` as an rvalue (both accesses bounds-checked). -/
def tabGet (i j : Nat) : Exec BK Bool := fun s =>
  match s.table[i]? with
  | none => (.throw, s)
  | some row =>
    match row[j]? with
    | none => (.throw, s)
    | some b => (.ok b, s)

/-- `_prohibit_merge.at(i).at(j) = b` (both accesses bounds-checked). -/
def tabSet (i j : Nat) (b : Bool) : Exec BK Unit := fun s =>
  match s.table[i]? with
  | none => (.throw, s)
  | some row =>
    if j < row.length then (.ok (), { s with table := s.table.set i (row.set j b) })
    else (.throw, s)

/-- `_prohibit_merge.at(i).size()` -/
def rowSize (i : Nat) : Exec BK Nat := fun s =>
  match s.table[i]? with
  | none => (.throw, s)
  | some row => (.ok row.length, s)

/-- The argument checks shared by `ProhibitMerge`, `MergeAllowed`, `Merge`:
CMergeBookKeeper.cxx:31-37, 53-59, 74-80. -/
def checkArgs (i j : Nat) : Exec BK Unit := do
  if i = j then Exec.raise
  let s ← Exec.get
  if i ≥ s.labels.length ∨ j ≥ s.labels.length then Exec.raise

/-- `ProhibitMerge`, CMergeBookKeeper.cxx:29-48. -/
def prohibitMerge (i j : Nat) : Exec BK Unit := do
  checkArgs i j
  let a ← labelAt i
  let b ← labelAt j
  if a = b then Exec.raise
  tabSet (min a b) (max a b - min a b) true

/-- `MergeAllowed`, CMergeBookKeeper.cxx:50-69. -/
def mergeAllowed (i j : Nat) : Exec BK Bool := do
  checkArgs i j
  let a ← labelAt i
  let b ← labelAt j
  if a = b then return true
  let p ← tabGet (min a b) (max a b - min a b)
  return !p

/-- Relabelling loop of `Merge`, CMergeBookKeeper.cxx:101-107 (`o1 < o2`). -/
def relabel (o1 o2 v : Nat) : Nat :=
  if v = o1 ∨ v = o2 then o1 else if v > o2 then v - 1 else v

/-- Shift of one row to the left from column `from` on, then clearing of the last active column:
inner loops and last statement of phases (1) and (3), CMergeBookKeeper.cxx:122-138 and 179-187. -/
def shiftRow (index start : Nat) : Exec BK Unit := do
  let s ← Exec.get
  Exec.forRange start (s.cnt - index - 1) (fun k => do
    let b ← tabGet index (k + 1)
    tabSet index k b)
  tabSet index (s.cnt - index - 1) false

/-- Body of phase (1), rows before `o1`: CMergeBookKeeper.cxx:113-139. -/
def phase1 (o1 o2 index : Nat) : Exec BK Unit := do
  let x ← tabGet index (o1 - index)
  let y ← tabGet index (o2 - index)
  tabSet index (o1 - index) (x || y)
  shiftRow index (o2 - index)

/-- Body of the loop of phase (2), row `o1`: CMergeBookKeeper.cxx:142-173. -/
def phase2 (o1 o2 k : Nat) : Exec BK Unit :=
  if k + o1 < o2 then do
    let x ← tabGet o1 k
    let y ← tabGet (k + o1) (o2 - (k + o1))
    tabSet o1 k (x || y)
  else do
    let x ← tabGet o1 (k + 1)
    let y ← tabGet o2 (k + 1 + o1 - o2)
    tabSet o1 k (x || y)

/-- Body of phase (4), rows from `o2` on: CMergeBookKeeper.cxx:190-202. -/
def phase4 (index : Nat) : Exec BK Unit := do
  let sz ← rowSize index
  Exec.forRange 0 sz (fun k => do
    let sz' ← rowSize (index + 1)
    if k < sz' then do
      let b ← tabGet (index + 1) k
      tabSet index k b
    else tabSet index k false)

/-- The mutating part of `Merge`, after all checks: CMergeBookKeeper.cxx:98-204. -/
def mergeBody (o1 o2 : Nat) : Exec BK Unit := do
  Exec.modify (fun s => { s with labels := s.labels.map (relabel o1 o2) })
  let s ← Exec.get
  Exec.forRange 0 o1 (phase1 o1 o2)
  Exec.forRange 1 (s.cnt - o1 - 1) (phase2 o1 o2)
  tabSet o1 (s.cnt - o1 - 1) false
  Exec.forRange (o1 + 1) o2 (fun index => shiftRow index (o2 - index))
  Exec.forRange o2 (s.cnt - 1) phase4
  Exec.modify (fun s => { s with cnt := s.cnt - 1 })

/-- `Merge`, CMergeBookKeeper.cxx:71-205. (The C++ `||` of phases 1/2 short-circuits; the model evaluates both operands, which can
only make it throw more often.). -/
def merge (i j : Nat) : Exec BK Unit := do
  checkArgs i j
  let a ← labelAt i
  let b ← labelAt j
  if a = b then return ()
  let p ← tabGet (min a b) (max a b - min a b)
  if p then Exec.raise
  mergeBody (min a b) (max a b)

/-- `IsMerged`, CMergeBookKeeper.cxx:229-235. -/
def isMerged (s : BK) (i j : Nat) : Res Bool :=
  match s.labels[i]?, s.labels[j]? with
  | some a, some b => .ok (a == b)
  | _, _ => .throw

/-- `GetMergedSet`, CMergeBookKeeper.cxx:237-249. -/
def getMergedSet (s : BK) (i : Nat) : Res (List Nat) :=
  match s.labels[i]? with
  | none => .throw
  | some a => .ok ((List.range s.labels.length).filter (fun j => s.labels[j]? == some a))

/-- Loop of `PassResult`: append index `i` to group `at(i)` (bounds-checked). -/
def passLoop (labels : List Nat) : Nat → List (List Nat) → Res (List (List Nat))
  | 0, acc => .ok acc
  | k + 1, acc =>
    let i := labels.length - (k + 1)
    match labels[i]? with
    | none => .throw
    | some a =>
      match acc[a]? with
      | none => .throw
      | some g => passLoop labels k (acc.set a (g ++ [i]))

/-- `PassResult`/`GetResult`, CMergeBookKeeper.cxx:251-259. -/
def getResult (s : BK) : Res (List (List Nat)) :=
  passLoop s.labels s.labels.length (List.replicate s.cnt [])

/-- lift a query into the execution monad -/
def liftRes {α : Type} (r : Res α) : Exec BK α := fun s => (r, s)

/-- bounds-checked `at` on a list -/
def atRes {α : Type} (l : List α) (i : Nat) : Res α :=
  match l[i]? with
  | some a => .ok a
  | none => .throw

/-- `Combine`, CMergeBookKeeper.cxx:261-302. -/
def combine (another : BK) : Exec BK Unit := do
  let me ← Exec.get
  let mine ← liftRes me.getResult
  if mine.length ≠ another.labels.length then Exec.raise
  let theirs ← liftRes another.getResult
  if theirs.length ≥ mine.length then Exec.raise
  Exec.forEach theirs (fun ares => do
    if ares.length = 1 then return ()
    let r0 ← liftRes (atRes ares 0)
    let g0 ← liftRes (atRes mine r0)
    let target ← liftRes (atRes g0 0)
    Exec.forEach ares (fun res => do
      let g ← liftRes (atRes mine res)
      Exec.forEach g (fun orig => do
        if target = orig then return ()
        merge target orig)))

end BK
end Verif.CMTool

import Verif.CMTool.Multimap
/-!
# Model of `CMatchBookKeeper`, the combination generators of `CMatchManager`,
`CMManagerBase::ComputePriority`, `CMatchManager::IterationProcess` and `CBAlgoArray`
Sources under `/repo/larreco/RecoAlg/CMTool/`.

Scores and priorities (`float`) are elements of a linear order with a zero; NaN is outside the model.
-/
namespace Verif.CMTool
open Verif

/-! ## CMatchBookKeeper (CMToolBase/CMatchBookKeeper.{h,cxx}) -/
namespace MatchBK
variable {κ : Type} [LinearOrder κ]

/-- `_register`: multimap from score to the matched index set. CMatchBookKeeper.h; Reset: cxx:10-13. -/
abbrev Register (κ : Type) := List (κ × List Nat)

/-- `Match(matched_indexes, score)`, CMatchBookKeeper.cxx:15-18. -/
def register (r : Register κ) (idx : List Nat) (score : κ) : Register κ := minsert score idx r

/-- state of the check loop: `used_index` (grown on demand) and `valid_set`; CMatchBookKeeper.cxx:43-51 -/
def checkLoop : List Nat → List Bool → Bool → List Bool × Bool
  | [], used, valid => (used, valid)
  | i :: is, used, valid =>
    if i ≥ used.length then checkLoop is (used ++ List.replicate (i + 1 - used.length) false) valid
    else checkLoop is used (if used[i]?.getD false then false else valid)

/-- `used_index.at(index) = true` for all indices (bounds-checked), CMatchBookKeeper.cxx:57-59 -/
def markLoop : List Nat → List Bool → Res (List Bool)
  | [], used => .ok used
  | i :: is, used => if i < used.length then markLoop is (used.set i true) else .throw

/-- `PassResult`/`GetResult` loop over `_register` from `rbegin` to `rend`; CMatchBookKeeper.cxx:30-62 -/
def passLoop : List (κ × List Nat) → List Bool → List (List Nat) → Res (List (List Nat))
  | [], _, res => .ok res
  | e :: es, used, res =>
    let (used', valid) := checkLoop e.2 used true
    if valid then do
      let used'' ← markLoop e.2 used'
      passLoop es used'' (res ++ [e.2])
    else passLoop es used' res

def getResult (r : Register κ) : Res (List (List Nat)) := passLoop r.reverse [] []

end MatchBK

/-! ## Combination generators (CMToolBase/CMatchManager.cxx:70-170) -/
namespace Comb

/-- One pass of the counter-increment loop, CMatchManager.cxx:113-122: from the last position to the
first, add one; stop at the first position that stays below its seed, reset it to 0 otherwise. Written
as a recursion from the right end; the Boolean says "no position has stopped the carry yet". -/
def incr : List Nat → List Nat → List Nat × Bool
  | s :: seed, c :: ctr =>
    match incr seed ctr with
    | (t, false) => (c :: t, false)
    | (t, true) => if c + 1 < s then ((c + 1) :: t, false) else (0 :: t, true)
  | _, _ => ([], true)

/-- `while(1)` loop of `ClusterCombinations`, CMatchManager.cxx:106-130; `none` = fuel exhausted.
The result is pushed, the counters are incremented, the loop ends when all counters are 0. -/
def combLoop (seed : List Nat) : Nat → List Nat → List (List Nat) → Option (List (List Nat))
  | 0, _, _ => none
  | fuel + 1, ctr, res =>
    let res' := res ++ [ctr]
    let ctr' := (incr seed ctr).1
    if ctr'.all (· == 0) then some res' else combLoop seed fuel ctr' res'

/-- `ClusterCombinations(seed)` run with `fuel` loop iterations, CMatchManager.cxx:99-132. -/
def clusterCombinations (fuel : Nat) (seed : List Nat) : Option (List (List Nat)) :=
  combLoop seed fuel (List.replicate seed.length 0) []

/-- `std::next_permutation` on a `vector<bool>` (library function): the longest non-increasing suffix is
found, the element before it is exchanged with the last larger element of the suffix and the suffix is
reversed; `none` when the whole sequence is non-increasing (the function returns `false`). Bools only. -/
def nextPerm : List Bool → Option (List Bool)
  | [] => none
  | a :: l =>
    match nextPerm l with
    | some l' => some (a :: l')
    | none =>
      -- here `l` is non-increasing; the last element larger than `a` is the last `true` when `a = false`
      if a = false ∧ true ∈ l then
        some (true :: ((l.reverse).set (l.reverse.idxOf true) false))
      else none

/-- positions holding `true`: CMatchManager.cxx:87-92 -/
def trueIdx (v : List Bool) : List Nat := (List.range v.length).filter (fun i => v[i]?.getD false)

/-- `do … while(next_permutation)` loop, CMatchManager.cxx:86-94 -/
def permLoop : Nat → List Bool → List (List Nat) → Option (List (List Nat))
  | 0, _, _ => none
  | fuel + 1, v, res =>
    match nextPerm v with
    | some v' => permLoop fuel v' (res ++ [trueIdx v])
    | none => some (res ++ [trueIdx v])

/-- `CMFactorial` in `unsigned int` (mod 2^32), CMatchManager.cxx:70-73 -/
def fact32 : Nat → Nat
  | 0 => 1
  | n + 1 => (fact32 n * (n + 1)) % 2 ^ 32

/-- `SimpleCombination(n,r)`, CMatchManager.cxx:75-97: `exit(1)` is `throw`; the argument of `reserve`
divides by `CMFactorial(n-r)` and `CMFactorial(r)`, an undefined operation when one of them is 0 modulo
2^32. Inner `none` = fuel exhausted. (The amount reserved has no other effect and is not modelled.) -/
def simpleCombination (fuel n r : Nat) : Res (Option (List (List Nat))) :=
  if n = 0 ∨ r = 0 then .throw
  else if r > n then .throw
  else if fact32 (n - r) = 0 ∨ fact32 r = 0 then .ub
  else .ok (permLoop fuel (List.replicate (n - r) false ++ List.replicate r true) [])

end Comb

/-! ## CBAlgoArray (CMTAlgMerge/CBAlgoArray.{h,cxx}) -/
namespace AlgoArray

/-- State after `AddAlgo` calls, CBAlgoArray.h:36-41: the algorithms' (prospective) answers, the
AND flags and `_last_and_algo_index` (`none` while never assigned). -/
structure St where
  answers : List Bool := []
  askAnd : List Bool := []
  lastAnd : Option Nat := none

def addAlgo (s : St) (answer askAnd : Bool) : St where
  answers := s.answers ++ [answer]
  askAnd := s.askAnd ++ [askAnd]
  lastAnd := if askAnd then some s.answers.length else s.lastAnd

/-- Loop of `Bool`, CBAlgoArray.cxx:58-93. `last` is the value of `_last_and_algo_index` (an
unspecified number when it was never assigned: the constructor does not initialise it). -/
def boolLoop (s : St) (last : Nat) : Nat → Nat → Bool → Bool
  | 0, _, status => status
  | k + 1, i, status =>
    let a := s.answers[i]?.getD false
    let isAnd := s.askAnd[i]?.getD false
    if i = 0 then boolLoop s last k 1 a
    else if isAnd && !status then status
    else if !isAnd && status then status
    else if i > last && status then status
    else boolLoop s last k (i + 1) (if isAnd then status && a else status || a)

/-- `Bool(c1,c2)`; `junk` stands for the uninitialised index value -/
def bool (s : St) (junk : Nat) : Bool := boolLoop s (s.lastAnd.getD junk) s.answers.length 0 true

end AlgoArray

/-! ## ComputePriority and the match manager -/

/-- What the managers use of a `ClusterParamsAlg`: its plane (`Plane()`, an `int`, here `Nat`) and its
hits. CMatchManager/CMergeManager/CMManagerBase. -/
structure Cluster (η : Type) where
  plane : Nat
  hits : List η
deriving Repr, DecidableEq

section
variable {κ : Type} [LinearOrder κ] [Zero κ]

/-- Loop of `ComputePriority`, CMManagerBase.cxx:170-186: clusters are visited from the last to the
first; positive priorities are inserted. `prio i` is the priority of cluster `i` (its number of hits or the
priority algorithm's answer). -/
def prioLoop (prio : Nat → κ) : Nat → List (κ × Nat) → List (κ × Nat)
  | 0, m => m
  | i + 1, m => prioLoop prio i (if prio i > 0 then minsert (prio i) i m else m)

/-- `_priority` after `ComputePriority` on `n` clusters. CMManagerBase.cxx:155-192 -/
def computePriority (prio : Nat → κ) (n : Nat) : List (κ × Nat) := prioLoop prio n []

/-- visiting order `_priority.rbegin() … rend()` -/
def prioOrder (prio : Nat → κ) (n : Nat) : List Nat := ((computePriority prio n).reverse).map (·.2)

end
end Verif.CMTool

namespace Verif.CMTool
open Verif
namespace Comb

/-- sequencing of outcomes that may also run out of fuel (`.ok none`) -/
def run {α β : Type} (r : Res (Option α)) (f : α → Res (Option β)) : Res (Option β) :=
  match r with
  | .ok (some a) => f a
  | .ok none => .ok none
  | .throw => .throw
  | .ub => .ub

/-- Inner loops of `PlaneClusterCombinations` over the plane combinations, CMatchManager.cxx:150-167.
`seed[index]` is an unchecked access (indices come from `SimpleCombination`, all `< seed.size()`). -/
def planeLoop (fuel : Nat) (seed : List Nat) :
    List (List Nat) → List (List (Nat × Nat)) → Res (Option (List (List (Nat × Nat))))
  | [], result => .ok (some result)
  | pc :: pcs, result =>
    if pc.all (· < seed.length) then
      run (.ok (clusterCombinations fuel (pc.map (fun i => seed[i]?.getD 0)))) (fun combs =>
        planeLoop fuel seed pcs (result ++ combs.map (fun c => pc.zip c)))
    else .ub

/-- Outer loop of `PlaneClusterCombinations`, CMatchManager.cxx:141-168: `i` counts up, `k` = iterations left -/
def sizeLoop (fuel : Nat) (seed : List Nat) :
    Nat → Nat → List (List (Nat × Nat)) → Res (Option (List (List (Nat × Nat))))
  | 0, _, result => .ok (some result)
  | k + 1, i, result =>
    if seed.length < 2 + i then .ok (some result)
    else run (simpleCombination fuel seed.length (seed.length - i)) (fun pcs =>
      run (planeLoop fuel seed pcs result) (fun result' => sizeLoop fuel seed k (i + 1) result'))

/-- `PlaneClusterCombinations(seed)`, CMatchManager.cxx:134-170. -/
def planeClusterCombinations (fuel : Nat) (seed : List Nat) : Res (Option (List (List (Nat × Nat)))) :=
  sizeLoop fuel seed seed.length 0 []

end Comb

/-! ## CMatchManager::IterationProcess (CMToolBase/CMatchManager.cxx:172-260) -/
section
variable {κ : Type} [LinearOrder κ] [Zero κ] {η : Type}

/-- `_planes` as filled by `ComputePriority`: the planes of the clusters with positive priority, as the sorted
list of those below `bound` (`std::set<UChar_t>`; planes are assumed below 256, no truncation). -/
def planesBelow (cs : List (Cluster η)) (order : List Nat) (bound : Nat) : List Nat :=
  (List.range bound).filter (fun p => order.any (fun i => (cs[i]?.map (·.plane)) == some p))

/-- fill `cluster_array`, CMatchManager.cxx:205-207: `cluster_array.at(plane_to_index.at(plane)).push_back(i)`.
`planes` are the planes that got an entry, in ascending order; a plane without entry has index `_nplanes`,
or no entry in `plane_to_index`, and makes `at` throw. -/
def fillArray (cs : List (Cluster η)) (planes : List Nat) : List Nat → List (List Nat) → Res (List (List Nat))
  | [], arr => .ok arr
  | i :: is, arr =>
    match cs[i]? with
    | none => .throw
    | some c =>
      match planes.idxOf? c.plane with
      | none => .throw
      | some k =>
        match arr[k]? with
        | none => .throw
        | some l => fillArray cs planes is (arr.set k (l ++ [i]))

/-- translate one combination into input cluster indices (bounds-checked), CMatchManager.cxx:227-234 -/
def pickComb (arr : List (List Nat)) : List (Nat × Nat) → Res (List Nat)
  | [] => .ok []
  | (p, c) :: rest =>
    match arr[p]? with
    | none => .throw
    | some l =>
      match l[c]? with
      | none => .throw
      | some i => do
        let r ← pickComb arr rest
        return i :: r

/-- loop over the combinations, CMatchManager.cxx:218-252: every combination is offered to the match
algorithm (`score`); positive scores are registered. Returns the offered sets and the register. -/
def offerLoop (arr : List (List Nat)) (score : List Nat → κ) :
    List (List (Nat × Nat)) → List (List Nat) → MatchBK.Register κ → Res (List (List Nat) × MatchBK.Register κ)
  | [], off, reg => .ok (off, reg)
  | c :: cs, off, reg => do
    let idx ← pickComb arr c
    offerLoop arr score cs (off ++ [idx]) (if score idx > 0 then MatchBK.register reg idx (score idx) else reg)

/-- `IterationProcess` of the match manager: offered sets and the resulting register. The match
algorithm's answer for a set is `score set`: each set is offered at most once (part of C11), so this covers
stateful algorithms too. -/
def matchIteration (fuel nplanes : Nat) (cs : List (Cluster η)) (prio : Nat → κ) (score : List Nat → κ)
    (reg : MatchBK.Register κ) : Res (Option (List (List Nat) × MatchBK.Register κ)) :=
  let order := prioOrder prio cs.length
  let allPlanes := planesBelow cs order 256
  if allPlanes.length < 2 then .ok (some ([], reg))
  else if allPlanes.length > nplanes then .throw
  else
    let planes := planesBelow cs order nplanes
    match fillArray cs planes order (List.replicate planes.length []) with
    | .throw => .throw
    | .ub => .ub
    | .ok arr =>
      Comb.run (Comb.planeClusterCombinations fuel (arr.map List.length)) (fun combs =>
        match offerLoop arr score combs [] reg with
        | .ok r => .ok (some r)
        | .throw => .throw
        | .ub => .ub)
end
end Verif.CMTool

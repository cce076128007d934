import Verif.CMTool.ManagerProcess
/-!
# Model of the two helpers around the merge manager, and of the algorithm arrays
Sources under `/repo/larreco/RecoAlg/`: `CMTool/CMToolApp/CMergeHelper.cxx` (a chain of merge managers),
`ClusterMergeHelper.cxx` (hit pointers in and out of one manager), `CMTool/CMTAlgMerge/CBAlgoArray.cxx` and
`CMTool/CMTAlgPriority/CPAlgoArray.cxx` (several algorithms behind one interface).
-/
namespace Verif.CMTool
open Verif

section
variable {η π κ : Type} [LinearOrder κ] [Zero κ]

/-- configuration of one manager of the chain: `MergeTillConverge` and the answers of its algorithms -/
structure MgrCfg (κ : Type) where
  converge : Bool
  algs : Nat → PassAlgs κ

/-- one manager on its clusters. The number of passes is bounded by the number of input clusters
(`C13_process_terminates`), so that number is the budget; CMergeHelper.cxx:33. -/
def runMgr (hp : η → Nat) (c : MgrCfg κ) (m : Mgr η) : Res (Mgr η) :=
  match process hp c.converge c.algs m.input.length m with
  | .ok (some m') => .ok m'
  | .ok none => .ub
  | .throw => .throw
  | .ub => .ub

/-- the turns `i ≥ 1` of the loop, CMergeHelper.cxx:23-42: reset, copy the clusters of the previous manager,
process, and combine the books when the new one merged something. -/
def helperChain (hp : η → Nat) : List (MgrCfg κ) → List (Cluster η) → BK → Res (List (Cluster η) × BK)
  | [], cur, bk => .ok (cur, bk)
  | c :: cs, cur, bk => do
    let m ← runMgr hp c (setClusters {} cur)
    let res ← m.book.getResult
    let bk' ← if res.length < m.book.labels.length then
        (match BK.combine m.book bk with
          | (.ok _, b) => .ok b
          | (.throw, _) => .throw
          | (.ub, _) => .ub : Res BK)
      else .ok bk
    helperChain hp cs m.out bk'

/-- `CMergeHelper::Process`, CMergeHelper.cxx:18-43; what `GetClusters()` (`none`: it throws, :45-49) and
`GetResult()` show afterwards. -/
def helperProcess (hp : η → Nat) (cfgs : List (MgrCfg κ)) (hs : List (List η)) :
    Res (Option (List (Cluster η)) × BK) :=
  match cfgs with
  | [] => .ok (none, BK.reset hs.length)
  | c :: cs => do
    let m0 ← setHitLists hp {} hs
    let m ← runMgr hp c m0
    let r ← helperChain hp cs m.out m.book
    return (some r.1, r.2)

/-! ## `ClusterMergeHelper` -/

/-- data members of `ClusterMergeHelper`, ClusterMergeHelper.h:78-88; hit pointers `η`, the manager's hits `π` -/
structure CMH (η π : Type) where
  mgr : Mgr π := {}
  inp : List (List η) := []
  out : List (List η) := []

/-- `SetClusters(gser, hit pointers)`, ClusterMergeHelper.cxx:26-64; `px` makes the manager's hit of a pointer
(:48-55). -/
def CMH.setClusters (hp : π → Nat) (px : η → π) (s : CMH η π) (cl : List (List η)) : Res (CMH η π) := do
  let m ← setHitLists hp s.mgr (cl.map (·.map px))
  return ⟨m, cl, []⟩

/-- pointers of the listed input clusters, one after the other (`fInputClusters.at(i)`);
ClusterMergeHelper.cxx:115-119 -/
def gatherPtrs (inp : List (List η)) : List Nat → Res (List η)
  | [] => .ok []
  | i :: is =>
    match inp[i]? with
    | none => .throw
    | some l => do
      let r ← gatherPtrs inp is
      return l ++ r

/-- ClusterMergeHelper.cxx:111-122 -/
def gatherAll (inp : List (List η)) : List (List Nat) → Res (List (List η))
  | [] => .ok []
  | g :: gs => do
    let a ← gatherPtrs inp g
    let r ← gatherAll inp gs
    return a :: r

/-- `Process`, ClusterMergeHelper.cxx:92-123. -/
def CMH.process (hp : π → Nat) (c : MgrCfg κ) (s : CMH η π) : Res (CMH η π) :=
  if s.mgr.out.length ≠ 0 then .throw
  else do
    let m ← runMgr hp c s.mgr
    let gs ← m.book.getResult
    let o ← gatherAll s.inp gs
    return ⟨m, s.inp, o⟩

/-- `GetMergedClusterHits`, ClusterMergeHelper.cxx:126-137; `GetMergedCPAN` (:140-150) has the same guard. -/
def CMH.getMergedClusterHits (s : CMH η π) : Res (List (List η)) :=
  if s.out.length = 0 then .throw else .ok s.out

def CMH.getMergedCPAN (s : CMH η π) : Res (List (Cluster π)) :=
  if s.out.length = 0 then .throw else .ok s.mgr.out

/-- an output cluster (ID and plane of the data product) and the associations (cluster index, hit) -/
structure Product (η : Type) where
  clusters : List (Nat × Option Nat) := []
  assns : List (Nat × η) := []

/-- the loop of `AppendResult`, ClusterMergeHelper.cxx:169-216, over the positions `k, k+1, …` of the output
clusters: ID = number of clusters stored so far, plane of the first hit, association with the last stored
cluster (`util::CreateAssn`). Shape parameters are not modelled; a cluster without hits has an invalid plane ID,
which the geometry service rejects (`none` is kept here). -/
def CMH.appendLoop (hp : π → Nat) (px : η → π) (s : CMH η π) : List Nat → Product η → Res (Product η)
  | [], p => .ok p
  | k :: ks, p =>
    match s.out[k]? with
    | none => .throw
    | some hits => appendLoop hp px s ks
        ⟨p.clusters ++ [(p.clusters.length, hits.head?.map (fun h => hp (px h)))],
         p.assns ++ hits.map (fun h => (p.clusters.length, h))⟩

/-- `AppendResult`, ClusterMergeHelper.cxx:152-217. -/
def CMH.appendResult (hp : π → Nat) (px : η → π) (s : CMH η π) (p : Product η) : Res (Product η) :=
  if s.out.length = 0 then .throw
  else s.appendLoop hp px (List.range s.mgr.out.length) p

end

/-! ## Algorithm arrays -/

/-- `_last_and_algo_index` after the `AddAlgo` calls, CBAlgoArray.h:36-41; `g` is its initial value (the constructor
does not set it). -/
def lastAnd (g : Nat) (flags : List Bool) : Nat :=
  ((List.range flags.length).foldl (fun acc i => if flags[i]?.getD false then i else acc) g)

/-- the loop of `Bool` from index `i` on, CBAlgoArray.cxx:60-91: `(_ask_and, answer)` of the remaining algorithms -/
def boolLoop (last : Nat) : List (Bool × Bool) → Nat → Bool → Bool
  | [], _, st => st
  | (ask, ans) :: l, i, st =>
    if i = 0 then boolLoop last l (i + 1) ans
    else if ask && !st then st
    else if !ask && st then st
    else if decide (last < i) && st then st
    else if ask then boolLoop last l (i + 1) (st && ans)
    else boolLoop last l (i + 1) (st || ans)

/-- `CBAlgoArray::Bool`, CBAlgoArray.cxx:54-94. -/
def cbArray (g : Nat) (l : List (Bool × Bool)) : Bool := boolLoop (lastAnd g (l.map (·.1))) l 0 true

/-- evaluation modes, CPAlgoArray.h:29-53 -/
inductive CPMode where
  | positiveAddition | simpleAddition | multiplication | lastAlgo
deriving DecidableEq

section
variable {R : Type} [LinearOrder R] [CommRing R]

/-- the loop that asks the algorithms, CPAlgoArray.cxx:21-28: the first negative score ends it
(`Sum.inl`), except for simple addition. -/
def scores (mode : CPMode) : List R → R ⊕ List R
  | [] => .inr []
  | x :: l =>
    if mode ≠ .simpleAddition ∧ x < 0 then .inl x
    else match scores mode l with
      | .inl y => .inl y
      | .inr r => .inr (x :: r)

/-- `CPAlgoArray::Priority`, CPAlgoArray.cxx:14-51; `*score_array.rbegin()` of an empty array is undefined. -/
def cpArray (mode : CPMode) (l : List R) : Res R :=
  match scores mode l with
  | .inl y => .ok y
  | .inr sc =>
    match mode with
    | .lastAlgo => match sc.getLast? with
      | some x => .ok x
      | none => .ub
    | .simpleAddition => .ok (sc.foldl (· + ·) 0)
    | .positiveAddition => .ok (sc.foldl (· + ·) 0)
    | .multiplication => .ok (sc.foldl (· * ·) 0)

end
end Verif.CMTool

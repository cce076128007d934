import Verif.CMTool.MergeModel
import Verif.CMTool.MatchModel
/-!
# Model of `CMergeManager` and the event loop of `CMManagerBase`
Sources under `/repo/larreco/RecoAlg/CMTool/CMToolBase/`: `CMergeManager.cxx`, `CMManagerBase.cxx`; and
`/repo/larreco/RecoAlg/ClusterRecoUtil/ClusterParamsAlg.cxx` (`SetHits`).

The merging, separation and priority algorithms are user code: their answers are arbitrary functions of the
iteration number and of the cluster positions. Every pair is asked at most once per pass, so this also covers
algorithms with internal state. Not modelled: timers, printing, `FillParams`/`FillPolygon` of new clusters
(they compute shape parameters and do not touch the hit list), the algorithms' own hooks.
-/
namespace Verif.CMTool
open Verif

/-- all pairs (earlier, later) of positions of a list, in the order of two nested loops
`for a … for b after a …` -/
def pairsOf {α : Type} : List α → List (α × α)
  | [] => []
  | i :: is => is.map (fun j => (i, j)) ++ pairsOf is

section
variable {η : Type}

/-- `UChar_t plane = in_clusters.at(i).Plane()` -/
def uplane (cs : List (Cluster η)) (i : Nat) : Exec BK Nat := fun s =>
  match cs[i]? with
  | some c => (.ok (c.plane % 256), s)
  | none => (.throw, s)

/-- Body of the inner loop of `RunMerge`, CMergeManager.cxx:270-300. -/
def mergePair (cs : List (Cluster η)) (flags : List Bool) (ans : Nat → Nat → Bool) (p : Nat × Nat) :
    Exec BK Unit := do
  let p1 ← uplane cs p.1
  let p2 ← uplane cs p.2
  if p1 ≠ p2 then return ()
  let f2 ← BK.liftRes (BK.atRes flags p.2)
  let f1 ← BK.liftRes (BK.atRes flags p.1)
  if !f2 && !f1 then return ()
  let ok ← BK.mergeAllowed p.1 p.2
  if !ok then return ()
  if ans p.1 p.2 then BK.merge p.1 p.2

/-- `RunMerge(in_clusters, merge_flag, book_keeper)`, CMergeManager.cxx:236-316. `order` is the visiting order
`_priority.rbegin() … rend()`. -/
def runMerge (cs : List (Cluster η)) (flags : List Bool) (order : List Nat) (ans : Nat → Nat → Bool) :
    Exec BK Unit := do
  if flags.length ≠ cs.length then Exec.raise
  Exec.forEach (pairsOf order) (mergePair cs flags ans)

/-- Body of the inner loop of `RunSeparate`, CMergeManager.cxx:343-375. -/
def separatePair (cs : List (Cluster η)) (ans : Nat → Nat → Bool) (p : Nat × Nat) : Exec BK Unit := do
  let p1 ← uplane cs p.1
  let p2 ← uplane cs p.2
  if p1 ≠ p2 then return ()
  if ans p.1 p.2 then BK.prohibitMerge p.1 p.2

/-- `RunSeparate`, CMergeManager.cxx:318-379; `none` = no separation algorithm set (:181). -/
def runSeparate (cs : List (Cluster η)) (ans : Option (Nat → Nat → Bool)) : Exec BK Unit :=
  match ans with
  | none => return ()
  | some f => Exec.forEach (pairsOf (List.range cs.length)) (separatePair cs f)

variable {κ : Type} [LinearOrder κ] [Zero κ]

/-- The algorithms of one pass -/
structure PassAlgs (κ : Type) where
  prio : Nat → κ
  sep : Option (Nat → Nat → Bool)
  mrg : Nat → Nat → Bool

/-- One pass: fresh book keeper, separation, merging; CMergeManager.cxx:161-186. -/
def pass (cs : List (Cluster η)) (flags : List Bool) (al : PassAlgs κ) : Res Unit × BK :=
  (do runSeparate cs al.sep
      runMerge cs flags (prioOrder al.prio cs.length) al.mrg : Exec BK Unit) (BK.reset cs.length)

/-- `merge_switch`, CMergeManager.cxx:171-174: `merge_switch.at(i) = false` for the groups of size 1 of the
previous pass. -/
def switchLoop : List (List Nat) → Nat → List Bool → Res (List Bool)
  | [], _, fl => .ok fl
  | g :: gs, i, fl =>
    if g.length = 1 then
      if i < fl.length then switchLoop gs (i + 1) (fl.set i false) else .throw
    else switchLoop gs (i + 1) fl

/-- hits of the listed clusters, one after the other; CMergeManager.cxx:206-211 -/
def gatherHits (cs : List (Cluster η)) : List Nat → Res (List η)
  | [] => .ok []
  | i :: is =>
    match cs[i]? with
    | none => .throw
    | some c => do
      let r ← gatherHits cs is
      return c.hits ++ r

/-- One output cluster, CMergeManager.cxx:196-218 and `SetHits`, ClusterParamsAlg.cxx:48-73: a group of one is
copied; otherwise the hits are gathered, an empty list is rejected by an exception, and the plane is the
one of the first hit. -/
def outCluster (hp : η → Nat) (cs : List (Cluster η)) (g : List Nat) : Res (Cluster η) :=
  if g.length = 1 then
    match g[0]? with
    | none => .throw
    | some i => BK.atRes cs i
  else do
    let hs ← gatherHits cs g
    match hs with
    | [] => .throw
    | h :: _ => return ⟨hp h, hs⟩

def outClusters (hp : η → Nat) (cs : List (Cluster η)) : List (List Nat) → Res (List (Cluster η))
  | [] => .ok []
  | g :: gs => do
    let c ← outCluster hp cs g
    let r ← outClusters hp cs gs
    return c :: r

/-- working state of the event loop: current clusters (`_out_clusters`, `_in_clusters` in the first pass),
`_tmp_merged_indexes`, `_book_keeper_v`. -/
structure Loop (η : Type) where
  cur : List (Cluster η)
  indexes : List (List Nat)
  books : List BK

/-- number of distinct planes of the clusters with positive priority, `_planes.size()`;
CMManagerBase.cxx:181-184 -/
def numPlanes (cs : List (Cluster η)) (order : List Nat) : Nat :=
  ((List.range 256).filter (fun p => order.any (fun i => (cs[i]?.map (·.plane % 256)) == some p))).length

/-- `IterationProcess`, CMergeManager.cxx:159-228; the Boolean is its return value. -/
def iteration (hp : η → Nat) (al : PassAlgs κ) (st : Loop η) : Res (Bool × Loop η) := do
  let flags ← switchLoop st.indexes 0 (List.replicate st.cur.length true)
  match pass st.cur flags al with
  | (.throw, _) => .throw
  | (.ub, _) => .ub
  | (.ok _, bk) =>
    let idx ← bk.getResult
    let n := numPlanes st.cur (prioOrder al.prio st.cur.length)
    if bk.labels.length = idx.length then
      return (false, ⟨st.cur, idx, st.books⟩)
    else
      let out ← outClusters hp st.cur idx
      let st' : Loop η := ⟨out, idx, st.books ++ [bk]⟩
      if st.cur.length = out.length then return (false, st')
      else if out.length = n then return (false, st')
      else return (true, st')

/-- `while (keep_going)` loop, CMManagerBase.cxx:104-145; `.ok none` = step budget exhausted. `al k` are the
algorithms' answers in the k-th pass. -/
def eventLoop (hp : η → Nat) (converge : Bool) (al : Nat → PassAlgs κ) : Nat → Nat → Loop η → Res (Option (Loop η))
  | 0, _, _ => .ok none
  | fuel + 1, k, st =>
    match iteration hp (al k) st with
    | .throw => .throw
    | .ub => .ub
    | .ok (keep, st') =>
      if !converge || !keep then .ok (some st') else eventLoop hp converge al fuel (k + 1) st'

/-- `EventEnd`: combine all book keepers of the passes; CMergeManager.cxx:142-148. -/
def combineAll (books : List BK) : Exec BK Unit := Exec.forEach books BK.combine

/-- what `GetClusters()` and `GetBookKeeper()` show, and the input clusters -/
structure Mgr (η : Type) where
  input : List (Cluster η) := []
  out : List (Cluster η) := []
  book : BK := BK.reset 0

/-- `Process`, CMManagerBase.cxx:89-153 with EventBegin/EventEnd of CMergeManager.cxx:42-78,142-157: returns at
once without input clusters. -/
def process (hp : η → Nat) (converge : Bool) (al : Nat → PassAlgs κ) (fuel : Nat) (m : Mgr η) : Res (Option (Mgr η)) :=
  if m.input.length = 0 then .ok (some m)
  else
    match eventLoop hp converge al fuel 0 ⟨m.input, [], []⟩ with
    | .throw => .throw
    | .ub => .ub
    | .ok none => .ok none
    | .ok (some st) =>
      match combineAll st.books (BK.reset m.input.length) with
      | (.ok _, b) => .ok (some { m with out := st.cur, book := b })
      | (.throw, _) => .throw
      | (.ub, _) => .ub

/-- `SetClusters(vector<ClusterParamsAlg>)`: copies the input, no reset; CMManagerBase.cxx:72-87. -/
def setClusters (m : Mgr η) (cs : List (Cluster η)) : Mgr η := { m with input := cs }

/-- `SetClusters(gser, vector<vector<PxHit>>)`: resets the manager, CMManagerBase.cxx:36-60 and
CMergeManager.cxx:27-38; an empty hit list makes `SetHits` throw. -/
def setHitLists (hp : η → Nat) (_m : Mgr η) (hs : List (List η)) : Res (Mgr η) :=
  if hs.any List.isEmpty then .throw
  else .ok { input := hs.map (fun l => ⟨(l.head?.map hp).getD 0, l⟩) }

end
end Verif.CMTool

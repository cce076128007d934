import Verif.Basic
import Mathlib.Data.Rat.Defs
import Mathlib.Algebra.Order.Ring.Rat
/-!
# Model of `btutil::MCBTAlg` and `btutil::MCMatchAlg`
Sources: `/repo/larreco/MCComp/MCBTAlg.{h,cxx}`, `/repo/larreco/MCComp/MCMatchAlg.{h,cxx}`. Charges are exact rationals
(the code uses `double`). `kINVALID_INDEX` (the largest `size_t`) is `none`. The geometry gives the number of planes and the
plane of each channel. A hit window is given by its channel and by the two tick limits already converted to TDC counts
(`(unsigned int)TPCTick2TDC(..)`, MCBTAlg.cxx:99-100); the two conversions themselves belong to another repository.
-/
namespace Verif.MCComp
open Verif

abbrev U32 : Nat := 2 ^ 32

/-- one `sim::IDE`: track id and number of electrons -/
structure Ide where
  trackID : Int
  q : ℚ

/-- `sim::SimChannel`: channel and TDC map -/
structure SimCh where
  ch : Nat
  tdcs : List (Nat × List Ide)

/-- the part of the geometry used -/
structure Geo where
  nplanes : Nat
  planeOf : Nat → Nat

/-- `ch_info_t` (a `std::map` in key order), MCBTAlg.h:52-53 -/
abbrev ChInfo := List (Nat × List ℚ)

/-- members, MCBTAlg.h:129-132 -/
structure BT where
  event : List ChInfo
  table : List (Option Nat)
  sumq : List (List ℚ)
  nparts : Nat

/-- `vector::resize(n, v)` -/
def resize {α : Type} (l : List α) (n : Nat) (v : α) : List α := l.take n ++ List.replicate (n - l.length) v

/-- `Register(id)`, MCBTAlg.cxx:157-166; `id + 1` is an `unsigned int` -/
def register (s : BT) (id : Nat) : Res BT :=
  let table := if s.table.length ≤ id then resize s.table ((id + 1) % U32) none else s.table
  match table[id]? with
  | none => .ub
  | some none => .ok { s with table := table.set id (some s.nparts), nparts := s.nparts + 1 }
  | some (some _) => .ok { s with table := table }

/-- loop of `Register(vector)`, MCBTAlg.cxx:175-183 -/
def registerLoop (n : Nat) : List Nat → List (Option Nat) → Res (List (Option Nat))
  | [], t => .ok t
  | id :: ids, t =>
    match t[id]? with
    | none => .ub
    | some none => registerLoop n ids (t.set id (some n))
    | some (some _) => .throw

/-- `Register(vector)`, MCBTAlg.cxx:168-185 -/
def registerGroup (s : BT) (ids : List Nat) : Res BT :=
  let maxId := ids.foldl (fun m id => if m < id then id else m) 0
  let table := if s.table.length ≤ maxId then resize s.table ((maxId + 1) % U32) none else s.table
  match registerLoop s.nparts ids table with
  | .ok t => .ok { s with table := t, nparts := s.nparts + 1 }
  | .throw => .throw
  | .ub => .ub

/-- `_trkid_to_index[ide.trackID]` guarded by `ide.trackID < (int)size`, MCBTAlg.cxx:73-74; a negative track id becomes
a huge unsigned index -/
def lookupTrack (table : List (Option Nat)) (t : Int) : Res (Option Nat) :=
  if t < table.length then
    if t < 0 then .ub else .ok (table.getD t.toNat none)
  else .ok none

/-- `v[i] += q` -/
def addAt (v : List ℚ) (i : Nat) (q : ℚ) : Res (List ℚ) :=
  if i < v.length then .ok (v.set i (v.getD i 0 + q)) else .ub

/-- loop over the IDEs of one TDC count, MCBTAlg.cxx:70-84: `edep_info` and `_sum_mcq[plane]`; the last entry is
`rbegin()` -/
def ideLoop (table : List (Option Nat)) (np : Nat) : List Ide → List ℚ → List ℚ → Res (List ℚ × List ℚ)
  | [], e, r => .ok (e, r)
  | x :: xs, e, r =>
    match lookupTrack table x.trackID with
    | .ub => .ub
    | .throw => .throw
    | .ok idx =>
      let valid := match idx with
        | some i => if np ≤ i then none else some i
        | none => none
      match addAt e (valid.getD (e.length - 1)) x.q, addAt r (valid.getD (r.length - 1)) x.q with
      | .ok e', .ok r' => ideLoop table np xs e' r'
      | _, _ => .ub

/-- `std::map` insertion-or-access followed by assignment -/
def putTime (t : Nat) (e : List ℚ) : ChInfo → ChInfo
  | [] => [(t, e)]
  | (k, x) :: r => if t < k then (t, e) :: (k, x) :: r else if t = k then (k, e) :: r else (k, x) :: putTime t e r

/-- current content of `ch_info[time]` (empty when new) -/
def getTime (t : Nat) (l : ChInfo) : List ℚ := ((l.find? (fun p => p.1 == t)).map (·.2)).getD []

/-- loop over the TDC counts of a channel, MCBTAlg.cxx:61-85: the channel info and the plane's sums -/
def tdcLoop (table : List (Option Nat)) (np : Nat) : List (Nat × List Ide) → ChInfo → List ℚ → Res (ChInfo × List ℚ)
  | [], c, r => .ok (c, r)
  | (t, ides) :: rest, c, r =>
    let e := getTime t c
    let e := if e.length = 0 then resize e np 0 else e
    match ideLoop table np ides e r with
    | .ok (e', r') => tdcLoop table np rest (putTime t e' c) r'
    | .throw => .throw
    | .ub => .ub

/-- loop over the channels, MCBTAlg.cxx:52-88; `ch + 1` is an `unsigned int`. A plane outside the table is only touched
when charge is added to it; binding it earlier is a simplification. -/
def chLoop (g : Geo) : List SimCh → BT → Res BT
  | [], s => .ok s
  | x :: xs, s =>
    let event := if s.event.length ≤ x.ch then resize s.event ((x.ch + 1) % U32) [] else s.event
    match event[x.ch]?, s.sumq[g.planeOf x.ch]? with
    | some c, some r =>
      match tdcLoop s.table s.nparts x.tdcs c r with
      | .ok (c', r') => chLoop g xs { s with event := event.set x.ch c', sumq := s.sumq.set (g.planeOf x.ch) r' }
      | .throw => .throw
      | .ub => .ub
    | _, _ => .ub

/-- `ProcessSimChannel`, MCBTAlg.cxx:47-89 -/
def processSim (g : Geo) (sim : List SimCh) (s : BT) : Res BT :=
  chLoop g sim { s with sumq := resize s.sumq g.nplanes (List.replicate s.nparts 0) }

def cleared : BT := { event := [], table := [], sumq := [], nparts := 0 }

/-- apply a registration to each element in turn -/
def regAll {α : Type} (f : BT → α → Res BT) : List α → BT → Res BT
  | [], s => .ok s
  | x :: xs, s => match f s x with
    | .ok s' => regAll f xs s'
    | .throw => .throw
    | .ub => .ub

/-- what follows the registrations in both `Reset`s, MCBTAlg.cxx:29-30, 43-44 -/
def finish (g : Geo) (sim : List SimCh) (r : Res BT) : Res BT :=
  match r with
  | .ok s => processSim g sim { s with nparts := s.nparts + 1 }
  | .throw => .throw
  | .ub => .ub

/-- `Reset(vector<unsigned>, …)`, MCBTAlg.cxx:19-31; the previous contents are dropped -/
def reset (g : Geo) (ids : List Nat) (sim : List SimCh) : Res BT := finish g sim (regAll register ids cleared)
/-- `Reset(vector<vector<unsigned>>, …)`, MCBTAlg.cxx:33-45 -/
def resetGroups (g : Geo) (groups : List (List Nat)) (sim : List SimCh) : Res BT :=
  finish g sim (regAll registerGroup groups cleared)

/-- `NumParts`, MCBTAlg.h:120 -/
def BT.numParts (s : BT) : Nat := s.nparts - 1

/-- `Index`, MCBTAlg.cxx:151-155 -/
def BT.index (s : BT) (id : Nat) : Option Nat := if id ≥ s.table.length then none else s.table.getD id none

/-- `MCQSum`, MCBTAlg.cxx:91-96 -/
def BT.mcqSum (s : BT) (plane : Nat) : Res (List ℚ) :=
  if plane > s.sumq.length then .throw
  else match s.sumq[plane]? with
    | some r => .ok r
    | none => .ub

/-- a hit window -/
structure Win where
  ch : Nat
  lo : Nat
  hi : Nat

/-- `res[part_index] += edep_info[part_index]`, MCBTAlg.cxx:109-111 -/
def addVec (np : Nat) (res e : List ℚ) : List ℚ := (List.range np).map (fun i => res.getD i 0 + e.getD i 0)

/-- `while (itlow != end && itlow != itup)`, MCBTAlg.cxx:105-114, with iterators as positions -/
def winLoop (np : Nat) (c : ChInfo) (up : Nat) : Nat → Nat → List ℚ → List ℚ
  | 0, _, res => res
  | fuel + 1, i, res =>
    if i = up then res
    else match c[i]? with
      | none => res
      | some (_, e) => winLoop np c up fuel (i + 1) (addVec np res e)

/-- `lower_bound(k)`: position of the first key `≥ k` -/
def lowerBound (c : ChInfo) (k : Nat) : Nat := (c.takeWhile (fun p => decide (p.1 < k))).length
/-- `upper_bound(k)` -/
def upperBound (c : ChInfo) (k : Nat) : Nat := (c.takeWhile (fun p => decide (p.1 ≤ k))).length

/-- `MCQ(hit)`, MCBTAlg.cxx:98-116; reading `edep_info` is in range because every stored vector has `_num_parts` entries -/
def BT.mcq (s : BT) (h : Win) : List ℚ :=
  match s.event[h.ch]? with
  | none => List.replicate s.nparts 0
  | some c => winLoop s.nparts c (upperBound c ((h.hi + 1) % U32)) (c.length + 1) (lowerBound c h.lo)
      (List.replicate s.nparts 0)

/-- `MCQ(hits)`, MCBTAlg.cxx:131-141 -/
def BT.mcqList (s : BT) (hs : List Win) : List ℚ :=
  hs.foldl (fun res h => addVec s.nparts res (s.mcq h)) (List.replicate s.nparts 0)

/-- the normalisation shared by the two `MCQFrac`, MCBTAlg.cxx:121-128, 146-153 -/
def fracOf (res : List ℚ) : List ℚ :=
  if res.length = 0 then res
  else
    let sum := res.sum
    let last := res.getD (res.length - 1) 0
    (List.range res.length).map (fun i =>
      if i < res.length - 1 then res.getD i 0 / (sum - last) else res.getD i 0 / sum)

/-! ## Matching -/

/-- a hit of a cluster: its window and the plane of its wire -/
structure CHit where
  win : Win
  plane : Nat

/-- members of `MCMatchAlg` filled by `BuildMap`, MCMatchAlg.h:88-92 -/
structure Match where
  summed : List (List ℚ)
  clusterQ : List (List ℚ)
  clusterPlane : List Nat
  best : List (List Int)

/-- loop `_summed_mcq[i][plane] += mcq_v[i]`, MCMatchAlg.cxx:94-96 -/
def addSummed (plane : Nat) : List (List ℚ) → List ℚ → Res (List (List ℚ))
  | rest, [] => .ok rest
  | [], _ :: _ => .ub
  | row :: rows, q :: qs =>
    match addAt row plane q, addSummed plane rows qs with
    | .ok row', .ok rows' => .ok (row' :: rows')
    | _, _ => .ub

/-- loop over the clusters, MCMatchAlg.cxx:72-99; `_cluster_plane_id` holds `unsigned char`s -/
def clusterLoop (nplanes : Nat) (bt : BT) : List (List CHit) → Match → Res Match
  | [], m => .ok m
  | hits :: cs, m =>
    let plane := match hits with
      | [] => nplanes
      -- `if (plane == Nplanes) plane = …`: the first plane different from `Nplanes`
      | _ => ((hits.find? (fun h => h.plane ≠ nplanes)).map (·.plane)).getD nplanes
    let q := bt.mcqList (hits.map (·.win))
    match addSummed plane m.summed q with
    | .ok s => clusterLoop nplanes bt cs
        { m with summed := s, clusterQ := m.clusterQ ++ [q], clusterPlane := m.clusterPlane ++ [plane % 256] }
    | .throw => .throw
    | .ub => .ub

/-- inner loop of the best match search for one MC object, MCMatchAlg.cxx:112-123: state is the best charge and the best
cluster per plane -/
def bestLoop (mc : Nat) (planes : List Nat) (qs : List (List ℚ)) : Nat → Nat → List ℚ → List Int → Res (List Int)
  | 0, _, _, b => .ok b
  | n + 1, i, bq, b =>
    match planes[i]?, (qs[i]?).bind (·[mc]?) with
    | some p, some q =>
      match bq[p]? with
      | none => .ub
      | some old => if old < q then bestLoop mc planes qs n (i + 1) (bq.set p q) (b.set p (i : Int))
          else bestLoop mc planes qs n (i + 1) bq b
    | _, _ => .ub

/-- outer loop over the MC objects, MCMatchAlg.cxx:110-124 -/
def bestAll (nplanes : Nat) (m : Match) : Nat → Nat → Res (List (List Int))
  | 0, _ => .ok []
  | n + 1, mc =>
    match bestLoop mc m.clusterPlane m.clusterQ m.clusterQ.length 0 (List.replicate nplanes 0) (List.replicate nplanes (-1)),
      bestAll nplanes m n (mc + 1) with
    | .ok b, .ok bs => .ok (b :: bs)
    | _, _ => .ub

/-- `BuildMap(clusters)`, MCMatchAlg.cxx:42-127 -/
def buildMap (g : Geo) (bt : BT) (clusters : List (List CHit)) : Res Match :=
  let m0 : Match := { summed := List.replicate (bt.numParts + 1) (List.replicate g.nplanes 0), clusterQ := [],
                      clusterPlane := [], best := [] }
  match clusterLoop g.nplanes bt clusters m0 with
  | .ok m => match bestAll g.nplanes m bt.numParts 0 with
    | .ok b => .ok { m with best := b }
    | .throw => .throw
    | .ub => .ub
  | .throw => .throw
  | .ub => .ub

/-- `BestClusters`, MCMatchAlg.cxx:217-226 -/
def Match.bestClusters (m : Match) (mc : Nat) : Res (List Int) :=
  if m.best.length = 0 then .throw
  else match m.best[mc]? with
    | none => .throw
    | some b => .ok b

/-- `ClusterCorrectness`, MCMatchAlg.cxx:129-151; division as in exact arithmetic, by zero gives 0 here (NaN or infinity
in the code) -/
def Match.correctness (m : Match) (cl mc : Nat) : Res ℚ :=
  if m.best.length = 0 then .throw
  else match m.clusterQ[cl]?, m.best[mc]?, m.clusterPlane[cl]? with
    | some q, some b, some p =>
      match b[p]? with
      | none => .throw
      | some bi =>
        if bi < 0 then .ok (-1)
        else match q[mc]?, (m.clusterQ[bi.toNat]?).bind (·[mc]?) with
          | some x, some y => .ok (x / y)
          | _, _ => .throw
    | _, _, _ => .throw

/-- `ClusterEP`, MCMatchAlg.cxx:189-215 -/
def Match.clusterEP (m : Match) (cl mc : Nat) : Res (ℚ × ℚ) :=
  if m.best.length = 0 then .throw
  else match m.clusterQ[cl]? with
    | none => .throw
    | some q =>
      if mc ≥ m.best.length then .throw
      else match m.clusterPlane[cl]?, q[mc]?, m.summed[mc]? with
        | some p, some x, some row => match row[p]? with
          | some s => .ok (x / s, x / q.sum)
          | none => .ub
        | _, _, _ => .ub

/-- the product over the clusters for one MC object, MCMatchAlg.cxx:166-176 (loops interchanged: the entries are independent) -/
def Match.showerEff (m : Match) (mc : Nat) : List Nat → ℚ → Res ℚ
  | [], e => .ok e
  | c :: cs, e =>
    match m.correctness c mc with
    | .ok x => m.showerEff mc cs (if x ≥ 0 then e * x else e)
    | .throw => .throw
    | .ub => .ub

/-- the final search, MCMatchAlg.cxx:181-188; `effs` from position `i` on -/
def pickBest : List ℚ → Nat → Nat × ℚ → Nat × ℚ
  | [], _, r => r
  | e :: es, i, r => if e < r.2 then pickBest es (i + 1) r else pickBest es (i + 1) (i, e)

/-- all efficiencies -/
def Match.showerEffs (m : Match) (cls : List Nat) : Nat → Nat → Res (List ℚ)
  | 0, _ => .ok []
  | n + 1, mc => match m.showerEff mc cls 1, m.showerEffs cls n (mc + 1) with
    | .ok e, .ok es => .ok (e :: es)
    | _, _ => .throw

/-- `ShowerCorrectness`, MCMatchAlg.cxx:153-190 -/
def Match.showerCorrectness (m : Match) (cls : List Nat) : Res (Nat × ℚ) :=
  if m.best.length = 0 then .throw
  else if cls.length > m.clusterQ.length then .throw
  else if cls.length = 0 then .throw
  else match m.showerEffs cls m.best.length 0 with
    | .ok es => .ok (pickBest es 0 (0, -1))
    | .throw => .throw
    | .ub => .ub

end Verif.MCComp

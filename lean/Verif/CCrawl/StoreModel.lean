import Mathlib.Algebra.Order.Field.Rat
import Mathlib.Logic.Function.Basic
import Mathlib.Data.List.Basic

/-!
Model of the bookkeeping of `cluster::ClusterCrawlerAlg` (larreco/RecoAlg/ClusterCrawlerAlg.cxx): storing, deleting,
restoring, splitting and merging of clusters, and the marks of the hits.

Simplifications: the vectors `fHits` and `inClus` are functions, with the number of hits beside them (both vectors have that
size); a plane is the number made of cryostat, TPC and plane; slopes, angles and charges of a cluster are not kept; the fits
are not modelled, their verdict is an input.  Indices of clusters are in range unless stated.
-/

namespace Verif.CCrawl

/-- what is used of a hit here -/
structure Hit where
  plane : Nat
  wire : Nat
  time : ℚ
deriving DecidableEq, Repr

/-- `ClusterStore`, ClusterCrawlerAlg.h:54-79 -/
structure Cl where
  id : Int
  proc : Int
  plane : Nat
  beginWir : Nat
  beginTim : ℚ
  beginVtx : Int
  endWir : Nat
  endTim : ℚ
  endVtx : Int
  hits : List Nat
deriving DecidableEq, Repr

/-- the members that matter: `fHits`, their number, `inClus`, `tcl`, `NClusters` -/
structure St where
  hit : Nat → Hit
  n : Nat
  inClus : Nat → Int
  tcl : List Cl
  num : Nat

/-- The loop over the hits in `TmpStore`, ClusterCrawlerAlg.cxx:3464-3483: whether it ends well, and the marks, which stay
if it does not. -/
def mark (H : Nat → Hit) (plane : Nat) (proc id : Int) : List Nat → Option Nat → (Nat → Int) → Bool × (Nat → Int)
  | [], _, m => (true, m)
  | h :: t, last, m =>
    if m h ≠ 0 then (false, m)
    else if (H h).plane ≠ plane then (false, m)
    else if proc < 900 ∧ last.any (fun w => decide (w ≤ (H h).wire)) = true then (false, m)
    else mark H plane proc id t (some (H h).wire) (Function.update m h id)

/-- the new cluster, ClusterCrawlerAlg.cxx:3505-3532 -/
def newCl (H : Nat → Hit) (id proc : Int) (first last : Nat) (hits : List Nat) : Cl :=
  ⟨id, proc, (H first).plane, (H first).wire, (H first).time, -99, (H last).wire, (H last).time, -99, hits⟩

/-- `TmpStore`, ClusterCrawlerAlg.cxx:3447-3536, for the hits `fcl2hits` and `clProcCode`. -/
def tmpStore (s : St) (hits : List Nat) (proc : Int) : Bool × St :=
  match hits with
  | a :: b :: t =>
    if hits.length > s.n then (false, s)
    else if s.num = 32767 then (false, s)
    else
      let r := mark s.hit (s.hit a).plane proc ((s.num : Int) + 1) hits none s.inClus
      if r.1 then
        (true, { s with inClus := r.2, num := s.num + 1,
                        tcl := s.tcl ++ [newCl s.hit ((s.num : Int) + 1) proc a ((b :: t).getLastD b) hits] })
      else (false, { s with inClus := r.2 })
  | _ => (false, s)

/-- The positions of `fcl2hits` read for the charges of the two ends, ClusterCrawlerAlg.cxx:3488-3502: for a cluster of `k`
hits, with or without charges found before (32 bit arithmetic). -/
def chargeReads (k : Nat) (endKnown beginKnown : Bool) : List Nat :=
  (if endKnown then [] else [k - 2, (k - 2 + (2 ^ 32 - 1)) % 2 ^ 32]) ++ (if beginKnown then [] else [1, 2])

/-- sets the marks of the hits -/
def setAll (m : Nat → Int) (hits : List Nat) (v : Int) : Nat → Int := hits.foldl (fun m h => Function.update m h v) m

/-- `MakeClusterObsolete`, ClusterCrawlerAlg.cxx:825-838. -/
def obsolete (s : St) (i : Nat) : St :=
  match s.tcl[i]? with
  | some c => if c.id ≤ 0 then s else
      { s with tcl := s.tcl.set i { c with id := -c.id }, inClus := setAll s.inClus c.hits 0 }
  | none => s

/-- `RestoreObsoleteCluster`, ClusterCrawlerAlg.cxx:841-853. -/
def restore (s : St) (i : Nat) : St :=
  match s.tcl[i]? with
  | some c => if c.id > 0 then s else
      { s with tcl := s.tcl.set i { c with id := -c.id }, inClus := setAll s.inClus c.hits (-c.id) }
  | none => s

/-- `tcl[i].BeginVtx = b; tcl[i].EndVtx = e` -/
def setVtx (s : St) (i : Nat) (b e : Int) : St :=
  { s with tcl := s.tcl.modify i fun c => { c with beginVtx := b, endVtx := e } }

/-- is there enough for a second cluster?  ClusterCrawlerAlg.cxx:2724 (the size is unsigned) -/
def enoughUS (pos size : Nat) : Bool := if size < 3 then true else decide (pos < size - 3)

/-- the second part of `SplitCluster`, ClusterCrawlerAlg.cxx:2724-2781; `c` is the cluster as it was -/
def splitUS (s : St) (icl pos : Nat) (ivx : Int) (c : Cl) : Bool × St :=
  if enoughUS pos c.hits.length then
    if (c.hits.drop pos).any fun h => s.inClus h ≠ 0 then (false, restore s icl)
    else
      let r := tmpStore s (c.hits.drop pos) c.proc
      if r.1 then (true, setVtx r.2 (r.2.tcl.length - 1) ivx c.endVtx)
      else (false, restore (obsolete r.2 (r.2.tcl.length - 1)) icl)
  else (true, s)

/-- `SplitCluster`, ClusterCrawlerAlg.cxx:2669-2783. -/
def split (s : St) (icl pos : Nat) (ivx : Int) : Bool × St :=
  match s.tcl[icl]? with
  | none => (false, s)
  | some c =>
    if c.id < 0 then (false, s)
    else
      let s1 := obsolete s icl
      if pos > 2 then
        let r := tmpStore s1 (c.hits.take pos) c.proc
        if r.1 then splitUS (setVtx r.2 (r.2.tcl.length - 1) c.beginVtx ivx) icl pos ivx c
        else (false, restore r.2 icl)
      else splitUS s1 icl pos ivx c

/-! ### Merging -/

/-- `wirehit`, ClusterCrawlerAlg.cxx:3156-3169: the hits of the second cluster, then those of the first -/
def wireHit (H : Nat → Hit) (lo : Nat) (h1 h2 : List Nat) : Nat → Option Nat :=
  (h2 ++ h1).foldl (fun f h => Function.update f ((H h).wire - lo) (some h)) fun _ => none

/-- the hits of the merged cluster, ClusterCrawlerAlg.cxx:3153-3175 -/
def mergedHits (H : Nat → Hit) (lo hi : Nat) (h1 h2 : List Nat) : List Nat :=
  ((List.range (hi + 2 - lo)).reverse).filterMap (wireHit H lo h1 h2)

/-- the wires of the merged cluster, ClusterCrawlerAlg.cxx:3142-3151: lowest, highest, and whether the first cluster is the
one downstream -/
def mergeRange (c1 c2 : Cl) : Nat × Nat × Bool :=
  (min c1.endWir c2.endWir, max c1.beginWir c2.beginWir, !decide (c2.beginWir > c1.beginWir))

/-- `DoMerge`, ClusterCrawlerAlg.cxx:3129-3252: `proc` is the processor code of the cluster worked on before, `newProc` the one
given to the merged cluster; `fitOK` is the verdict of the fit across the boundary. -/
def doMerge (s : St) (i1 i2 : Nat) (proc newProc : Int) (fitOK : Bool) : St :=
  match s.tcl[i1]?, s.tcl[i2]? with
  | some c1, some c2 =>
    if c1.hits.length < 3 ∨ c2.hits.length < 3 then s
    else if fitOK = false then s
    else
      let g := mergeRange c1 c2
      let hs := mergedHits s.hit g.1 g.2.1 c1.hits c2.hits
      let s1 := obsolete (obsolete s i1) i2
      let r := tmpStore s1 hs proc
      if r.1 then
        let k := r.2.tcl.length - 1
        let s2 := { r.2 with tcl := r.2.tcl.modify k fun c => { c with proc := newProc } }
        if g.2.2 then setVtx s2 k c1.beginVtx c2.endVtx else setVtx s2 k c2.beginVtx c1.endVtx
      else r.2
  | _, _ => s

/-- The end of `MergeOverlap`, ClusterCrawlerAlg.cxx:799-812: `hits` are those chosen for the cluster that replaces `icl`
(upstream) and `jcl` (downstream). -/
def mergeOverlap (s : St) (icl jcl : Nat) (hits : List Nat) : St :=
  match s.tcl[icl]?, s.tcl[jcl]? with
  | some ci, some cj =>
    if ci.id < 0 ∨ cj.id < 0 then s
    else
      let r := tmpStore (obsolete (obsolete s icl) jcl) hits (ci.proc + 500)
      if r.1 then setVtx r.2 (r.2.tcl.length - 1) cj.beginVtx ci.beginVtx
      else restore (restore r.2 icl) jcl
  | _, _ => s

/-- A cluster is replaced by one with other hits: ClusterCrawlerAlg.cxx:1117-1150 (`ChkClusterDS`), 1504-1524
(`VtxClusterSplit`). -/
def replaceCl (s : St) (icl : Nat) (hits : List Nat) (add : Int) (endVtx : Option Int) : St :=
  match s.tcl[icl]? with
  | some c =>
    if c.id < 0 then s
    else
      let r := tmpStore (obsolete s icl) hits (c.proc + add)
      if r.1 then setVtx r.2 (r.2.tcl.length - 1) c.beginVtx (endVtx.getD c.endVtx) else r.2
  | none => s

/-- The shortening of a cluster in `RefineVertexClusters`, ClusterCrawlerAlg.cxx:1326-1346: the result of `TmpStore` is not
looked at. -/
def shorten (s : St) (icl k : Nat) (iv : Int) : St :=
  match s.tcl[icl]? with
  | some c =>
    if c.id < 0 then s
    else
      let r := tmpStore (obsolete s icl) (c.hits.take k) (c.proc + 700)
      { r.2 with tcl := r.2.tcl.modify (r.2.tcl.length - 1) fun c => { c with endVtx := iv } }
  | none => s

/-- A free hit is declared obsolete by `MergeHits`, ClusterCrawlerAlg.cxx:1643-1649. -/
def dropHit (s : St) (h : Nat) : St :=
  if s.inClus h = 0 then { s with inClus := Function.update s.inClus h (-1) } else s

/-! ### Histories -/

/-- the operations above, with any arguments -/
inductive Op where
  | store (hits : List Nat) (proc : Int)
  | kill (i : Nat)
  | split (i pos : Nat) (ivx : Int)
  | merge (i1 i2 : Nat) (proc newProc : Int) (fitOK : Bool)
  | overlap (i j : Nat) (hits : List Nat)
  | replace (i : Nat) (hits : List Nat) (add : Int) (endVtx : Option Int)
  | shorten (i k : Nat) (iv : Int)
  | dropHit (h : Nat)

/-- the state after an operation -/
def step (s : St) : Op → St
  | .store hits proc => (tmpStore s hits proc).2
  | .kill i => obsolete s i
  | .split i pos ivx => (split s i pos ivx).2
  | .merge i1 i2 p q f => doMerge s i1 i2 p q f
  | .overlap i j hits => mergeOverlap s i j hits
  | .replace i hits add e => replaceCl s i hits add e
  | .shorten i k iv => shorten s i k iv
  | .dropHit h => dropHit s h

/-- the state after `CrawlInit` and the start of `RunCrawler`, ClusterCrawlerAlg.cxx:152-181 and 206-228 -/
def start (H : Nat → Hit) (n : Nat) : St := ⟨H, n, fun _ => 0, [], 0⟩

/-! ### Removal of obsolete hits -/

/-- `*find(hits.begin(), hits.end(), src) = dest` -/
def replaceFirst (src dest : Nat) : List Nat → List Nat
  | [] => []
  | h :: t => if h = src then dest :: t else h :: replaceFirst src dest t

/-- one hit of `RemoveObsoleteHits`, ClusterCrawlerAlg.cxx:945-966: the first component is `destHit` -/
def removeStep (p : Nat × St) (src : Nat) : Nat × St :=
  let s := p.2
  if s.inClus src < 0 then p
  else if src ≠ p.1 then
    let k := s.inClus src
    (p.1 + 1, { s with
      hit := Function.update s.hit p.1 (s.hit src)
      inClus := Function.update s.inClus p.1 k
      tcl := if k > 0 then s.tcl.modify (k - 1).toNat fun c => { c with hits := replaceFirst src p.1 c.hits } else s.tcl })
  else (p.1 + 1, s)

/-- `RemoveObsoleteHits`, ClusterCrawlerAlg.cxx:933-971. -/
def removeObsolete (s : St) : St :=
  let r := (List.range s.n).foldl removeStep (0, s)
  { r.2 with n := r.1 }

/-- The positions of `tcl` that `RemoveObsoleteHits` looks at, ClusterCrawlerAlg.cxx:951-954: `icl = inClus[destHit] - 1` for
every hit that moves (at `srcHit` nothing was written before, the hits only move down). -/
def removeReads (s : St) : List Nat :=
  ((List.range s.n).foldl (fun (r : Nat × List Nat) src =>
    if s.inClus src < 0 then r
    else (r.1 + 1, if src ≠ r.1 ∧ s.inClus src > 0 then r.2 ++ [(s.inClus src - 1).toNat] else r.2)) (0, [])).2

/-- The check of the module before the clusters are saved, ClusterCrawler_module.cc:115-137: every live cluster has hits of
its plane marked with its number.  If it fails nothing is saved. -/
def moduleCheck (s : St) : Bool :=
  s.tcl.all fun c => c.id < 0 || c.hits.all fun h => (s.hit h).plane == c.plane && s.inClus h == c.id

/-- `CheckHitDuplicates`, ClusterCrawlerAlg.cxx:6107-6125 -/
def duplicates (hits : List Nat) : Bool :=
  (hits.foldl (fun (r : List Nat × Nat) h => (h :: r.1, if h ∈ r.1 then r.2 + 1 else r.2)) ([], 0)).2 > 0

end Verif.CCrawl

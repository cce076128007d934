import Mathlib.Data.List.Nodup
import Mathlib.Data.List.Range
import Mathlib.Tactic.Common
import Verif.Cluster.DBSet

/-!
Model of the output stage of `larreco/ClusterFinder/Cluster3D_module.cc`: `ProduceArtClusters`, `ConvertToArtOutput`, `FindAndStoreDaughters`, `countUltimateDaughters`, `MakeAndSaveSpacePoints`, and C107, C108, C109.

A three dimensional hit is a number.  Of each object that is stored, the identifier it is given and its references are kept.
`util::CreateAssn(evt, a, b, assn, start, end)` associates the last element of `a` with the elements `start ≤ k < end` of `b`.
Not modelled: positions, errors, kink points, seeds (none are made), the association of space points and clusters to the two dimensional hits.
-/
namespace Verif.C3DOut

/-- `ClusterParameters`, Cluster3D.h: whether `getFullPCA().getSvdOK()`; one entry for each view with a known view (`getClusterParams`); the hits; the best hits; the best edges and the hull edges; the daughters -/
inductive CP where
  | mk (ok : Bool) (views : Nat) (hits best : List Nat) (bestEdges hullEdges : List (Nat × Nat)) (daughters : List CP)

def CP.ok : CP → Bool | .mk o _ _ _ _ _ _ => o
def CP.views : CP → Nat | .mk _ v _ _ _ _ _ => v
def CP.hits : CP → List Nat | .mk _ _ h _ _ _ _ => h
def CP.best : CP → List Nat | .mk _ _ _ b _ _ _ => b
def CP.bestEdges : CP → List (Nat × Nat) | .mk _ _ _ _ e _ _ => e
def CP.hullEdges : CP → List (Nat × Nat) | .mk _ _ _ _ _ e _ => e
def CP.daughters : CP → List CP | .mk _ _ _ _ _ _ d => d

/-- `recob::PFParticle`: self, parent (`none` is `kPFParticlePrimary`), daughters -/
structure PF where
  self : Nat
  parent : Option Nat
  daughters : List Nat
  deriving DecidableEq, Repr

/-- a collection of space points (identifier, hit), the map from hits to space points -/
structure Pts where
  pts : List (Nat × Nat) := []
  map : Nat → Option Nat := fun _ => none

/-- `ArtOutputHandler`, Cluster3D_module.cc:118-318, with the status bit MADESPACEPOINT of the hits and the two maps of a cluster (Cluster3D_module.cc:1001-1002, map at 1475 and 1494) -/
structure Out where
  pf : List PF := []
  pca : List Nat := []
  pfPca : List (Nat × Nat) := []
  clus : List Nat := []
  pfClus : List (Nat × Nat) := []
  sp : Pts := {}
  pp : Pts := {}
  pfSp : List (Nat × Nat) := []
  pfPp : List (Nat × Nat) := []
  edge : List (Nat × Nat × Nat) := []
  pathEdge : List (Nat × Nat × Nat) := []
  pfEdge : List (Nat × Nat) := []
  pfPathEdge : List (Nat × Nat) := []
  made : Nat → Bool := fun _ => false

/-- the associations of the last of `n` particles to the elements from `start` to `stop`, Cluster3D_module.cc:165-222 -/
def assn (n start stop : Nat) : List (Nat × Nat) := (List.range' start (stop - start)).map (fun k => (n - 1, k))

section
variable (rej : Nat → Bool)

/-- the body of the loop of `MakeAndSaveSpacePoints`, Cluster3D_module.cc:1471-1508 -/
def point (s : Pts × (Nat → Bool)) (h : Nat) : Pts × (Nat → Bool) :=
  if (s.1.map h).isSome then s
  else if rej h = true then s
  else ({ pts := s.1.pts ++ [(s.1.pts.length, h)], map := fun x => if x = h then some s.1.pts.length else s.1.map x }, fun x => s.2 x || x == h)

/-- `MakeAndSaveSpacePoints`, Cluster3D_module.cc:1456-1511 -/
def points (hits : List Nat) (s : Pts × (Nat → Bool)) : Pts × (Nat → Bool) := hits.foldl (point rej) s

/-- the loops over edges, Cluster3D_module.cc:1118-1138, 1380-1398: an edge with an unknown hit is left out -/
def edges (map : Nat → Option Nat) (l : List (Nat × Nat)) (es : List (Nat × Nat × Nat)) : List (Nat × Nat × Nat) :=
  l.foldl (fun es e => match map e.1, map e.2 with | some a, some b => es ++ [(es.length, a, b)] | _, _ => es) es

/-- two principal axes, with their associations to the last particle, Cluster3D_module.cc:1049-1099, 1403-1449 -/
def axes (o : Out) : Out :=
  { o with pca := o.pca ++ [o.pca.length, o.pca.length + 1], pfPca := o.pfPca ++ assn o.pf.length o.pca.length (o.pca.length + 2) }

/-- the space points of all hits, Cluster3D_module.cc:1345-1352 -/
def leafPoints (c : CP) (o : Out) : Out :=
  let r := points rej c.hits (o.sp, o.made)
  { o with sp := r.1, made := r.2, pfSp := o.pfSp ++ assn o.pf.length o.sp.pts.length r.1.pts.length }

/-- the points of the path, Cluster3D_module.cc:1354-1374 -/
def leafPath (c : CP) (o : Out) : Out :=
  if c.best = [] then o
  else
    let r := points rej c.best (o.pp, o.made)
    { o with pp := r.1, made := r.2, pfPp := o.pfPp ++ assn o.pf.length o.pp.pts.length r.1.pts.length }

/-- the edges, Cluster3D_module.cc:1376-1401; they go with the path points if there are best hits -/
def leafEdges (c : CP) (o : Out) : Out :=
  if c.bestEdges = [] then o
  else if c.best = [] then
    let es := edges o.sp.map c.bestEdges o.edge
    { o with edge := es, pfEdge := o.pfEdge ++ assn o.pf.length o.edge.length es.length }
  else
    let es := edges o.pp.map c.bestEdges o.pathEdge
    { o with pathEdge := es, pfPathEdge := o.pfPathEdge ++ assn o.pf.length o.pathEdge.length es.length }

/-- `ConvertToArtOutput`, Cluster3D_module.cc:1235-1454; the clusters of the views come first but are associated at the end -/
def convert (o : Out) (parent : Option Nat) (c : CP) : Out × Nat :=
  let start := o.clus.length
  let o := { o with clus := o.clus ++ List.range' o.clus.length c.views }
  let idx := o.pf.length
  let o := { o with pf := o.pf ++ [⟨idx, parent, []⟩] }
  let o := axes (leafEdges c (leafPath rej c (leafPoints rej c o)))
  ({ o with pfClus := o.pfClus ++ assn o.pf.length start o.clus.length }, idx)

mutual
/-- `countUltimateDaughters`, Cluster3D_module.cc:1184-1196 -/
def count : CP → Nat
  | .mk _ _ _ _ _ _ [] => 1
  | .mk _ _ _ _ _ _ (d :: ds) => countList (d :: ds)
def countList : List CP → Nat
  | [] => 0
  | d :: ds => count d + countList ds
end

mutual
/-- `FindAndStoreDaughters`, Cluster3D_module.cc:1198-1233; the list holds the keys of the `std::map` `idxToPCAMap` -/
def store (parent : Nat) : CP → Out × List Nat → Out × List Nat
  | .mk ok v h b be he [], s =>
    let r := convert rej s.1 (some parent) (.mk ok v h b be he [])
    (r.1, DBSet.ins r.2 s.2)
  | .mk _ _ _ _ _ _ (d :: ds), s => storeList parent (d :: ds) s
def storeList (parent : Nat) : List CP → Out × List Nat → Out × List Nat
  | [], s => s
  | d :: ds, s => storeList parent ds (store parent d s)
end

/-- the particle of a cluster with daughters, its space points and edges, Cluster3D_module.cc:1026-1142 -/
def storeParent (o : Out) (c : CP) : Out :=
  let idx := o.pf.length + count c
  let r := store rej idx c (o, [])
  let o := axes { r.1 with pf := r.1.pf ++ [⟨idx, none, r.2⟩] }
  let q := points rej c.hits (o.sp, o.made)
  let o := { o with sp := q.1, made := q.2 }
  let es := edges o.sp.map c.hullEdges o.edge
  { o with edge := es, pfEdge := o.pfEdge ++ assn o.pf.length o.edge.length es.length }

/-- the body of the loop over the clusters, Cluster3D_module.cc:987-1143; the maps are new for each cluster -/
def produceOne (o : Out) (c : CP) : Out :=
  if c.ok = false then o
  else
    let o := { o with sp := { o.sp with map := fun _ => none }, pp := { o.pp with map := fun _ => none } }
    if c.daughters = [] then (convert rej o none c).1 else storeParent rej o c

/-- the loop over the hits that made no space point, Cluster3D_module.cc:1149-1178 -/
def freePoints (all : List Nat) (o : Out) : Out :=
  { o with sp := { o.sp with pts := all.foldl (fun p h => if o.made h = true then p else p ++ [(p.length, h)]) o.sp.pts } }

/-- `ProduceArtClusters`, Cluster3D_module.cc:970-1182 -/
def produce (all : List Nat) (cls : List CP) : Out := freePoints all (cls.foldl (produceOne rej) {})

end

/-! ## Specification -/

mutual
/-- the clusters without daughters at the ends of the tree of daughters -/
def leaves : CP → List CP
  | .mk ok v h b be he [] => [.mk ok v h b be he []]
  | .mk _ _ _ _ _ _ (d :: ds) => leavesList (d :: ds)
def leavesList : List CP → List CP
  | [] => []
  | d :: ds => leaves d ++ leavesList ds
end

/-- the clusters that become particles, for one cluster of the list: itself, after its leaves if it has daughters -/
def family (c : CP) : List CP := if c.ok = false then [] else if c.daughters = [] then [c] else leaves c ++ [c]

/-- the cluster each particle comes from -/
def sources (cls : List CP) : List CP := cls.flatMap family

/-! ## The counting of leaves -/

mutual
theorem count_leaves : ∀ c : CP, count c = (leaves c).length
  | .mk _ _ _ _ _ _ [] => by rw [count, leaves]; rfl
  | .mk _ _ _ _ _ _ (d :: ds) => by rw [count, leaves]; exact countList_leaves (d :: ds)
theorem countList_leaves : ∀ l : List CP, countList l = (leavesList l).length
  | [] => by rw [countList, leavesList]; rfl
  | d :: ds => by rw [countList, leavesList, List.length_append, count_leaves d, countList_leaves ds]
end

mutual
theorem leaves_leaf : ∀ c : CP, ∀ d ∈ leaves c, d.daughters = []
  | .mk _ _ _ _ _ _ [] => by intro d hd; rw [leaves] at hd; simp at hd; subst hd; rfl
  | .mk _ _ _ _ _ _ (d :: ds) => by rw [leaves]; exact leavesList_leaf (d :: ds)
theorem leavesList_leaf : ∀ l : List CP, ∀ d ∈ leavesList l, d.daughters = []
  | [] => by rw [leavesList]; simp
  | d :: ds => by
    rw [leavesList]; intro x hx
    rcases List.mem_append.1 hx with h | h
    · exact leaves_leaf d x h
    · exact leavesList_leaf ds x h
end

variable (rej : Nat → Bool)

theorem ins_top {x : Nat} {l : List Nat} (h : ∀ y ∈ l, y < x) : DBSet.ins x l = l ++ [x] := by
  induction l with
  | nil => rfl
  | cons a t ih =>
    have ha := h a (by simp)
    unfold DBSet.ins
    rw [if_neg (by omega), if_neg (by omega), ih (fun y hy => h y (by simp [hy]))]; rfl

/-! ## One call of `MakeAndSaveSpacePoints` -/

/-- identifiers are positions, and the map points to the space point of the hit -/
structure PtsWF (P : Pts) : Prop where
  ids : P.pts.map Prod.fst = List.range P.pts.length
  map : ∀ h k, P.map h = some k → P.pts[k]? = some (k, h)

theorem getElem?_append_left' {α : Type} {l m : List α} {k : Nat} {a : α} (h : l[k]? = some a) : (l ++ m)[k]? = some a := by
  have hk : k < l.length := by
    rcases Nat.lt_or_ge k l.length with h' | h'
    · exact h'
    · rw [List.getElem?_eq_none h'] at h; cases h
  rw [List.getElem?_append_left hk]; exact h

/-- the result of the loop -/
structure PtsStep (hits : List Nat) (s r : Pts × (Nat → Bool)) (seg : List (Nat × Nat)) : Prop where
  pts : r.1.pts = s.1.pts ++ seg
  wf : PtsWF r.1
  nodup : (seg.map Prod.snd).Nodup
  mem : ∀ h, h ∈ seg.map Prod.snd ↔ h ∈ hits ∧ rej h = false ∧ s.1.map h = none
  made : ∀ h, r.2 h = true ↔ s.2 h = true ∨ h ∈ seg.map Prod.snd
  keep : ∀ h k, s.1.map h = some k → r.1.map h = some k
  some : ∀ h, (r.1.map h).isSome = true ↔ (s.1.map h).isSome = true ∨ (h ∈ hits ∧ rej h = false)

theorem points_step (hits : List Nat) (s : Pts × (Nat → Bool)) (hw : PtsWF s.1) : ∃ seg, PtsStep rej hits s (points rej hits s) seg := by
  induction hits generalizing s with
  | nil => exact ⟨[], by simp [points], hw, by simp, by simp, by simp [points], fun h k hk => hk, by simp [points]⟩
  | cons a t ih =>
    have hrec : points rej (a :: t) s = points rej t (point rej s a) := rfl
    rw [hrec]
    unfold point
    by_cases h1 : (s.1.map a).isSome = true
    · rw [if_pos h1]
      obtain ⟨seg, e1, e2, e3, e4, e5, e6, e7⟩ := ih s hw
      refine ⟨seg, e1, e2, e3, ?_, e5, e6, ?_⟩
      · intro h; rw [e4]
        constructor
        · rintro ⟨x, y, z⟩; exact ⟨by simp [x], y, z⟩
        · rintro ⟨x, y, z⟩
          rcases List.mem_cons.1 x with rfl | x
          · rw [z] at h1; simp at h1
          · exact ⟨x, y, z⟩
      · intro h; rw [e7]
        constructor
        · rintro (x | ⟨x, y⟩)
          · exact Or.inl x
          · exact Or.inr ⟨by simp [x], y⟩
        · rintro (x | ⟨x, y⟩)
          · exact Or.inl x
          · rcases List.mem_cons.1 x with rfl | x
            · exact Or.inl h1
            · exact Or.inr ⟨x, y⟩
    · rw [if_neg h1]
      by_cases h2 : rej a = true
      · rw [if_pos h2]
        obtain ⟨seg, e1, e2, e3, e4, e5, e6, e7⟩ := ih s hw
        refine ⟨seg, e1, e2, e3, ?_, e5, e6, ?_⟩
        · intro h; rw [e4]
          constructor
          · rintro ⟨x, y, z⟩; exact ⟨by simp [x], y, z⟩
          · rintro ⟨x, y, z⟩
            rcases List.mem_cons.1 x with rfl | x
            · rw [y] at h2; simp at h2
            · exact ⟨x, y, z⟩
        · intro h; rw [e7]
          constructor
          · rintro (x | ⟨x, y⟩)
            · exact Or.inl x
            · exact Or.inr ⟨by simp [x], y⟩
          · rintro (x | ⟨x, y⟩)
            · exact Or.inl x
            · rcases List.mem_cons.1 x with rfl | x
              · rw [y] at h2; simp at h2
              · exact Or.inr ⟨x, y⟩
      · rw [if_neg h2]
        have h2' : rej a = false := by simpa using h2
        have hn : s.1.map a = none := by simpa using h1
        have hw' : PtsWF { pts := s.1.pts ++ [(s.1.pts.length, a)], map := fun x => if x = a then some s.1.pts.length else s.1.map x } := by
          refine ⟨?_, ?_⟩
          · simp [hw.ids, List.range_succ]
          · intro h k hk
            dsimp only at hk ⊢
            by_cases e : h = a
            · rw [if_pos e] at hk
              cases hk; subst e
              simp
            · rw [if_neg e] at hk
              exact getElem?_append_left' (hw.map h k hk)
        obtain ⟨seg, e1, e2, e3, e4, e5, e6, e7⟩ := ih ({ pts := s.1.pts ++ [(s.1.pts.length, a)], map := fun x => if x = a then some s.1.pts.length else s.1.map x }, fun x => s.2 x || x == a) hw'
        dsimp only at e1 e4 e5 e6 e7
        have hna : a ∉ seg.map Prod.snd := by rw [e4]; simp
        refine ⟨(s.1.pts.length, a) :: seg, by rw [e1]; simp, e2, ?_, ?_, ?_, ?_, ?_⟩
        · rw [List.map_cons, List.nodup_cons]; exact ⟨hna, e3⟩
        · intro h
          rw [List.map_cons, List.mem_cons, e4]
          by_cases e : h = a
          · subst e; simp [h2', hn]
          · simp [e]
        · intro h; rw [e5, List.map_cons, List.mem_cons]; simp [or_assoc]
        · intro h k hk
          refine e6 h k ?_
          rw [if_neg]; exact hk
          rintro rfl; rw [hn] at hk; cases hk
        · intro h; rw [e7]
          by_cases e : h = a
          · subst e; simp [h2']
          · simp [e]

/-! ## The edges -/

theorem edges_spec (map : Nat → Option Nat) (l : List (Nat × Nat)) (es : List (Nat × Nat × Nat)) (hes : es.map Prod.fst = List.range es.length) :
    ∃ new, edges map l es = es ++ new ∧ (edges map l es).map Prod.fst = List.range (edges map l es).length ∧
      new.map Prod.snd = l.filterMap (fun e => match map e.1, map e.2 with | some a, some b => some (a, b) | _, _ => none) := by
  induction l generalizing es with
  | nil => exact ⟨[], by simp [edges], by simpa [edges] using hes, by simp⟩
  | cons e t ih =>
    have hrec : edges map (e :: t) es = edges map t (match map e.1, map e.2 with | some a, some b => es ++ [(es.length, a, b)] | _, _ => es) := rfl
    rw [hrec]
    cases ha : map e.1 with
    | none =>
      obtain ⟨new, h1, h2, h3⟩ := ih es hes
      exact ⟨new, h1, h2, by rw [h3]; simp [List.filterMap_cons, ha]⟩
    | some a =>
      cases hb : map e.2 with
      | none =>
        obtain ⟨new, h1, h2, h3⟩ := ih es hes
        exact ⟨new, h1, h2, by rw [h3]; simp [List.filterMap_cons, ha, hb]⟩
      | some b =>
        obtain ⟨new, h1, h2, h3⟩ := ih (es ++ [(es.length, a, b)]) (by simp [hes, List.range_succ])
        exact ⟨(es.length, a, b) :: new, by simpa using h1, h2, by rw [List.map_cons, h3]; simp [List.filterMap_cons, ha, hb]⟩

/-! ## One conversion -/

theorem assn_nil (n k : Nat) : assn n k k = [] := by unfold assn; simp

/-- the fields after a conversion -/
theorem convert_eq (o : Out) (par : Option Nat) (c : CP) :
    convert rej o par c =
      (let r1 := points rej c.hits (o.sp, o.made)
       let r2 := points rej c.best (o.pp, r1.2)
       let e1 := if c.best = [] then edges r1.1.map c.bestEdges o.edge else o.edge
       let e2 := if c.best = [] then o.pathEdge else edges r2.1.map c.bestEdges o.pathEdge
       let n := o.pf.length + 1
       ({ pf := o.pf ++ [⟨o.pf.length, par, []⟩], pca := o.pca ++ [o.pca.length, o.pca.length + 1],
          pfPca := o.pfPca ++ assn n o.pca.length (o.pca.length + 2),
          clus := o.clus ++ List.range' o.clus.length c.views, pfClus := o.pfClus ++ assn n o.clus.length (o.clus.length + c.views),
          sp := r1.1, pp := r2.1, pfSp := o.pfSp ++ assn n o.sp.pts.length r1.1.pts.length,
          pfPp := o.pfPp ++ assn n o.pp.pts.length r2.1.pts.length, edge := e1, pathEdge := e2,
          pfEdge := o.pfEdge ++ assn n o.edge.length e1.length, pfPathEdge := o.pfPathEdge ++ assn n o.pathEdge.length e2.length, made := r2.2 },
        o.pf.length)) := by
  unfold convert leafPoints leafPath leafEdges axes
  by_cases hb : c.best = []
  · by_cases he : c.bestEdges = []
    · simp [hb, he, points, edges, assn_nil]
    · simp [hb, he, points, assn_nil]
  · by_cases he : c.bestEdges = []
    · simp [hb, he, edges, assn_nil]
    · simp [hb, he, assn_nil]

/-- what is kept true; `src` lists the clusters the particles come from -/
structure Inv (o : Out) (src : List CP) : Prop where
  len : o.pf.length = src.length
  pca : o.pca = List.range (2 * src.length)
  pfPca : o.pfPca = (List.range src.length).flatMap (fun i => [(i, 2 * i), (i, 2 * i + 1)])
  clus : o.clus = List.range o.clus.length
  pfClusS : o.pfClus.map Prod.snd = o.clus
  pfClusF : o.pfClus.map Prod.fst = src.zipIdx.flatMap (fun p => if p.1.daughters = [] then List.replicate p.1.views p.2 else [])
  sp : PtsWF o.sp
  pp : PtsWF o.pp
  pfSpN : (o.pfSp.map Prod.snd).Pairwise (· < ·)
  pfSpL : ∀ q ∈ o.pfSp, q.2 < o.sp.pts.length
  pfSpH : ∀ q ∈ o.pfSp, ∃ c h, src[q.1]? = some c ∧ c.daughters = [] ∧ h ∈ c.hits ∧ rej h = false ∧ o.sp.pts[q.2]? = some (q.2, h)
  pfPpN : o.pfPp.map Prod.snd = List.range o.pp.pts.length
  pfPpH : ∀ q ∈ o.pfPp, ∃ c h, src[q.1]? = some c ∧ c.daughters = [] ∧ h ∈ c.best ∧ rej h = false ∧ o.pp.pts[q.2]? = some (q.2, h)
  made : ∀ h, o.made h = true ↔ h ∈ o.sp.pts.map Prod.snd ∨ h ∈ o.pp.pts.map Prod.snd
  best : ∀ h ∈ o.pp.pts.map Prod.snd, ∃ c ∈ src, c.daughters = [] ∧ h ∈ c.best ∧ rej h = false
  edgeI : o.edge.map Prod.fst = List.range o.edge.length
  pathI : o.pathEdge.map Prod.fst = List.range o.pathEdge.length
  edge : ∀ q ∈ o.edge, ∃ c ∈ src, ∃ e, e ∈ (if c.daughters = [] then c.bestEdges else c.hullEdges) ∧ (c.daughters = [] → c.best = []) ∧
    o.sp.pts[q.2.1]? = some (q.2.1, e.1) ∧ o.sp.pts[q.2.2]? = some (q.2.2, e.2)
  path : ∀ q ∈ o.pathEdge, ∃ c ∈ src, ∃ e, e ∈ c.bestEdges ∧ c.daughters = [] ∧ c.best ≠ [] ∧
    o.pp.pts[q.2.1]? = some (q.2.1, e.1) ∧ o.pp.pts[q.2.2]? = some (q.2.2, e.2)
  pfEdge : o.pfEdge.map Prod.snd = List.range o.edge.length
  pfPath : o.pfPathEdge.map Prod.snd = List.range o.pathEdge.length

theorem assn_snd (n a b : Nat) : (assn n a b).map Prod.snd = List.range' a (b - a) := by
  unfold assn; rw [List.map_map]; simp [Function.comp_def]

theorem mem_assn {n a b : Nat} {q : Nat × Nat} : q ∈ assn n a b ↔ q.1 = n - 1 ∧ a ≤ q.2 ∧ q.2 < b := by
  unfold assn
  rw [List.mem_map]
  constructor
  · rintro ⟨k, hk, rfl⟩
    rw [List.mem_range'_1] at hk
    exact ⟨rfl, by omega, by omega⟩
  · rintro ⟨h1, h2, h3⟩
    exact ⟨q.2, by rw [List.mem_range'_1]; omega, by rw [← h1]⟩

theorem range_append (a b : Nat) (h : a ≤ b) : List.range a ++ List.range' a (b - a) = List.range b := by
  rw [List.range_eq_range', List.range_eq_range']
  have := List.range'_append_1 (s := 0) (m := a) (n := b - a)
  rw [Nat.zero_add, show a + (b - a) = b by omega] at this
  exact this

theorem pairwise_range_append {l : List Nat} {a b : Nat} (h : l.Pairwise (· < ·)) (hl : ∀ x ∈ l, x < a) : (l ++ List.range' a (b - a)).Pairwise (· < ·) := by
  rw [List.pairwise_append]
  refine ⟨h, List.pairwise_lt_range', ?_⟩
  intro x hx y hy
  rw [List.mem_range'_1] at hy
  have := hl x hx; omega

/-- the space point at a position of a new segment -/
theorem seg_at {P Q : Pts} {seg : List (Nat × Nat)} (hq : PtsWF Q) (h : Q.pts = P.pts ++ seg) {k : Nat} (h1 : P.pts.length ≤ k) (h2 : k < Q.pts.length) :
    ∃ x, Q.pts[k]? = some (k, x) ∧ x ∈ seg.map Prod.snd := by
  have h3 : Q.pts[k]? = some Q.pts[k] := List.getElem?_eq_getElem h2
  have h4 : (Q.pts.map Prod.fst)[k]? = some k := by rw [hq.ids, List.getElem?_range h2]
  rw [List.getElem?_map, h3] at h4
  simp at h4
  have h6 : Q.pts[k]? = seg[k - P.pts.length]? := by rw [h, List.getElem?_append_right h1]
  refine ⟨Q.pts[k].2, by rw [h3]; exact congrArg _ (Prod.ext h4 rfl), ?_⟩
  rw [h3] at h6
  exact List.mem_map.2 ⟨_, List.mem_of_getElem? h6.symm, rfl⟩

theorem edge_source {P : Pts} (hw : PtsWF P) {l : List (Nat × Nat)} {new : List (Nat × Nat × Nat)}
    (h : new.map Prod.snd = l.filterMap (fun e => match P.map e.1, P.map e.2 with | some a, some b => some (a, b) | _, _ => none)) :
    ∀ q ∈ new, ∃ e ∈ l, P.pts[q.2.1]? = some (q.2.1, e.1) ∧ P.pts[q.2.2]? = some (q.2.2, e.2) := by
  intro q hq
  have h1 : q.2 ∈ new.map Prod.snd := List.mem_map.2 ⟨q, hq, rfl⟩
  rw [h, List.mem_filterMap] at h1
  obtain ⟨e, he, h2⟩ := h1
  refine ⟨e, he, ?_⟩
  cases ha : P.map e.1 with
  | none => simp [ha] at h2
  | some a =>
    cases hb : P.map e.2 with
    | none => simp [ha, hb] at h2
    | some b =>
      simp [ha, hb] at h2
      rw [← h2]
      exact ⟨hw.map _ _ ha, hw.map _ _ hb⟩

theorem get_src {src : List CP} {c : CP} {i : Nat} {d : CP} (h : src[i]? = some d) : (src ++ [c])[i]? = some d := getElem?_append_left' h

theorem zipIdx_snoc (src : List CP) (c : CP) : (src ++ [c]).zipIdx = src.zipIdx ++ [(c, src.length)] := by
  rw [List.zipIdx_append]; simp

theorem range_pair (n : Nat) : (List.range (n + 1)).flatMap (fun i => [(i, 2 * i), (i, 2 * i + 1)]) = (List.range n).flatMap (fun i => [(i, 2 * i), (i, 2 * i + 1)]) ++ [(n, 2 * n), (n, 2 * n + 1)] := by
  rw [List.range_succ, List.flatMap_append]; simp

theorem assn_two (n k : Nat) : assn (n + 1) k (k + 2) = [(n, k), (n, k + 1)] := by
  unfold assn
  rw [show k + 2 - k = 2 by omega]
  rfl

theorem convert_inv {o : Out} {src : List CP} (h : Inv rej o src) (par : Option Nat) (c : CP) (hc : c.daughters = []) : Inv rej (convert rej o par c).1 (src ++ [c]) := by
  rw [convert_eq]
  obtain ⟨s1, p1, w1, n1, m1, d1, k1, q1⟩ := points_step rej c.hits (o.sp, o.made) h.sp
  generalize hr1 : points rej c.hits (o.sp, o.made) = r1 at p1 w1 n1 m1 d1 k1 q1
  obtain ⟨s2, p2, w2, n2, m2, d2, k2, q2⟩ := points_step rej c.best (o.pp, r1.2) h.pp
  generalize hr2 : points rej c.best (o.pp, r1.2) = r2 at p2 w2 n2 m2 d2 k2 q2
  dsimp only at p1 p2 m1 m2 d1 d2 ⊢
  rw [hr2]
  have l1 : o.sp.pts.length ≤ r1.1.pts.length := by rw [p1]; simp
  have l2 : o.pp.pts.length ≤ r2.1.pts.length := by rw [p2]; simp
  have hlast : (src ++ [c])[o.pf.length]? = some c := by rw [h.len]; simp
  have hpcaL : o.pca.length = 2 * src.length := by rw [h.pca]; simp
  obtain ⟨new1, en1, en2, en3⟩ : ∃ new, (if c.best = [] then edges r1.1.map c.bestEdges o.edge else o.edge) = o.edge ++ new ∧
      (o.edge ++ new).map Prod.fst = List.range (o.edge ++ new).length ∧ ∀ q ∈ new, c.best = [] ∧ ∃ e ∈ c.bestEdges, r1.1.pts[q.2.1]? = some (q.2.1, e.1) ∧ r1.1.pts[q.2.2]? = some (q.2.2, e.2) := by
    by_cases hb : c.best = []
    · obtain ⟨new, x1, x2, x3⟩ := edges_spec r1.1.map c.bestEdges o.edge h.edgeI
      refine ⟨new, by rw [if_pos hb, x1], by rw [← x1]; exact x2, fun q hq => ⟨hb, edge_source w1 x3 q hq⟩⟩
    · exact ⟨[], by rw [if_neg hb]; simp, by simpa using h.edgeI, by simp⟩
  obtain ⟨new2, fn1, fn2, fn3⟩ : ∃ new, (if c.best = [] then o.pathEdge else edges r2.1.map c.bestEdges o.pathEdge) = o.pathEdge ++ new ∧
      (o.pathEdge ++ new).map Prod.fst = List.range (o.pathEdge ++ new).length ∧ ∀ q ∈ new, c.best ≠ [] ∧ ∃ e ∈ c.bestEdges, r2.1.pts[q.2.1]? = some (q.2.1, e.1) ∧ r2.1.pts[q.2.2]? = some (q.2.2, e.2) := by
    by_cases hb : c.best = []
    · exact ⟨[], by rw [if_pos hb]; simp, by simpa using h.pathI, by simp⟩
    · obtain ⟨new, x1, x2, x3⟩ := edges_spec r2.1.map c.bestEdges o.pathEdge h.pathI
      refine ⟨new, by rw [if_neg hb, x1], by rw [← x1]; exact x2, fun q hq => ⟨hb, edge_source w2 x3 q hq⟩⟩
  rw [en1, fn1]
  refine
    { len := by simp [h.len]
      pca := ?_
      pfPca := ?_
      clus := ?_
      pfClusS := ?_
      pfClusF := ?_
      sp := w1
      pp := w2
      pfSpN := ?_
      pfSpL := ?_
      pfSpH := ?_
      pfPpN := ?_
      pfPpH := ?_
      made := ?_
      best := ?_
      edgeI := en2
      pathI := fn2
      edge := ?_
      path := ?_
      pfEdge := ?_
      pfPath := ?_ }
  · rw [hpcaL]
    simp only [List.length_append, List.length_singleton, h.pca]
    rw [show 2 * (src.length + 1) = 2 * src.length + 1 + 1 by omega, List.range_succ, List.range_succ]; simp
  · simp only [List.length_append, List.length_singleton]
    rw [range_pair, h.pfPca, hpcaL, h.len, assn_two]
  · show o.clus ++ _ = _
    conv_lhs => rw [h.clus]
    simp only [List.length_append, List.length_range', List.length_range]
    have := range_append o.clus.length (o.clus.length + c.views) (by omega)
    rw [show o.clus.length + c.views - o.clus.length = c.views by omega] at this
    exact this
  · rw [List.map_append, h.pfClusS, assn_snd, show o.clus.length + c.views - o.clus.length = c.views by omega]
  · rw [List.map_append, h.pfClusF, zipIdx_snoc, List.flatMap_append]
    congr 1
    simp only [List.flatMap_cons, List.flatMap_nil, List.append_nil, hc, if_true]
    unfold assn
    rw [List.map_map, show o.clus.length + c.views - o.clus.length = c.views by omega, h.len]
    rw [List.eq_replicate_iff]
    refine ⟨by simp, ?_⟩
    intro b hb
    obtain ⟨k, -, rfl⟩ := List.mem_map.1 hb
    rfl
  · rw [List.map_append, assn_snd]
    refine pairwise_range_append h.pfSpN ?_
    intro x hx
    obtain ⟨q, hq, rfl⟩ := List.mem_map.1 hx
    exact h.pfSpL q hq
  · intro q hq
    rcases List.mem_append.1 hq with hq | hq
    · exact lt_of_lt_of_le (h.pfSpL q hq) l1
    · exact (mem_assn.1 hq).2.2
  · intro q hq
    rcases List.mem_append.1 hq with hq | hq
    · obtain ⟨d, x, y1, y2, y3, y4, y5⟩ := h.pfSpH q hq
      exact ⟨d, x, get_src y1, y2, y3, y4, by rw [p1]; exact getElem?_append_left' y5⟩
    · obtain ⟨z1, z2, z3⟩ := mem_assn.1 hq
      obtain ⟨x, x1, x2⟩ := seg_at w1 p1 z2 z3
      have := (m1 x).1 x2
      refine ⟨c, x, ?_, hc, this.1, this.2.1, x1⟩
      rw [z1]; exact hlast
  · rw [List.map_append, h.pfPpN, assn_snd]; exact range_append _ _ l2
  · intro q hq
    rcases List.mem_append.1 hq with hq | hq
    · obtain ⟨d, x, y1, y2, y3, y4, y5⟩ := h.pfPpH q hq
      exact ⟨d, x, get_src y1, y2, y3, y4, by rw [p2]; exact getElem?_append_left' y5⟩
    · obtain ⟨z1, z2, z3⟩ := mem_assn.1 hq
      obtain ⟨x, x1, x2⟩ := seg_at w2 p2 z2 z3
      have := (m2 x).1 x2
      refine ⟨c, x, ?_, hc, this.1, this.2.1, x1⟩
      rw [z1]; exact hlast
  · intro x
    rw [d2, d1, h.made, p1, p2, List.map_append, List.map_append, List.mem_append, List.mem_append]
    tauto
  · intro x hx
    rw [p2, List.map_append, List.mem_append] at hx
    rcases hx with hx | hx
    · obtain ⟨d, hd, y⟩ := h.best x hx
      exact ⟨d, by simp [hd], y⟩
    · have := (m2 x).1 hx
      exact ⟨c, by simp, hc, this.1, this.2.1⟩
  · intro q hq
    rcases List.mem_append.1 hq with hq | hq
    · obtain ⟨d, hd, e, y1, y2, y3, y4⟩ := h.edge q hq
      exact ⟨d, by simp [hd], e, y1, y2, by rw [p1]; exact getElem?_append_left' y3, by rw [p1]; exact getElem?_append_left' y4⟩
    · obtain ⟨hb, e, he, y1, y2⟩ := en3 q hq
      exact ⟨c, by simp, e, by rw [if_pos hc]; exact he, fun _ => hb, y1, y2⟩
  · intro q hq
    rcases List.mem_append.1 hq with hq | hq
    · obtain ⟨d, hd, e, y1, y2, y2', y3, y4⟩ := h.path q hq
      exact ⟨d, by simp [hd], e, y1, y2, y2', by rw [p2]; exact getElem?_append_left' y3, by rw [p2]; exact getElem?_append_left' y4⟩
    · obtain ⟨hb, e, he, y1, y2⟩ := fn3 q hq
      exact ⟨c, by simp, e, he, hc, hb, y1, y2⟩
  · rw [List.map_append, h.pfEdge, assn_snd]; exact range_append _ _ (by simp)
  · rw [List.map_append, h.pfPath, assn_snd]; exact range_append _ _ (by simp)

/-! ## The daughters -/

theorem convert_pf (o : Out) (par : Option Nat) (c : CP) : (convert rej o par c).1.pf = o.pf ++ [⟨o.pf.length, par, []⟩] ∧ (convert rej o par c).2 = o.pf.length := by
  rw [convert_eq]; exact ⟨rfl, rfl⟩

mutual
/-- storing the daughters is converting the leaves in turn -/
theorem store_leaves (parent : Nat) : ∀ (c : CP) (s : Out × List Nat), (∀ x ∈ s.2, x < s.1.pf.length) →
    store rej parent c s = ((leaves c).foldl (fun o d => (convert rej o (some parent) d).1) s.1, s.2 ++ List.range' s.1.pf.length (leaves c).length) ∧
      ((leaves c).foldl (fun o d => (convert rej o (some parent) d).1) s.1).pf.length = s.1.pf.length + (leaves c).length
  | .mk ok v h b be he [], s, hs => by
    rw [store, leaves]
    obtain ⟨h1, h2⟩ := convert_pf rej s.1 (some parent) (.mk ok v h b be he [])
    constructor
    · simp only [List.foldl_cons, List.foldl_nil, List.length_singleton]
      rw [h2, ins_top hs]; rfl
    · simp only [List.foldl_cons, List.foldl_nil, List.length_singleton]
      rw [h1]; simp
  | .mk _ _ _ _ _ _ (d :: ds), s, hs => by
    rw [store, leaves]; exact storeList_leaves parent (d :: ds) s hs
theorem storeList_leaves (parent : Nat) : ∀ (l : List CP) (s : Out × List Nat), (∀ x ∈ s.2, x < s.1.pf.length) →
    storeList rej parent l s = ((leavesList l).foldl (fun o d => (convert rej o (some parent) d).1) s.1, s.2 ++ List.range' s.1.pf.length (leavesList l).length) ∧
      ((leavesList l).foldl (fun o d => (convert rej o (some parent) d).1) s.1).pf.length = s.1.pf.length + (leavesList l).length
  | [], s, hs => by rw [storeList, leavesList]; simp
  | d :: ds, s, hs => by
    obtain ⟨h1, h2⟩ := store_leaves parent d s hs
    have hs' : ∀ x ∈ (store rej parent d s).2, x < (store rej parent d s).1.pf.length := by
      rw [h1]; dsimp only; rw [h2]
      intro x hx
      rcases List.mem_append.1 hx with hx | hx
      · have := hs x hx; omega
      · rw [List.mem_range'_1] at hx; omega
    obtain ⟨h3, h4⟩ := storeList_leaves parent ds (store rej parent d s) hs'
    rw [storeList, leavesList, List.foldl_append]
    rw [h1] at h4
    dsimp only at h4
    constructor
    · rw [h3, h1]; dsimp only; rw [h2]
      simp only [List.append_assoc, List.length_append]
      rw [List.range'_append_1]
    · rw [h4, h2, List.length_append]; omega
end

/-- the leaves converted in turn -/
def conv (parent : Nat) (ls : List CP) (o : Out) : Out := ls.foldl (fun o d => (convert rej o (some parent) d).1) o

theorem conv_pf (parent : Nat) (ls : List CP) (o : Out) : (conv rej parent ls o).pf = o.pf ++ (List.range' o.pf.length ls.length).map (fun i => ⟨i, some parent, []⟩) := by
  induction ls generalizing o with
  | nil => simp [conv]
  | cons d t ih =>
    have : conv rej parent (d :: t) o = conv rej parent t (convert rej o (some parent) d).1 := rfl
    rw [this, ih, (convert_pf rej o (some parent) d).1]
    simp [List.range'_succ]

theorem conv_inv (parent : Nat) (ls : List CP) (o : Out) (src : List CP) (h : Inv rej o src) (hl : ∀ d ∈ ls, d.daughters = []) : Inv rej (conv rej parent ls o) (src ++ ls) := by
  induction ls generalizing o src with
  | nil => simpa [conv] using h
  | cons d t ih =>
    have : conv rej parent (d :: t) o = conv rej parent t (convert rej o (some parent) d).1 := rfl
    rw [this]
    have := ih _ _ (convert_inv rej h (some parent) d (hl d (by simp))) (fun x hx => hl x (by simp [hx]))
    simpa using this

/-- the particle, axes, space points and edges of a cluster with daughters, after its leaves -/
def parentPart (c : CP) (daughters : List Nat) (o : Out) : Out :=
  let o := axes { o with pf := o.pf ++ [⟨o.pf.length, none, daughters⟩] }
  let q := points rej c.hits (o.sp, o.made)
  let o := { o with sp := q.1, made := q.2 }
  let es := edges o.sp.map c.hullEdges o.edge
  { o with edge := es, pfEdge := o.pfEdge ++ assn o.pf.length o.edge.length es.length }

theorem storeParent_eq (o : Out) (c : CP) : storeParent rej o c =
    parentPart rej c (List.range' o.pf.length (leaves c).length) (conv rej (o.pf.length + (leaves c).length) (leaves c) o) := by
  unfold storeParent parentPart
  obtain ⟨h1, h2⟩ := store_leaves rej (o.pf.length + (leaves c).length) c (o, []) (by simp)
  dsimp only at h1 h2
  rw [count_leaves]
  dsimp only
  rw [h1]
  dsimp only
  have h3 : (conv rej (o.pf.length + (leaves c).length) (leaves c) o).pf.length = o.pf.length + (leaves c).length := h2
  rw [h3]
  simp [conv]

theorem parentPart_inv {o : Out} {src : List CP} (h : Inv rej o src) (c : CP) (ds : List Nat) (hc : c.daughters ≠ []) : Inv rej (parentPart rej c ds o) (src ++ [c]) := by
  unfold parentPart axes
  obtain ⟨s1, p1, w1, n1, m1, d1, k1, q1⟩ := points_step rej c.hits (o.sp, o.made) h.sp
  generalize hr1 : points rej c.hits (o.sp, o.made) = r1 at p1 w1 n1 m1 d1 k1 q1
  dsimp only at p1 m1 d1 ⊢
  rw [hr1]
  have l1 : o.sp.pts.length ≤ r1.1.pts.length := by rw [p1]; simp
  have hlast : (src ++ [c])[o.pf.length]? = some c := by rw [h.len]; simp
  have hpcaL : o.pca.length = 2 * src.length := by rw [h.pca]; simp
  obtain ⟨new1, en1, en2, en3⟩ := edges_spec r1.1.map c.hullEdges o.edge h.edgeI
  rw [en1] at en2 ⊢
  refine
    { len := by simp [h.len]
      pca := ?_
      pfPca := ?_
      clus := h.clus
      pfClusS := h.pfClusS
      pfClusF := ?_
      sp := w1
      pp := h.pp
      pfSpN := h.pfSpN
      pfSpL := ?_
      pfSpH := ?_
      pfPpN := h.pfPpN
      pfPpH := ?_
      made := ?_
      best := ?_
      edgeI := en2
      pathI := h.pathI
      edge := ?_
      path := ?_
      pfEdge := ?_
      pfPath := h.pfPath }
  · rw [hpcaL]
    simp only [List.length_append, List.length_singleton, h.pca]
    rw [show 2 * (src.length + 1) = 2 * src.length + 1 + 1 by omega, List.range_succ, List.range_succ]; simp
  · simp only [List.length_append, List.length_singleton]
    rw [range_pair, h.pfPca, hpcaL, h.len, assn_two]
  · rw [h.pfClusF, zipIdx_snoc, List.flatMap_append]
    simp [hc]
  · intro q hq; exact lt_of_lt_of_le (h.pfSpL q hq) l1
  · intro q hq
    obtain ⟨d, x, y1, y2, y3, y4, y5⟩ := h.pfSpH q hq
    exact ⟨d, x, get_src y1, y2, y3, y4, by rw [p1]; exact getElem?_append_left' y5⟩
  · intro q hq
    obtain ⟨d, x, y1, y2, y3, y4, y5⟩ := h.pfPpH q hq
    exact ⟨d, x, get_src y1, y2, y3, y4, y5⟩
  · intro x
    rw [d1, h.made, p1, List.map_append, List.mem_append]
    tauto
  · intro x hx
    obtain ⟨d, hd, y⟩ := h.best x hx
    exact ⟨d, by simp [hd], y⟩
  · intro q hq
    rcases List.mem_append.1 hq with hq | hq
    · obtain ⟨d, hd, e, y1, y2, y3, y4⟩ := h.edge q hq
      exact ⟨d, by simp [hd], e, y1, y2, by rw [p1]; exact getElem?_append_left' y3, by rw [p1]; exact getElem?_append_left' y4⟩
    · obtain ⟨e, he, y1, y2⟩ := edge_source w1 en3 q hq
      exact ⟨c, by simp, e, by rw [if_neg hc]; exact he, fun hc' => absurd hc' hc, y1, y2⟩
  · intro q hq
    obtain ⟨d, hd, e, y1, y2, y2', y3, y4⟩ := h.path q hq
    exact ⟨d, by simp [hd], e, y1, y2, y2', y3, y4⟩
  · rw [List.map_append, h.pfEdge, assn_snd]; exact range_append _ _ (by simp)

/-- the maps are new for each cluster -/
def fresh (o : Out) : Out := { o with sp := { o.sp with map := fun _ => none }, pp := { o.pp with map := fun _ => none } }

theorem fresh_inv {o : Out} {src : List CP} (h : Inv rej o src) : Inv rej (fresh o) src := by
  obtain ⟨h1, h2, h3, h4, h5, h6, h7, h8, h9, h10, h11, h12, h13, h14, h15, h16, h17, h18, h19, h20, h21⟩ := h
  exact ⟨h1, h2, h3, h4, h5, h6, ⟨h7.ids, by intro h k hk; cases hk⟩, ⟨h8.ids, by intro h k hk; cases hk⟩, h9, h10, h11, h12, h13, h14, h15, h16, h17, h18, h19, h20, h21⟩

theorem produceOne_inv {o : Out} {src : List CP} (h : Inv rej o src) (c : CP) : Inv rej (produceOne rej o c) (src ++ family c) := by
  unfold produceOne family
  by_cases hok : c.ok = false
  · rw [if_pos hok, if_pos hok]; simpa using h
  · rw [if_neg hok, if_neg hok]
    have hf := fresh_inv rej h
    by_cases hd : c.daughters = []
    · rw [if_pos hd, if_pos hd]
      exact convert_inv rej hf none c hd
    · rw [if_neg hd, if_neg hd]
      show Inv rej (storeParent rej (fresh o) c) _
      rw [storeParent_eq, ← List.append_assoc]
      exact parentPart_inv rej (conv_inv rej _ _ _ _ hf (leaves_leaf c)) c _ hd

theorem init_inv : Inv rej {} [] := by
  refine ⟨rfl, rfl, rfl, rfl, rfl, rfl, ⟨rfl, by intro h k hk; cases hk⟩, ⟨rfl, by intro h k hk; cases hk⟩, ?_, ?_, ?_, rfl, ?_, ?_, ?_, rfl, rfl, ?_, ?_, rfl, rfl⟩ <;> simp

theorem loop_inv (cls : List CP) : ∀ {o : Out} {src : List CP}, Inv rej o src → Inv rej (cls.foldl (produceOne rej) o) (src ++ sources cls) := by
  induction cls with
  | nil => intro o src h; simpa [sources] using h
  | cons c t ih =>
    intro o src h
    have := ih (produceOne_inv rej h c)
    simpa [sources] using this

/-! ## C107: particles -/

theorem produceOne_pf (o : Out) (c : CP) : (produceOne rej o c).pf = o.pf ++
    (if c.ok = false then [] else if c.daughters = [] then [⟨o.pf.length, none, []⟩]
     else (List.range' o.pf.length (leaves c).length).map (fun i => ⟨i, some (o.pf.length + (leaves c).length), []⟩) ++
       [⟨o.pf.length + (leaves c).length, none, List.range' o.pf.length (leaves c).length⟩]) := by
  unfold produceOne
  by_cases hok : c.ok = false
  · rw [if_pos hok, if_pos hok]; simp
  · rw [if_neg hok, if_neg hok]
    by_cases hd : c.daughters = []
    · rw [if_pos hd, if_pos hd]
      exact (convert_pf rej _ none c).1
    · rw [if_neg hd, if_neg hd]
      show (storeParent rej (fresh o) c).pf = _
      rw [storeParent_eq]
      unfold parentPart axes
      dsimp only
      rw [conv_pf]
      simp [fresh]

/-- the references among particles are consistent -/
def Hierarchy (pf : List PF) : Prop := ∀ (i : Nat) (p : PF), pf[i]? = some p → p.self = i ∧ p.daughters.Pairwise (· < ·) ∧ (p.parent ≠ none → p.daughters = []) ∧
  (∀ d ∈ p.daughters, ∃ q : PF, pf[d]? = some q ∧ q.parent = some i) ∧
  (∀ j, p.parent = some j → ∃ q : PF, pf[j]? = some q ∧ q.parent = none ∧ i ∈ q.daughters)

theorem hierarchy_append {pf new : List PF} (h : Hierarchy pf)
    (hn : ∀ i p, pf.length ≤ i → (pf ++ new)[i]? = some p → p.self = i ∧ p.daughters.Pairwise (· < ·) ∧ (p.parent ≠ none → p.daughters = []) ∧
      (∀ d ∈ p.daughters, ∃ q, (pf ++ new)[d]? = some q ∧ q.parent = some i) ∧
      (∀ j, p.parent = some j → ∃ q, (pf ++ new)[j]? = some q ∧ q.parent = none ∧ i ∈ q.daughters)) : Hierarchy (pf ++ new) := by
  intro i p hp
  rcases Nat.lt_or_ge i pf.length with hi | hi
  · rw [List.getElem?_append_left hi] at hp
    obtain ⟨h1, h2, h3, h4, h5⟩ := h i p hp
    refine ⟨h1, h2, h3, ?_, ?_⟩
    · intro d hd
      obtain ⟨q, q1, q2⟩ := h4 d hd
      exact ⟨q, getElem?_append_left' q1, q2⟩
    · intro j hj
      obtain ⟨q, q1, q2⟩ := h5 j hj
      exact ⟨q, getElem?_append_left' q1, q2⟩
  · exact hn i p hi hp

theorem produceOne_hierarchy (o : Out) (c : CP) (h : Hierarchy o.pf) : Hierarchy (produceOne rej o c).pf := by
  rw [produceOne_pf]
  by_cases hok : c.ok = false
  · rw [if_pos hok]; simpa using h
  · rw [if_neg hok]
    by_cases hd : c.daughters = []
    · rw [if_pos hd]
      refine hierarchy_append h ?_
      intro i p hi hp
      have hi' : i = o.pf.length := by
        rcases Nat.lt_or_ge i (o.pf.length + 1) with h' | h'
        · omega
        · rw [List.getElem?_eq_none (by simpa using h')] at hp; cases hp
      subst hi'
      simp at hp
      subst hp
      simp
    · rw [if_neg hd]
      generalize (leaves c).length = k
      refine hierarchy_append h ?_
      intro i p hi hp
      generalize hn : o.pf.length = n at *
      have hget : ∀ j, n ≤ j → j < n + k → (o.pf ++ ((List.range' n k).map (fun i => (⟨i, some (n + k), []⟩ : PF)) ++ [⟨n + k, none, List.range' n k⟩]))[j]? = some ⟨j, some (n + k), []⟩ := by
        intro j h1 h2
        rw [List.getElem?_append_right (by omega), List.getElem?_append_left (by simp; omega), List.getElem?_map, List.getElem?_range' (by omega)]
        simp; omega
      have hlast : (o.pf ++ ((List.range' n k).map (fun i => (⟨i, some (n + k), []⟩ : PF)) ++ [⟨n + k, none, List.range' n k⟩]))[n + k]? = some ⟨n + k, none, List.range' n k⟩ := by
        rw [List.getElem?_append_right (by omega), List.getElem?_append_right (by simp; omega)]
        simp [hn]
      rcases Nat.lt_or_ge i (n + k) with h1 | h1
      · rw [hget i hi h1] at hp
        cases hp
        refine ⟨rfl, by simp, by simp, by simp, ?_⟩
        intro j hj
        cases hj
        exact ⟨_, hlast, rfl, by rw [List.mem_range'_1]; omega⟩
      · have hi' : i = n + k := by
          rcases Nat.lt_or_ge i (n + k + 1) with h' | h'
          · omega
          · rw [List.getElem?_eq_none (by simp; omega)] at hp; cases hp
        subst hi'
        rw [hlast] at hp
        cases hp
        refine ⟨rfl, List.pairwise_lt_range', by simp, ?_, by simp⟩
        intro d hd
        rw [List.mem_range'_1] at hd
        exact ⟨_, hget d hd.1 hd.2, rfl⟩

theorem loop_hierarchy (cls : List CP) : ∀ o : Out, Hierarchy o.pf → Hierarchy (cls.foldl (produceOne rej) o).pf := by
  induction cls with
  | nil => intro o h; exact h
  | cons c t ih => intro o h; exact ih _ (produceOne_hierarchy rej o c h)

theorem free_pf (all : List Nat) (o : Out) : (freePoints all o).pf = o.pf := rfl

theorem loop_primary (cls : List CP) : ∀ o : Out, ((cls.foldl (produceOne rej) o).pf.filter (fun p => p.parent.isNone)).map (fun p => p.daughters.length) =
    ((o.pf.filter (fun p => p.parent.isNone)).map (fun p => p.daughters.length)) ++ (cls.filter CP.ok).map (fun c => if c.daughters = [] then 0 else (leaves c).length) := by
  induction cls with
  | nil => intro o; simp
  | cons c t ih =>
    intro o
    rw [List.foldl_cons, ih, produceOne_pf]
    by_cases hok : c.ok = false
    · simp [hok]
    · have hok' : c.ok = true := by simpa using hok
      rw [if_neg hok, List.filter_cons, if_pos hok']
      by_cases hd : c.daughters = []
      · rw [if_pos hd]; simp [hd]
      · rw [if_neg hd]; simp [hd, List.filter_map, Function.comp_def]

/-- **C107**: the references among particles are consistent: a particle's own number is its position, its daughters name it as parent and have no daughters themselves, its parent is a primary particle that lists it.  There is one primary particle for each good cluster, in order, with as many daughters as the cluster's tree of daughters has ends (none for a cluster without daughters); the others are these ends. -/
theorem C107_particles (all : List Nat) (cls : List CP) :
    Hierarchy (produce rej all cls).pf ∧
    ((produce rej all cls).pf.filter (fun p => p.parent.isNone)).map (fun p => p.daughters.length) = (cls.filter CP.ok).map (fun c => if c.daughters = [] then 0 else (leaves c).length) ∧
    (produce rej all cls).pf.length = (sources cls).length := by
  refine ⟨loop_hierarchy rej cls {} (by intro i p hp; simp at hp), ?_, ?_⟩
  · have := loop_primary rej cls {}
    simpa [produce, freePoints] using this
  · have := (loop_inv rej cls (init_inv rej)).len
    simpa [produce, freePoints] using this

/-- **C107**: each particle has two principal axes of its own, numbered in order; the two dimensional clusters are numbered in order, each belongs to exactly one particle, which is not one with daughters, and a particle has as many as its cluster has views -/
theorem C107_axes_clusters (all : List Nat) (cls : List CP) :
    let o := produce rej all cls
    o.pca = List.range (2 * o.pf.length) ∧ o.pfPca = (List.range o.pf.length).flatMap (fun i => [(i, 2 * i), (i, 2 * i + 1)]) ∧
    o.clus = List.range o.clus.length ∧ o.pfClus.map Prod.snd = o.clus ∧
    o.pfClus.map Prod.fst = (sources cls).zipIdx.flatMap (fun p => if p.1.daughters = [] then List.replicate p.1.views p.2 else []) := by
  have h := loop_inv rej cls (init_inv rej)
  rw [List.nil_append] at h
  dsimp only
  unfold produce freePoints
  dsimp only
  rw [h.len]
  exact ⟨h.pca, h.pfPca, h.clus, h.pfClusS, h.pfClusF⟩

/-! ## Nothing is lost later -/

/-- what is stored stays, new objects come at the end -/
structure Ext (o o' : Out) : Prop where
  sp : o.sp.pts <+: o'.sp.pts
  pp : o.pp.pts <+: o'.pp.pts
  edge : o.edge <+: o'.edge
  path : o.pathEdge <+: o'.pathEdge

theorem Ext.refl (o : Out) : Ext o o := ⟨List.prefix_refl _, List.prefix_refl _, List.prefix_refl _, List.prefix_refl _⟩
theorem Ext.trans {a b c : Out} (h : Ext a b) (k : Ext b c) : Ext a c := ⟨h.sp.trans k.sp, h.pp.trans k.pp, h.edge.trans k.edge, h.path.trans k.path⟩

/-- the edges of the cluster a particle comes from -/
def edgesOf (c : CP) : List (Nat × Nat) := if c.daughters = [] then c.bestEdges else c.hullEdges

/-- what a particle's cluster contributes is there: its best hits, and its edges with known ends, as edges between path points if it has best hits -/
structure Done (o : Out) (c : CP) : Prop where
  best : c.daughters = [] → ∀ h ∈ c.best, rej h = false → h ∈ o.pp.pts.map Prod.snd
  edge : (c.daughters = [] → c.best = []) → ∀ e ∈ edgesOf c, e.1 ∈ c.hits → e.2 ∈ c.hits → rej e.1 = false → rej e.2 = false →
    ∃ q ∈ o.edge, o.sp.pts[q.2.1]? = some (q.2.1, e.1) ∧ o.sp.pts[q.2.2]? = some (q.2.2, e.2)
  path : c.daughters = [] → c.best ≠ [] → ∀ e ∈ c.bestEdges, e.1 ∈ c.best → e.2 ∈ c.best → rej e.1 = false → rej e.2 = false →
    ∃ q ∈ o.pathEdge, o.pp.pts[q.2.1]? = some (q.2.1, e.1) ∧ o.pp.pts[q.2.2]? = some (q.2.2, e.2)

theorem get_prefix {α : Type} {l m : List α} (h : l <+: m) {k : Nat} {a : α} (hk : l[k]? = some a) : m[k]? = some a := by
  obtain ⟨t, rfl⟩ := h; exact getElem?_append_left' hk

theorem Done.mono {o o' : Out} {c : CP} (h : Done rej o c) (e : Ext o o') : Done rej o' c := by
  refine ⟨?_, ?_, ?_⟩
  · intro h1 x h2 h3
    obtain ⟨q, hq, hx⟩ := List.mem_map.1 (h.best h1 x h2 h3)
    exact List.mem_map.2 ⟨q, e.pp.subset hq, hx⟩
  · intro h1 x h2 h3 h4 h5 h6
    obtain ⟨q, q1, q2, q3⟩ := h.edge h1 x h2 h3 h4 h5 h6
    exact ⟨q, e.edge.subset q1, get_prefix e.sp q2, get_prefix e.sp q3⟩
  · intro h1 h1' x h2 h3 h4 h5 h6
    obtain ⟨q, q1, q2, q3⟩ := h.path h1 h1' x h2 h3 h4 h5 h6
    exact ⟨q, e.path.subset q1, get_prefix e.pp q2, get_prefix e.pp q3⟩

/-- an edge with known ends is made -/
theorem edge_made {P : Pts} (hw : PtsWF P) {l : List (Nat × Nat)} {es new : List (Nat × Nat × Nat)}
    (h : new.map Prod.snd = l.filterMap (fun e => match P.map e.1, P.map e.2 with | some a, some b => some (a, b) | _, _ => none))
    {e : Nat × Nat} (he : e ∈ l) (h1 : (P.map e.1).isSome = true) (h2 : (P.map e.2).isSome = true) :
    ∃ q ∈ es ++ new, P.pts[q.2.1]? = some (q.2.1, e.1) ∧ P.pts[q.2.2]? = some (q.2.2, e.2) := by
  obtain ⟨a, ha⟩ := Option.isSome_iff_exists.1 h1
  obtain ⟨b, hb⟩ := Option.isSome_iff_exists.1 h2
  have : (a, b) ∈ new.map Prod.snd := by
    rw [h, List.mem_filterMap]; exact ⟨e, he, by simp [ha, hb]⟩
  obtain ⟨q, hq, hqe⟩ := List.mem_map.1 this
  refine ⟨q, List.mem_append_right _ hq, ?_⟩
  rw [hqe]
  exact ⟨hw.map _ _ ha, hw.map _ _ hb⟩

theorem convert_ext {o : Out} {src : List CP} (h : Inv rej o src) (par : Option Nat) (c : CP) (hc : c.daughters = []) :
    Ext o (convert rej o par c).1 ∧ Done rej (convert rej o par c).1 c := by
  rw [convert_eq]
  obtain ⟨s1, p1, w1, n1, m1, d1, k1, q1⟩ := points_step rej c.hits (o.sp, o.made) h.sp
  generalize hr1 : points rej c.hits (o.sp, o.made) = r1 at p1 w1 n1 m1 d1 k1 q1
  obtain ⟨s2, p2, w2, n2, m2, d2, k2, q2⟩ := points_step rej c.best (o.pp, r1.2) h.pp
  generalize hr2 : points rej c.best (o.pp, r1.2) = r2 at p2 w2 n2 m2 d2 k2 q2
  dsimp only at p1 p2 m1 m2 d1 d2 q1 q2 ⊢
  rw [hr2]
  obtain ⟨new1, en1, -, en3⟩ := edges_spec r1.1.map c.bestEdges o.edge h.edgeI
  obtain ⟨new2, fn1, -, fn3⟩ := edges_spec r2.1.map c.bestEdges o.pathEdge h.pathI
  constructor
  · refine ⟨?_, ?_, ?_, ?_⟩
    · dsimp only; rw [p1]; exact List.prefix_append _ _
    · dsimp only; rw [p2]; exact List.prefix_append _ _
    · dsimp only; split
      · rw [en1]; exact List.prefix_append _ _
      · exact List.prefix_refl _
    · dsimp only; split
      · exact List.prefix_refl _
      · rw [fn1]; exact List.prefix_append _ _
  · refine ⟨?_, ?_, ?_⟩
    · intro _ x hx hr
      have := (q2 x).2 (Or.inr ⟨hx, hr⟩)
      obtain ⟨k, hk⟩ := Option.isSome_iff_exists.1 this
      exact List.mem_map.2 ⟨_, List.mem_of_getElem? (w2.map x k hk), rfl⟩
    · intro hb e he h1 h2 h3 h4
      dsimp only
      rw [if_pos (hb hc), en1]
      unfold edgesOf at he
      rw [if_pos hc] at he
      exact edge_made w1 en3 he ((q1 _).2 (Or.inr ⟨h1, h3⟩)) ((q1 _).2 (Or.inr ⟨h2, h4⟩))
    · intro _ hb e he h1 h2 h3 h4
      dsimp only
      rw [if_neg hb, fn1]
      exact edge_made w2 fn3 he ((q2 _).2 (Or.inr ⟨h1, h3⟩)) ((q2 _).2 (Or.inr ⟨h2, h4⟩))

theorem parentPart_ext {o : Out} {src : List CP} (h : Inv rej o src) (c : CP) (ds : List Nat) (hc : c.daughters ≠ []) :
    Ext o (parentPart rej c ds o) ∧ Done rej (parentPart rej c ds o) c := by
  unfold parentPart axes
  obtain ⟨s1, p1, w1, n1, m1, d1, k1, q1⟩ := points_step rej c.hits (o.sp, o.made) h.sp
  generalize hr1 : points rej c.hits (o.sp, o.made) = r1 at p1 w1 n1 m1 d1 k1 q1
  dsimp only at p1 m1 d1 q1 ⊢
  rw [hr1]
  obtain ⟨new1, en1, -, en3⟩ := edges_spec r1.1.map c.hullEdges o.edge h.edgeI
  constructor
  · refine ⟨?_, List.prefix_refl _, ?_, List.prefix_refl _⟩
    · dsimp only; rw [p1]; exact List.prefix_append _ _
    · dsimp only; rw [en1]; exact List.prefix_append _ _
  · refine ⟨fun hc' => absurd hc' hc, ?_, fun hc' => absurd hc' hc⟩
    intro hb e he h1 h2 h3 h4
    dsimp only
    rw [en1]
    unfold edgesOf at he
    rw [if_neg hc] at he
    exact edge_made w1 en3 he ((q1 _).2 (Or.inr ⟨h1, h3⟩)) ((q1 _).2 (Or.inr ⟨h2, h4⟩))

theorem conv_ext (parent : Nat) (ls : List CP) : ∀ {o : Out} {src : List CP}, Inv rej o src → (∀ d ∈ ls, d.daughters = []) →
    Ext o (conv rej parent ls o) ∧ ∀ d ∈ ls, Done rej (conv rej parent ls o) d := by
  induction ls with
  | nil => intro o src _ _; exact ⟨Ext.refl o, by simp⟩
  | cons d t ih =>
    intro o src h hl
    have hr : conv rej parent (d :: t) o = conv rej parent t (convert rej o (some parent) d).1 := rfl
    rw [hr]
    obtain ⟨a1, a2⟩ := convert_ext rej h (some parent) d (hl d (by simp))
    obtain ⟨b1, b2⟩ := ih (convert_inv rej h (some parent) d (hl d (by simp))) (fun x hx => hl x (by simp [hx]))
    refine ⟨a1.trans b1, ?_⟩
    intro x hx
    rcases List.mem_cons.1 hx with rfl | hx
    · exact a2.mono rej b1
    · exact b2 x hx

theorem produceOne_ext {o : Out} {src : List CP} (h : Inv rej o src) (c : CP) : Ext o (produceOne rej o c) ∧ ∀ d ∈ family c, Done rej (produceOne rej o c) d := by
  unfold produceOne family
  by_cases hok : c.ok = false
  · rw [if_pos hok, if_pos hok]; exact ⟨Ext.refl o, by simp⟩
  · rw [if_neg hok, if_neg hok]
    have hf := fresh_inv rej h
    have he : Ext o (fresh o) := ⟨List.prefix_refl _, List.prefix_refl _, List.prefix_refl _, List.prefix_refl _⟩
    by_cases hd : c.daughters = []
    · rw [if_pos hd, if_pos hd]
      obtain ⟨a1, a2⟩ := convert_ext rej hf none c hd
      exact ⟨he.trans a1, by intro d hd'; simp at hd'; subst hd'; exact a2⟩
    · rw [if_neg hd, if_neg hd]
      show Ext o (storeParent rej (fresh o) c) ∧ ∀ d ∈ _, Done rej (storeParent rej (fresh o) c) d
      rw [storeParent_eq]
      obtain ⟨a1, a2⟩ := conv_ext rej ((fresh o).pf.length + (leaves c).length) (leaves c) hf (leaves_leaf c)
      obtain ⟨b1, b2⟩ := parentPart_ext rej (conv_inv rej ((fresh o).pf.length + (leaves c).length) _ _ _ hf (leaves_leaf c)) c (List.range' (fresh o).pf.length (leaves c).length) hd
      refine ⟨he.trans (a1.trans b1), ?_⟩
      intro d hd'
      rcases List.mem_append.1 hd' with hd' | hd'
      · exact (a2 d hd').mono rej b1
      · simp at hd'; subst hd'; exact b2

theorem loop_done (cls : List CP) : ∀ {o : Out} {src : List CP}, Inv rej o src → (∀ d ∈ src, Done rej o d) →
    ∀ d ∈ src ++ sources cls, Done rej (cls.foldl (produceOne rej) o) d := by
  induction cls with
  | nil => intro o src _ hs; simpa [sources] using hs
  | cons c t ih =>
    intro o src h hs
    obtain ⟨a1, a2⟩ := produceOne_ext rej h c
    have := ih (produceOne_inv rej h c) (by
      intro d hd
      rcases List.mem_append.1 hd with hd | hd
      · exact (hs d hd).mono rej a1
      · exact a2 d hd)
    simpa [sources] using this

/-! ## C108: space points -/

/-- the space points made since the start of the cluster -/
structure Loc (P0 : List (Nat × Nat)) (A0 : List Nat) (o : Out) (hs : Nat → Prop) (assoc : Bool) : Prop where
  seg : ∃ seg, o.sp.pts = P0 ++ seg ∧ (seg.map Prod.snd).Nodup ∧ (∀ h, h ∈ seg.map Prod.snd ↔ hs h ∧ rej h = false) ∧
    (assoc = true → o.pfSp.map Prod.snd = A0 ++ List.range' P0.length seg.length)
  map : ∀ h, (o.sp.map h).isSome = true ↔ hs h ∧ rej h = false
  wf : PtsWF o.sp

theorem loc_points {P0 : List (Nat × Nat)} {A0 : List Nat} {o : Out} {hs : Nat → Prop} (h : Loc rej P0 A0 o hs true) (l : List Nat) (o' : Out)
    (h1 : o'.sp = (points rej l (o.sp, o.made)).1) (as : Bool) (n : Nat) (h2 : as = true → o'.pfSp = o.pfSp ++ assn n o.sp.pts.length o'.sp.pts.length) :
    Loc rej P0 A0 o' (fun x => hs x ∨ x ∈ l) as := by
  obtain ⟨⟨seg, e1, e2, e3, e4⟩, hm, hw⟩ := h
  obtain ⟨s1, p1, w1, n1, m1, d1, k1, q1⟩ := points_step rej l (o.sp, o.made) hw
  dsimp only at p1 m1
  refine ⟨⟨seg ++ s1, ?_, ?_, ?_, ?_⟩, ?_, by rw [h1]; exact w1⟩
  · rw [h1, p1, e1, List.append_assoc]
  · rw [List.map_append, List.nodup_append]
    refine ⟨e2, n1, ?_⟩
    intro a ha b hb hab
    subst hab
    have := ((m1 a).1 hb).2.2
    have h3 := (hm a).2 ((e3 a).1 ha)
    rw [this] at h3; simp at h3
  · intro x
    rw [List.map_append, List.mem_append, e3, m1]
    have := hm x
    constructor
    · rintro (y | y)
      · exact ⟨Or.inl y.1, y.2⟩
      · exact ⟨Or.inr y.1, y.2.1⟩
    · rintro ⟨y1 | y1, y2⟩
      · exact Or.inl ⟨y1, y2⟩
      · by_cases y3 : (o.sp.map x).isSome = true
        · exact Or.inl (this.1 y3)
        · exact Or.inr ⟨y1, y2, by simpa using y3⟩
  · intro ha
    rw [h2 ha, List.map_append, e4 rfl, assn_snd, h1, p1, e1, List.append_assoc]
    congr 1
    simp only [List.length_append]
    rw [← List.range'_append_1]
    congr 2; omega
  · intro x
    rw [h1, q1]
    dsimp only
    rw [hm]; tauto

theorem loc_convert {P0 : List (Nat × Nat)} {A0 : List Nat} {o : Out} {hs : Nat → Prop} (h : Loc rej P0 A0 o hs true) (par : Option Nat) (c : CP) :
    Loc rej P0 A0 (convert rej o par c).1 (fun x => hs x ∨ x ∈ c.hits) true := by
  refine loc_points rej h c.hits _ ?_ true (o.pf.length + 1) ?_
  · rw [convert_eq]
  · intro _; rw [convert_eq]

theorem loc_congr {P0 : List (Nat × Nat)} {A0 : List Nat} {o : Out} {hs hs' : Nat → Prop} {b : Bool} (h : Loc rej P0 A0 o hs b) (e : ∀ x, hs x ↔ hs' x) : Loc rej P0 A0 o hs' b := by
  have : hs = hs' := funext fun x => propext (e x)
  subst this; exact h

theorem loc_conv (parent : Nat) (ls : List CP) : ∀ {P0 : List (Nat × Nat)} {A0 : List Nat} {o : Out} {hs : Nat → Prop}, Loc rej P0 A0 o hs true →
    Loc rej P0 A0 (conv rej parent ls o) (fun x => hs x ∨ ∃ d ∈ ls, x ∈ d.hits) true := by
  induction ls with
  | nil => intro P0 A0 o hs h; exact loc_congr rej h (by simp)
  | cons d t ih =>
    intro P0 A0 o hs h
    exact loc_congr rej (ih (loc_convert rej h (some parent) d)) (by intro x; simp [or_assoc])

theorem loc_fresh (o : Out) (h : PtsWF o.sp) : Loc rej o.sp.pts (o.pfSp.map Prod.snd) (fresh o) (fun _ => False) true :=
  ⟨⟨[], by simp [fresh], by simp, by simp, by simp [fresh]⟩, by simp [fresh], ⟨h.ids, by intro h k hk; cases hk⟩⟩

/-- a hit of a leaf of the cluster (of the cluster itself if it has no daughters) -/
def InLeaf (c : CP) (h : Nat) : Prop := c.ok = true ∧ ∃ d ∈ family c, d.daughters = [] ∧ h ∈ d.hits

/-- a hit of the cluster or of one of its leaves -/
def InFamily (c : CP) (h : Nat) : Prop := c.ok = true ∧ ∃ d ∈ family c, h ∈ d.hits

theorem one_points (o : Out) (c : CP) (h : PtsWF o.sp) : ∃ s1 s2, (produceOne rej o c).sp.pts = o.sp.pts ++ (s1 ++ s2) ∧ ((s1 ++ s2).map Prod.snd).Nodup ∧
    (∀ x, x ∈ (s1 ++ s2).map Prod.snd ↔ InFamily c x ∧ rej x = false) ∧ (∀ x, x ∈ s1.map Prod.snd ↔ InLeaf c x ∧ rej x = false) ∧
    (produceOne rej o c).pfSp.map Prod.snd = o.pfSp.map Prod.snd ++ List.range' o.sp.pts.length s1.length := by
  unfold produceOne
  by_cases hok : c.ok = false
  · rw [if_pos hok]
    exact ⟨[], [], by simp, by simp, by simp [InFamily, hok], by simp [InLeaf, hok], by simp⟩
  · rw [if_neg hok]
    have hok' : c.ok = true := by simpa using hok
    have hl := loc_fresh rej o h
    by_cases hd : c.daughters = []
    · rw [if_pos hd]
      obtain ⟨⟨seg, e1, e2, e3, e4⟩, -, -⟩ := loc_convert rej hl none c
      refine ⟨seg, [], by rw [List.append_nil]; exact e1, by simpa using e2, ?_, ?_, e4 rfl⟩
      · intro x
        have : InFamily c x ↔ x ∈ c.hits := by unfold InFamily family; simp [hok', hd]
        rw [List.append_nil, e3, this]; simp
      · intro x
        have : InLeaf c x ↔ x ∈ c.hits := by unfold InLeaf family; simp [hok', hd]
        rw [e3, this]; simp
    · rw [if_neg hd]
      have hl1 := loc_conv rej ((fresh o).pf.length + (leaves c).length) (leaves c) hl
      obtain ⟨⟨seg, e1, e2, e3, e4⟩, hm, hw⟩ := id hl1
      have hpp : ∃ s2, (storeParent rej (fresh o) c).sp.pts = (conv rej ((fresh o).pf.length + (leaves c).length) (leaves c) (fresh o)).sp.pts ++ s2 ∧
          (storeParent rej (fresh o) c).pfSp = (conv rej ((fresh o).pf.length + (leaves c).length) (leaves c) (fresh o)).pfSp ∧
          (s2.map Prod.snd).Nodup ∧ ∀ x, x ∈ s2.map Prod.snd ↔ x ∈ c.hits ∧ rej x = false ∧ (conv rej ((fresh o).pf.length + (leaves c).length) (leaves c) (fresh o)).sp.map x = none := by
        rw [storeParent_eq]
        generalize conv rej ((fresh o).pf.length + (leaves c).length) (leaves c) (fresh o) = o1 at hw
        obtain ⟨s2, p1, -, n1, m1, -, -, -⟩ := points_step rej c.hits (o1.sp, o1.made) hw
        exact ⟨s2, p1, rfl, n1, m1⟩
      obtain ⟨s2, f1, f2, f3, f4⟩ := hpp
      have f1' : (storeParent rej (fresh o) c).sp.pts = o.sp.pts ++ (seg ++ s2) := by rw [f1, e1, List.append_assoc]
      have hleaf : ∀ x, InLeaf c x ↔ ∃ d ∈ leaves c, x ∈ d.hits := by
        intro x
        unfold InLeaf family
        simp only [hok', hd, if_false, Bool.true_eq_false]
        constructor
        · rintro ⟨-, d, h1, h2, h3⟩
          rcases List.mem_append.1 h1 with h1 | h1
          · exact ⟨d, h1, h3⟩
          · simp at h1; subst h1; exact absurd h2 hd
        · rintro ⟨d, h1, h2⟩
          exact ⟨trivial, d, by simp [h1], leaves_leaf c d h1, h2⟩
      have hfam : ∀ x, InFamily c x ↔ InLeaf c x ∨ x ∈ c.hits := by
        intro x
        rw [hleaf]
        unfold InFamily family
        simp only [hok', hd, if_false, Bool.true_eq_false]
        constructor
        · rintro ⟨-, d, h1, h2⟩
          rcases List.mem_append.1 h1 with h1 | h1
          · exact Or.inl ⟨d, h1, h2⟩
          · simp at h1; subst h1; exact Or.inr h2
        · rintro (⟨d, h1, h2⟩ | h2)
          · exact ⟨trivial, d, by simp [h1], h2⟩
          · exact ⟨trivial, c, by simp, h2⟩
      refine ⟨seg, s2, f1', ?_, ?_, ?_, ?_⟩
      · rw [List.map_append, List.nodup_append]
        refine ⟨e2, f3, ?_⟩
        intro a ha b hb hab
        subst hab
        have h1 := ((f4 a).1 hb).2.2
        have h2 := (hm a).2 ((e3 a).1 ha)
        rw [h1] at h2; simp at h2
      · intro x
        rw [List.map_append, List.mem_append, e3, f4, hfam, hleaf]
        have := hm x
        simp only [false_or] at this ⊢
        constructor
        · rintro (y | y)
          · exact ⟨Or.inl y.1, y.2⟩
          · exact ⟨Or.inr y.1, y.2.1⟩
        · rintro ⟨y1 | y1, y2⟩
          · exact Or.inl ⟨y1, y2⟩
          · by_cases y3 : ((conv rej ((fresh o).pf.length + (leaves c).length) (leaves c) (fresh o)).sp.map x).isSome = true
            · exact Or.inl (this.1 y3)
            · exact Or.inr ⟨y1, y2, by simpa using y3⟩
      · intro x; rw [e3, hleaf]; simp
      · show (storeParent rej (fresh o) c).pfSp.map Prod.snd = _
        rw [f2]; exact e4 rfl

open Classical in
theorem loop_points (cls : List CP) : ∀ (o : Out) (src : List CP), Inv rej o src → ∀ h,
    ((cls.foldl (produceOne rej) o).sp.pts.map Prod.snd).count h = (o.sp.pts.map Prod.snd).count h + cls.countP (fun c => decide (InFamily c h ∧ rej h = false)) ∧
    (((cls.foldl (produceOne rej) o).pfSp.map (fun q => ((cls.foldl (produceOne rej) o).sp.pts[q.2]?).map Prod.snd)).count (some h)
      = (o.pfSp.map (fun q => (o.sp.pts[q.2]?).map Prod.snd)).count (some h) + cls.countP (fun c => decide (InLeaf c h ∧ rej h = false))) := by
  induction cls with
  | nil => intro o src _ h; simp
  | cons c t ih =>
    intro o src hinv h
    have hinv' := produceOne_inv rej hinv c
    obtain ⟨i1, i2⟩ := ih _ _ hinv' h
    rw [List.foldl_cons, i1, i2, List.countP_cons, List.countP_cons]
    obtain ⟨s1, s2, e1, e2, e3, e4, e5⟩ := one_points rej o c hinv.sp
    constructor
    · rw [e1, List.map_append, List.count_append]
      have : (List.map Prod.snd (s1 ++ s2)).count h = if decide (InFamily c h ∧ rej h = false) = true then 1 else 0 := by
        rw [e2.count]
        by_cases hh : InFamily c h ∧ rej h = false
        · rw [if_pos ((e3 h).2 hh), if_pos (by simpa using hh)]
        · rw [if_neg (fun hx => hh ((e3 h).1 hx)), if_neg (by simpa using hh)]
      rw [this]; omega
    · have hA : ((produceOne rej o c).pfSp.map (fun q => ((produceOne rej o c).sp.pts[q.2]?).map Prod.snd)) =
          (o.pfSp.map (fun q => (o.sp.pts[q.2]?).map Prod.snd)) ++ (s1.map Prod.snd).map some := by
        have h1 : ∀ (l : List (Nat × Nat)) (f : Nat → Option Nat), l.map (fun q => f q.2) = (l.map Prod.snd).map f := by intro l f; simp
        rw [h1 _ (fun k => ((produceOne rej o c).sp.pts[k]?).map Prod.snd), h1 _ (fun k => (o.sp.pts[k]?).map Prod.snd), e5, List.map_append]
        congr 1
        · apply List.map_congr_left
          intro k hk
          obtain ⟨q, hq, rfl⟩ := List.mem_map.1 hk
          rw [e1, List.getElem?_append_left (hinv.pfSpL q hq)]
        · apply List.ext_getElem?
          intro j
          rw [List.getElem?_map, List.getElem?_map, List.getElem?_map]
          rcases Nat.lt_or_ge j s1.length with hj | hj
          · rw [List.getElem?_range' hj]
            simp only [Option.map_some, Nat.one_mul]
            rw [e1, List.getElem?_append_right (by omega), Nat.add_sub_cancel_left, List.getElem?_append_left hj, List.getElem?_eq_getElem hj]
            rfl
          · rw [List.getElem?_eq_none (by simpa using hj), List.getElem?_eq_none hj]
            rfl
      rw [hA, List.count_append]
      have : ((s1.map Prod.snd).map some).count (some h) = if decide (InLeaf c h ∧ rej h = false) = true then 1 else 0 := by
        have hnd : ((s1.map Prod.snd).map some).Nodup := by
          rw [List.map_append, List.nodup_append] at e2
          exact e2.1.map (Option.some_injective _)
        rw [hnd.count]
        by_cases hh : InLeaf c h ∧ rej h = false
        · rw [if_pos (List.mem_map.2 ⟨h, (e4 h).2 hh, rfl⟩), if_pos (by simpa using hh)]
        · rw [if_neg, if_neg (by simpa using hh)]
          intro hx
          obtain ⟨y, hy, hxy⟩ := List.mem_map.1 hx
          cases hxy
          exact hh ((e4 h).1 hy)
      rw [this]; omega

theorem free_points (f : Nat → Bool) (all : List Nat) (p : List (Nat × Nat)) (hp : p.map Prod.fst = List.range p.length) :
    let r := all.foldl (fun p h => if f h = true then p else p ++ [(p.length, h)]) p
    r.map Prod.fst = List.range r.length ∧ ∃ q, r = p ++ q ∧ q.map Prod.snd = all.filter (fun h => !f h) := by
  induction all generalizing p with
  | nil => exact ⟨hp, [], by simp, by simp⟩
  | cons a t ih =>
    by_cases h : f a = true
    · simp only [List.foldl_cons, h, if_true]
      obtain ⟨h1, q, h2, h3⟩ := ih p hp
      exact ⟨h1, q, h2, by simp [h3, h]⟩
    · simp only [List.foldl_cons, h]
      obtain ⟨h1, q, h2, h3⟩ := ih (p ++ [(p.length, a)]) (by simp [hp, List.range_succ])
      refine ⟨h1, (p.length, a) :: q, ?_, ?_⟩
      · simpa using h2
      · simp [h3, h]

open Classical in
/-- **C108**: space points are numbered in order; a hit has one space point for each good cluster that it belongs to, itself or through a leaf, if it is not rejected; and if neither this nor the best hits of a leaf gave it one, one for each time it is in the list of all hits -/
theorem C108_space_points (all : List Nat) (cls : List CP) :
    let o := produce rej all cls
    o.sp.pts.map Prod.fst = List.range o.sp.pts.length ∧
    ∀ h, (o.sp.pts.map Prod.snd).count h = cls.countP (fun c => decide (InFamily c h ∧ rej h = false)) +
      if (rej h = false ∧ ((∃ c ∈ cls, InFamily c h) ∨ ∃ d ∈ sources cls, d.daughters = [] ∧ h ∈ d.best)) then 0 else all.count h := by
  have hi := loop_inv rej cls (init_inv rej)
  rw [List.nil_append] at hi
  have hc := fun h => (loop_points rej cls {} [] (init_inv rej) h).1
  dsimp only
  unfold produce freePoints
  dsimp only
  have hdone := loop_done rej cls (init_inv rej) (by simp)
  rw [List.nil_append] at hdone
  generalize hO : cls.foldl (produceOne rej) {} = o at *
  obtain ⟨h1, q, h2, h3⟩ := free_points o.made all o.sp.pts hi.sp.ids
  refine ⟨h1, ?_⟩
  intro h
  rw [h2, List.map_append, List.count_append, hc, h3]
  have hm : o.made h = true ↔ (rej h = false ∧ ((∃ c ∈ cls, InFamily c h) ∨ ∃ d ∈ sources cls, d.daughters = [] ∧ h ∈ d.best)) := by
    rw [hi.made]
    have hsp : h ∈ o.sp.pts.map Prod.snd ↔ rej h = false ∧ ∃ c ∈ cls, InFamily c h := by
      rw [← List.count_pos_iff, hc]
      simp only [List.map_nil, List.count_nil, Nat.zero_add, List.countP_pos_iff, decide_eq_true_eq]
      constructor
      · rintro ⟨c, a1, a2, a3⟩; exact ⟨a3, c, a1, a2⟩
      · rintro ⟨a3, c, a1, a2⟩; exact ⟨c, a1, a2, a3⟩
    have hbest : ∀ d ∈ sources cls, d.daughters = [] → h ∈ d.best → rej h = false → h ∈ o.pp.pts.map Prod.snd ∨ h ∈ o.sp.pts.map Prod.snd :=
      fun d d1 d2 d3 d4 => Or.inl ((hdone d d1).best d2 h d3 d4)
    constructor
    · rintro (x | x)
      · exact ⟨(hsp.1 x).1, Or.inl (hsp.1 x).2⟩
      · obtain ⟨d, d1, d2, d3, d4⟩ := hi.best h x
        exact ⟨d4, Or.inr ⟨d, d1, d2, d3⟩⟩
    · rintro ⟨x, y | ⟨d, d1, d2, d3⟩⟩
      · exact Or.inl (hsp.2 ⟨x, y⟩)
      · exact (hbest d d1 d2 d3 x).symm
  by_cases hx : o.made h = true
  · rw [if_pos (hm.1 hx)]
    have : (all.filter (fun h => !o.made h)).count h = 0 := by
      rw [List.count_eq_zero]; intro hh; have := (List.mem_filter.1 hh).2; simp [hx] at this
    rw [this]; simp
  · rw [if_neg (fun hh => hx (hm.2 hh)), List.count_filter (by simpa using hx)]; simp

open Classical in
/-- **C108**: if the best hits of a leaf are among its hits, no hit is rejected, no hit is listed twice and clusters share no hits, then every hit has exactly one space point -/
theorem C108_once (all : List Nat) (cls : List CP) (hall : all.Nodup) (hrej : ∀ h, rej h = false) (hb : ∀ d ∈ sources cls, d.daughters = [] → ∀ h ∈ d.best, h ∈ d.hits)
    (hdis : cls.Pairwise (fun a b => ∀ h, ¬ (InFamily a h ∧ InFamily b h))) :
    ∀ h ∈ all, ((produce rej all cls).sp.pts.map Prod.snd).count h = 1 := by
  intro h hh
  rw [(C108_space_points rej all cls).2 h]
  have hle : ∀ l : List CP, l.Pairwise (fun a b => ∀ h, ¬ (InFamily a h ∧ InFamily b h)) → l.countP (fun c => decide (InFamily c h ∧ rej h = false)) = if ∃ c ∈ l, InFamily c h then 1 else 0 := by
    intro l hl
    induction l with
    | nil => simp
    | cons a t ih =>
      rw [List.pairwise_cons] at hl
      rw [List.countP_cons, ih hl.2]
      by_cases ha : InFamily a h
      · have hn : ¬ ∃ c ∈ t, InFamily c h := by
          rintro ⟨c, hc, hch⟩; exact hl.1 c hc h ⟨ha, hch⟩
        rw [if_neg hn, if_pos (by simp [ha, hrej]), if_pos ⟨a, by simp, ha⟩]
      · have hdf : ¬ (decide (InFamily a h ∧ rej h = false) = true) := by simp [ha]
        rw [if_neg hdf]
        by_cases hn : ∃ c ∈ t, InFamily c h
        · obtain ⟨c, hc, hch⟩ := hn
          rw [if_pos ⟨c, hc, hch⟩, if_pos ⟨c, by simp [hc], hch⟩]
        · rw [if_neg hn, if_neg]
          rintro ⟨c, hc, hch⟩
          rcases List.mem_cons.1 hc with rfl | hc
          · exact ha hch
          · exact hn ⟨c, hc, hch⟩
  rw [hle cls hdis]
  by_cases hc : ∃ c ∈ cls, InFamily c h
  · rw [if_pos hc, if_pos ⟨hrej h, Or.inl hc⟩]
  · rw [if_neg hc, if_neg]
    · rw [hall.count, if_pos hh]
    · rintro ⟨-, h1 | ⟨d, d1, d2, d3⟩⟩
      · exact hc h1
      · unfold sources at d1
        obtain ⟨c, hc1, hc2⟩ := List.mem_flatMap.1 d1
        refine hc ⟨c, hc1, ?_, d, hc2, hb d (by unfold sources; exact d1) d2 h d3⟩
        by_contra hok
        unfold family at hc2
        rw [if_pos (by simpa using hok)] at hc2
        simp at hc2

open Classical in
/-- **C108**: a space point belongs to at most one particle, and that one comes from a cluster without daughters that has the hit.  A hit has one space point with a particle for each good cluster with a leaf that has it; hits that only the cluster with daughters itself has, and hits outside of clusters, belong to no particle. -/
theorem C108_association (all : List Nat) (cls : List CP) :
    let o := produce rej all cls
    (o.pfSp.map Prod.snd).Nodup ∧
    (∀ q ∈ o.pfSp, ∃ c h, (sources cls)[q.1]? = some c ∧ c.daughters = [] ∧ h ∈ c.hits ∧ rej h = false ∧ o.sp.pts[q.2]? = some (q.2, h)) ∧
    (∀ h, (o.pfSp.map (fun q => (o.sp.pts[q.2]?).map Prod.snd)).count (some h) = cls.countP (fun c => decide (InLeaf c h ∧ rej h = false))) := by
  have hi := loop_inv rej cls (init_inv rej)
  rw [List.nil_append] at hi
  have hc := fun h => (loop_points rej cls {} [] (init_inv rej) h).2
  dsimp only
  unfold produce freePoints
  dsimp only
  generalize cls.foldl (produceOne rej) {} = o at *
  obtain ⟨h1, q, h2, h3⟩ := free_points o.made all o.sp.pts hi.sp.ids
  rw [h2]
  refine ⟨hi.pfSpN.imp (fun h => Nat.ne_of_lt h), ?_, ?_⟩
  · intro q' hq
    obtain ⟨c, h, a1, a2, a3, a4, a5⟩ := hi.pfSpH q' hq
    exact ⟨c, h, a1, a2, a3, a4, getElem?_append_left' a5⟩
  · intro h
    have : o.pfSp.map (fun q' => ((o.sp.pts ++ q)[q'.2]?).map Prod.snd) = o.pfSp.map (fun q' => (o.sp.pts[q'.2]?).map Prod.snd) := by
      apply List.map_congr_left
      intro q' hq
      rw [List.getElem?_append_left (hi.pfSpL q' hq)]
    rw [this, hc]; simp

/-- **C108**: path points are numbered in order and each belongs to exactly one particle, of a cluster that has the hit among its best hits; all best hits that are not rejected have one -/
theorem C108_path_points (all : List Nat) (cls : List CP) :
    let o := produce rej all cls
    o.pp.pts.map Prod.fst = List.range o.pp.pts.length ∧ o.pfPp.map Prod.snd = List.range o.pp.pts.length ∧
    (∀ q ∈ o.pfPp, ∃ c h, (sources cls)[q.1]? = some c ∧ c.daughters = [] ∧ h ∈ c.best ∧ rej h = false ∧ o.pp.pts[q.2]? = some (q.2, h)) ∧
    (∀ c ∈ sources cls, c.daughters = [] → ∀ h ∈ c.best, rej h = false → h ∈ o.pp.pts.map Prod.snd) := by
  have hi := loop_inv rej cls (init_inv rej)
  have hdone := loop_done rej cls (init_inv rej) (by simp)
  rw [List.nil_append] at hi hdone
  exact ⟨hi.pp.ids, hi.pfPpN, hi.pfPpH, fun c hc h1 => (hdone c hc).best h1⟩

/-- **C109**: edges are numbered in order, each belongs to exactly one particle, and joins the space points of the two hits of an edge of a cluster; every edge between hits of its cluster that are not rejected is there -/
theorem C109_edges (all : List Nat) (cls : List CP) :
    let o := produce rej all cls
    o.edge.map Prod.fst = List.range o.edge.length ∧ o.pfEdge.map Prod.snd = List.range o.edge.length ∧
    (∀ q ∈ o.edge, ∃ c ∈ sources cls, (c.daughters = [] → c.best = []) ∧ ∃ e ∈ edgesOf c, o.sp.pts[q.2.1]? = some (q.2.1, e.1) ∧ o.sp.pts[q.2.2]? = some (q.2.2, e.2)) ∧
    (∀ c ∈ sources cls, (c.daughters = [] → c.best = []) → ∀ e ∈ edgesOf c, e.1 ∈ c.hits → e.2 ∈ c.hits → rej e.1 = false → rej e.2 = false →
      ∃ q ∈ o.edge, o.sp.pts[q.2.1]? = some (q.2.1, e.1) ∧ o.sp.pts[q.2.2]? = some (q.2.2, e.2)) := by
  have hi := loop_inv rej cls (init_inv rej)
  have hdone := loop_done rej cls (init_inv rej) (by simp)
  rw [List.nil_append] at hi hdone
  dsimp only
  unfold produce freePoints
  dsimp only
  generalize cls.foldl (produceOne rej) {} = o at *
  obtain ⟨h1, q, h2, h3⟩ := free_points o.made all o.sp.pts hi.sp.ids
  rw [h2]
  refine ⟨hi.edgeI, hi.pfEdge, ?_, ?_⟩
  · intro q' hq
    obtain ⟨c, hc, e, e1, e2, e3, e4⟩ := hi.edge q' hq
    exact ⟨c, hc, e2, e, e1, getElem?_append_left' e3, getElem?_append_left' e4⟩
  · intro c hc hb e he x1 x2 x3 x4
    obtain ⟨q', e1, e2, e3⟩ := (hdone c hc).edge hb e he x1 x2 x3 x4
    exact ⟨q', e1, getElem?_append_left' e2, getElem?_append_left' e3⟩

/-- **C109**: the same for edges between path points -/
theorem C109_path_edges (all : List Nat) (cls : List CP) :
    let o := produce rej all cls
    o.pathEdge.map Prod.fst = List.range o.pathEdge.length ∧ o.pfPathEdge.map Prod.snd = List.range o.pathEdge.length ∧
    (∀ q ∈ o.pathEdge, ∃ c ∈ sources cls, c.daughters = [] ∧ c.best ≠ [] ∧ ∃ e ∈ c.bestEdges, o.pp.pts[q.2.1]? = some (q.2.1, e.1) ∧ o.pp.pts[q.2.2]? = some (q.2.2, e.2)) ∧
    (∀ c ∈ sources cls, c.daughters = [] → c.best ≠ [] → ∀ e ∈ c.bestEdges, e.1 ∈ c.best → e.2 ∈ c.best → rej e.1 = false → rej e.2 = false →
      ∃ q ∈ o.pathEdge, o.pp.pts[q.2.1]? = some (q.2.1, e.1) ∧ o.pp.pts[q.2.2]? = some (q.2.2, e.2)) := by
  have hi := loop_inv rej cls (init_inv rej)
  have hdone := loop_done rej cls (init_inv rej) (by simp)
  rw [List.nil_append] at hi hdone
  refine ⟨hi.pathI, hi.pfPath, ?_, fun c hc h1 h2 => (hdone c hc).path h1 h2⟩
  intro q hq
  obtain ⟨c, hc, e, e1, e2, e2', e3, e4⟩ := hi.path q hq
  exact ⟨c, hc, e2, e2', e, e1, e3, e4⟩

/-! ## A concrete event -/

/-- two ends -/
def end1 : CP := .mk true 3 [0, 1, 2] [0, 2] [(0, 2)] [] []
def end2 : CP := .mk true 2 [2, 3] [] [(2, 3)] [] []
/-- a cluster with two ends, one of them one level down, and a hit of its own; a cluster without daughters; one without axes -/
def event : List CP := [.mk true 3 [0, 1, 2, 3, 4] [] [] [(0, 3), (3, 4)] [end1, .mk false 0 [] [] [] [] [end2]], .mk true 1 [5] [] [] [] [], .mk false 1 [6] [] [] [] []]

example : (produce (fun _ => false) [0, 1, 2, 3, 4, 5, 6] event).pf = [⟨0, some 2, []⟩, ⟨1, some 2, []⟩, ⟨2, none, [0, 1]⟩, ⟨3, none, []⟩] ∧
    (produce (fun _ => false) [0, 1, 2, 3, 4, 5, 6] event).sp.pts = [(0, 0), (1, 1), (2, 2), (3, 3), (4, 4), (5, 5), (6, 6)] ∧
    (produce (fun _ => false) [0, 1, 2, 3, 4, 5, 6] event).pfSp = [(0, 0), (0, 1), (0, 2), (1, 3), (3, 5)] ∧
    (produce (fun _ => false) [0, 1, 2, 3, 4, 5, 6] event).edge = [(0, 2, 3), (1, 0, 3), (2, 3, 4)] ∧
    (produce (fun _ => false) [0, 1, 2, 3, 4, 5, 6] event).pathEdge = [(0, 0, 1)] ∧
    (produce (fun _ => false) [0, 1, 2, 3, 4, 5, 6] event).pfClus = [(0, 0), (0, 1), (0, 2), (1, 3), (1, 4), (3, 5)] := by decide +kernel

/-- the hypotheses of `C108_once` hold in an event with two clusters -/
example : ∃ cls : List CP, cls.length = 2 ∧ cls.Pairwise (fun a b => ∀ h, ¬ (InFamily a h ∧ InFamily b h)) ∧ (∀ d ∈ sources cls, d.daughters = [] → ∀ h ∈ d.best, h ∈ d.hits) ∧ sources cls ≠ [] := by
  refine ⟨[.mk true 3 [0, 1] [1] [] [] [], .mk true 3 [2] [] [] [] []], rfl, ?_, ?_, by simp [sources, family, CP.ok, CP.daughters]⟩
  · simp [InFamily, family, CP.ok, CP.daughters, CP.hits]
  · simp [sources, family, CP.ok, CP.daughters, CP.hits, CP.best]

/-- **C108**: a best hit that is not among the hits of its cluster gets no space point although it is in the list of all hits -/
theorem C108_best_refuted : ∃ (all : List Nat) (cls : List CP), 1 ∈ all ∧ 1 ∉ (produce (fun _ => false) all cls).sp.pts.map Prod.snd :=
  ⟨[0, 1], [.mk true 1 [0] [1] [] [] []], by decide, by decide +kernel⟩

/-! ## Vertices and edges of the Voronoi diagram -/

/-- `dcel2d::HalfEdge`: its address, its twin, its target vertex -/
structure HE where
  id : Nat
  twin : Option Nat
  deriving DecidableEq, Repr

/-- `MakeAndSaveVertexPoints`, Cluster3D_module.cc:1539-1602; `points` has the identifiers of the vertex points, `verts` the addresses of the vertices, in order; `target` the target vertex of a half edge; `nEdges` is the size of the other collection of edges -/
def vertexStep (target : Nat → Option Nat) (verts : List Nat) (base nEdges : Nat) (s : List (Nat × Nat × Nat) × List Nat) (h : HE) : List (Nat × Nat × Nat) × List Nat :=
  match h.twin with
  | none => s
  | some t =>
    if t ∈ s.2 then s
    else
      match target t, target h.id with
      | some a, some b => if a ∉ verts ∨ b ∉ verts then s else (s.1 ++ [(nEdges, base + verts.idxOf a, base + verts.idxOf b)], h.id :: s.2)
      | _, _ => s

/-- the points and the edges; Cluster3D_module.cc:1556-1599 -/
def vertexPoints (target : Nat → Option Nat) (verts : List Nat) (hes : List HE) (nEdges : Nat) (pts : List Nat) (es : List (Nat × Nat × Nat)) : List Nat × List (Nat × Nat × Nat) :=
  (pts ++ List.range' pts.length verts.length, (hes.foldl (vertexStep target verts pts.length nEdges) (es, [])).1)

/-- both ends of the half edge are known vertices -/
def Whole (target : Nat → Option Nat) (verts : List Nat) (h : HE) : Prop := ∃ t a b, h.twin = some t ∧ target t = some a ∧ target h.id = some b ∧ a ∈ verts ∧ b ∈ verts

theorem vertex_loop (target : Nat → Option Nat) (verts : List Nat) (base nEdges : Nat) (hes : List HE) :
    ∀ (s : List (Nat × Nat × Nat) × List Nat) (pre : List HE),
    (pre ++ hes).Pairwise (fun a b => a.id ≠ b.id) →
    (∀ x ∈ s.2, ∃ h ∈ pre, h.id = x) →
    ∃ picks : List HE, picks.Sublist hes ∧ (∀ h ∈ picks, Whole target verts h) ∧
      (hes.foldl (vertexStep target verts base nEdges) s).1 = s.1 ++ picks.map (fun h => (nEdges, base + verts.idxOf ((target (h.twin.getD 0)).getD 0), base + verts.idxOf ((target h.id).getD 0))) ∧
      (∀ x, x ∈ (hes.foldl (vertexStep target verts base nEdges) s).2 ↔ x ∈ s.2 ∨ ∃ h ∈ picks, h.id = x) ∧
      (∀ a h b, hes = a ++ h :: b → Whole target verts h → (h ∈ picks ↔ ∀ t, h.twin = some t → t ∉ s.2 ∧ ∀ k ∈ picks, k ∈ a → k.id ≠ t)) := by
  induction hes with
  | nil => intro s pre _ _; exact ⟨[], by simp, by simp, by simp, by simp, by simp⟩
  | cons h t ih =>
    intro s pre hp hs
    have hp' : ((pre ++ [h]) ++ t).Pairwise (fun a b => a.id ≠ b.id) := by simpa using hp
    have hne : ∀ k ∈ t, h.id ≠ k.id := by
      rw [List.pairwise_append] at hp
      exact (List.pairwise_cons.1 hp.2.1).1
    have hpreid : ∀ k ∈ pre, k.id ≠ h.id := by
      rw [List.pairwise_append] at hp
      exact fun k hk => hp.2.2 k hk h (by simp)
    by_cases hpick : Whole target verts h ∧ ∀ u, h.twin = some u → u ∉ s.2
    · obtain ⟨⟨u, a, b, e1, e2, e3, e4, e5⟩, hu⟩ := hpick
      have hu' := hu u e1
      have hstep : vertexStep target verts base nEdges s h = (s.1 ++ [(nEdges, base + verts.idxOf a, base + verts.idxOf b)], h.id :: s.2) := by
        unfold vertexStep; simp [e1, e2, e3, e4, e5, hu']
      obtain ⟨picks, p1, p2, p3, p4, p5⟩ := ih (s.1 ++ [(nEdges, base + verts.idxOf a, base + verts.idxOf b)], h.id :: s.2) (pre ++ [h]) hp' (by
        intro x hx
        rcases List.mem_cons.1 hx with rfl | hx
        · exact ⟨h, by simp, rfl⟩
        · obtain ⟨k, hk, hkx⟩ := hs x hx; exact ⟨k, by simp [hk], hkx⟩)
      rw [List.foldl_cons, hstep]
      refine ⟨h :: picks, p1.cons_cons h, ?_, ?_, ?_, ?_⟩
      · intro k hk
        rcases List.mem_cons.1 hk with rfl | hk
        · exact ⟨u, a, b, e1, e2, e3, e4, e5⟩
        · exact p2 k hk
      · rw [p3]; simp [e1, e2, e3]
      · intro x; rw [p4]; simp only [List.mem_cons]
        constructor
        · rintro ((x1 | x1) | ⟨k, k1, k2⟩)
          · exact Or.inr ⟨h, Or.inl rfl, x1.symm⟩
          · exact Or.inl x1
          · exact Or.inr ⟨k, Or.inr k1, k2⟩
        · rintro (x1 | ⟨k, rfl | k1, k2⟩)
          · exact Or.inl (Or.inr x1)
          · exact Or.inl (Or.inl k2.symm)
          · exact Or.inr ⟨k, k1, k2⟩
      · intro a' h' b' hab hw
        cases a' with
        | nil =>
          simp at hab
          obtain ⟨rfl, rfl⟩ := hab
          constructor
          · intro _ u' hu1; exact ⟨hu u' hu1, by simp⟩
          · intro _; simp
        | cons x a' =>
          simp at hab
          obtain ⟨rfl, rfl⟩ := hab
          have hne' : h' ≠ h := by
            rintro rfl; exact hne h' (by simp) rfl
          have := p5 a' h' b' rfl hw
          rw [List.mem_cons]
          constructor
          · rintro (x1 | x1)
            · exact absurd x1 hne'
            · intro u' hu1
              obtain ⟨y1, y2⟩ := this.1 x1 u' hu1
              simp only [List.mem_cons, not_or] at y1
              refine ⟨y1.2, ?_⟩
              intro k hk hka
              rcases List.mem_cons.1 hk with rfl | hk
              · exact fun e => y1.1 e.symm
              · rcases List.mem_cons.1 hka with rfl | hka
                · exact fun e => y1.1 e.symm
                · exact y2 k hk hka
          · intro hall
            right
            refine this.2 ?_
            intro u' hu1
            obtain ⟨y1, y2⟩ := hall u' hu1
            refine ⟨?_, ?_⟩
            · simp only [List.mem_cons, not_or]
              exact ⟨fun e => y2 h (by simp) (by simp) e.symm, y1⟩
            · intro k hk hka; exact y2 k (by simp [hk]) (by simp [hka])
    · have hstep : vertexStep target verts base nEdges s h = s := by
        unfold vertexStep
        cases e1 : h.twin with
        | none => rfl
        | some u =>
          dsimp only
          by_cases hu : u ∈ s.2
          · rw [if_pos hu]
          · rw [if_neg hu]
            cases e2 : target u with
            | none => rfl
            | some a =>
              cases e3 : target h.id with
              | none => rfl
              | some b =>
                dsimp only
                rw [if_pos]
                by_contra hc
                push Not at hc
                exact hpick ⟨⟨u, a, b, e1, e2, e3, hc.1, hc.2⟩, by intro u' hu'; rw [e1] at hu'; cases hu'; exact hu⟩
      obtain ⟨picks, p1, p2, p3, p4, p5⟩ := ih s (pre ++ [h]) hp' (by
        intro x hx
        obtain ⟨k, hk, hkx⟩ := hs x hx; exact ⟨k, by simp [hk], hkx⟩)
      rw [List.foldl_cons, hstep]
      have hnp : h ∉ picks := fun hh => hne h (p1.subset hh) rfl
      refine ⟨picks, p1.cons h, p2, p3, p4, ?_⟩
      intro a' h' b' hab hw
      cases a' with
      | nil =>
        simp at hab
        obtain ⟨rfl, rfl⟩ := hab
        constructor
        · intro hh; exact absurd hh hnp
        · intro hall
          exact absurd ⟨hw, fun u hu => (hall u hu).1⟩ hpick
      | cons x a' =>
        simp at hab
        obtain ⟨rfl, rfl⟩ := hab
        rw [p5 a' h' b' rfl hw]
        constructor
        · intro hall u' hu1
          obtain ⟨y1, y2⟩ := hall u' hu1
          refine ⟨y1, ?_⟩
          intro k hk hka
          rcases List.mem_cons.1 hka with rfl | hka
          · exact absurd hk hnp
          · exact y2 k hk hka
        · intro hall u' hu1
          obtain ⟨y1, y2⟩ := hall u' hu1
          exact ⟨y1, fun k hk hka => y2 k hk (by simp [hka])⟩

/-- **C109**: with twins in pairs, of the two half edges between two known vertices exactly one gives an edge, between the points of these vertices -/
theorem C109_vertex_edges (target : Nat → Option Nat) (verts : List Nat) (hes : List HE) (nEdges : Nat) (pts : List Nat)
    (hid : hes.Pairwise (fun a b => a.id ≠ b.id)) (htw : ∀ h ∈ hes, ∀ t, h.twin = some t → t ≠ h.id ∧ ∃ k ∈ hes, k.id = t ∧ k.twin = some h.id) :
    ∃ picks : List HE, picks.Sublist hes ∧ (∀ h ∈ picks, Whole target verts h) ∧
      (vertexPoints target verts hes nEdges pts []).2.map Prod.snd = picks.map (fun h => (pts.length + verts.idxOf ((target (h.twin.getD 0)).getD 0), pts.length + verts.idxOf ((target h.id).getD 0))) ∧
      (∀ h ∈ hes, ∀ k ∈ hes, h.twin = some k.id → Whole target verts h → (h ∈ picks ↔ k ∉ picks)) := by
  obtain ⟨picks, p1, p2, p3, p4, p5⟩ := vertex_loop target verts pts.length nEdges hes ([], []) [] (by simpa using hid) (by simp)
  refine ⟨picks, p1, p2, ?_, ?_⟩
  · unfold vertexPoints
    dsimp only
    rw [p3]; simp
  · intro h hh k hk hhk hw
    have huniq : ∀ x ∈ hes, ∀ y ∈ hes, x.id = y.id → x = y := by
      intro x hx y hy hxy
      by_contra hne
      obtain ⟨a, b, rfl⟩ := List.append_of_mem hx
      rw [List.pairwise_append, List.pairwise_cons] at hid
      rcases List.mem_append.1 hy with hy | hy
      · exact hid.2.2 y hy x (by simp) hxy.symm
      · rcases List.mem_cons.1 hy with rfl | hy
        · exact hne rfl
        · exact hid.2.1.1 y hy hxy
    have hkh : k.twin = some h.id := by
      obtain ⟨-, k', hk', e1, e2⟩ := htw h hh k.id hhk
      rw [← huniq k' hk' k hk e1]; exact e2
    have hkne : k.id ≠ h.id := (htw h hh k.id hhk).1
    have hwk : Whole target verts k := by
      obtain ⟨t, a, b, e1, e2, e3, e4, e5⟩ := hw
      rw [hhk] at e1; cases e1
      exact ⟨h.id, b, a, hkh, e3, e2, e5, e4⟩
    -- the order of the two in the list
    have key : ∀ (x y : HE), x ∈ hes → y ∈ hes → x.twin = some y.id → y.twin = some x.id → Whole target verts x → Whole target verts y → (∃ a b, hes = a ++ x :: b ∧ y ∈ b) →
        x ∈ picks ∧ y ∉ picks := by
      rintro x y hx hy hxy hyx hwx hwy ⟨a, b, hab, hyb⟩
      have hya : y ∉ a := by
        intro hya
        rw [hab, List.pairwise_append] at hid
        exact hid.2.2 y hya y (by simp [hyb]) rfl
      have h1 : x ∈ picks := by
        rw [p5 a x b hab hwx]
        intro t ht
        rw [hxy] at ht; cases ht
        refine ⟨by simp, ?_⟩
        intro k hk hka hkid
        have : k = y := huniq k (by rw [hab]; simp [hka]) y hy hkid
        rw [this] at hka; exact hya hka
      refine ⟨h1, ?_⟩
      obtain ⟨c, d, rfl⟩ := List.append_of_mem hyb
      rw [p5 (a ++ x :: c) y d (by rw [hab]; simp) hwy]
      intro hall
      exact (hall x.id hyx).2 x h1 (by simp) rfl
    obtain ⟨a, b, hab⟩ := List.append_of_mem hh
    rw [hab] at hk
    rcases List.mem_append.1 hk with hka | hkb
    · obtain ⟨a1, a2, rfl⟩ := List.append_of_mem hka
      have := key k h (by rw [hab]; simp) hh hkh hhk hwk hw ⟨a1, a2 ++ h :: b, by rw [hab]; simp, by simp⟩
      simp [this.1, this.2]
    · rcases List.mem_cons.1 hkb with rfl | hkb
      · exact absurd rfl hkne
      · have := key h k hh (by rw [hab]; simp [hkb]) hhk hkh hw hwk ⟨a, b, hab, hkb⟩
        simp [this.1, this.2]

/-- a triangle of three vertices and its twins meets the hypotheses; the identifiers are all the size of the other collection -/
def tri : List HE := [⟨0, some 3⟩, ⟨1, some 4⟩, ⟨2, some 5⟩, ⟨3, some 0⟩, ⟨4, some 1⟩, ⟨5, some 2⟩]
def triTarget (i : Nat) : Option Nat := [some 11, some 12, some 10, some 10, some 11, some 12].getD i none

example : tri.Pairwise (fun a b => a.id ≠ b.id) ∧ (∀ h ∈ tri, ∀ t, h.twin = some t → t ≠ h.id ∧ ∃ k ∈ tri, k.id = t ∧ k.twin = some h.id) := by
  constructor
  · decide
  · intro h hh t ht
    simp only [tri, List.mem_cons, List.not_mem_nil, or_false] at hh
    rcases hh with rfl | rfl | rfl | rfl | rfl | rfl <;> simp at ht <;> subst ht <;> decide

/-- **C109**: the identifiers of the edges of the diagram are not their positions: they are all equal -/
theorem C109_vertex_id_refuted : ∃ target verts hes nEdges, (vertexPoints target verts hes nEdges [] []).2.map Prod.fst ≠ List.range (vertexPoints target verts hes nEdges [] []).2.length ∧
    (vertexPoints target verts hes nEdges [] []).2.length = 3 ∧ ¬ ((vertexPoints target verts hes nEdges [] []).2.map Prod.fst).Nodup :=
  ⟨triTarget, [10, 11, 12], tri, 7, by decide +kernel, by decide +kernel, by decide +kernel⟩

end Verif.C3DOut

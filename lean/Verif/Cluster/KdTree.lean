import Verif.Basic
import Mathlib.Data.Rat.Defs
import Mathlib.Algebra.Order.Field.Rat
import Mathlib.Data.List.Nodup
import Mathlib.Data.List.Perm.Basic
/-!
# `lar_cluster3d::kdTree` (C28, C29, C59, C60)

Source: `/repo/larreco/RecoAlg/Cluster3DAlgs/kdTree.{h,cxx}`. Hits are numbers (addresses); positions and distances are
exact rationals (the code uses `float`). `std::sort` is an arbitrary function with its standard contract (a sorted
permutation), so the order of equal keys is not assumed. The status bit clearing of the second `BuildKdTree` overload and
the timers are dropped.
-/
namespace Verif.KdTree
open Verif

/-- what the tree uses of a `reco::ClusterHit3D` -/
structure Hit where
  pos : Nat → ℚ
  cryostat : Nat
  tpc : Nat
  wires : Nat → Int
  time : ℚ
  sigma : ℚ

/-- `KdTreeNode`, kdTree.h:122-176: the leaf, the null node and the split node (axis, value, subtrees) -/
inductive Tree where
  | null
  | leaf (h : Nat)
  | node (axis : Nat) (val : ℚ) (left right : Tree)
deriving DecidableEq

section
variable (hit : Nat → Hit) (sort : (Nat → ℚ) → List Nat → List Nat)

/-- largest minus smallest value of a coordinate, kdTree.cxx:117-138 (`minmax_element`) -/
def spread (a : Nat) (l : List Nat) : ℚ :=
  match l with
  | [] => 0
  | x :: t => t.foldl (fun m h => max m ((hit h).pos a)) ((hit x).pos a) -
      t.foldl (fun m h => min m ((hit h).pos a)) ((hit x).pos a)

/-- `std::max_element` over the three ranges (first of equals), kdTree.cxx:140-142 -/
def axisOf (l : List Nat) : Nat :=
  let r := fun a => spread hit a l
  let a := if r 0 < r 1 then 1 else 0
  if r a < r 2 then 2 else a

/-- the loop moving back to the first occurrence of the median, kdTree.cxx:155-163 (`first` is position 0); positions
outside the range would be undefined and read as 0 -/
def moveBack (key : Nat → ℚ) (l : List Nat) : Nat → Nat
  | 0 => 0
  | m + 1 => if m + 1 = 1 then 1
    else if ¬ (key (l.getD m 0) < key (l.getD (m + 1) 0)) then moveBack key l m else m + 1

/-- recursive `BuildKdTree`, kdTree.cxx:101-177; `none` = recursion budget exhausted -/
def build : Nat → List Nat → Option Tree
  | 0, _ => none
  | fuel + 1, l =>
    if l.length < 2 then
      match l with
      | [] => some .null
      | x :: _ => some (.leaf x)
    else
      let a := axisOf hit l
      let key := fun h => (hit h).pos a
      let s := sort key l
      let m0 := l.length / 2
      let m := if m0 > 1 then moveBack key s m0 else m0
      let v := 1 / 2 * (key (s.getD m 0) + key (s.getD (m - 1) 0))
      match build fuel (s.take m), build fuel (s.drop m) with
      | some L, some R => some (.node a v L R)
      | _, _ => none

/-- parameters of the object and the opaque distances: `sep` is `max(0.0001, DistanceBetweenNodesYZ)`
(kdTree.cxx:335), `big` is `numeric_limits<float>::max()` -/
structure Cfg where
  nSigma : ℚ
  refBest : ℚ
  big : ℚ
  sep : Nat → Nat → ℚ

/-- the cuts of `consistentPairs` that do not depend on `bestDist`, kdTree.cxx:313-333 -/
def compat (c : Cfg) (p q : Nat) : Bool :=
  (hit p).cryostat == (hit q).cryostat && (hit p).tpc == (hit q).tpc &&
  decide (|(hit p).time - (hit q).time| < c.nSigma * ((hit p).sigma + (hit q).sigma)) &&
  -- the three wire differences are sorted and the last one compared with 3
  decide (max (max |(hit p).wires 0 - (hit q).wires 0| |(hit p).wires 1 - (hit q).wires 1|)
    |(hit p).wires 2 - (hit q).wires 2| < 3)

/-- `consistentPairs`, kdTree.cxx:298-348: the answer and the new `bestDist` -/
def consistentPairs (c : Cfg) (p q : Nat) (best : ℚ) : Bool × ℚ :=
  if best < c.big ∧ compat hit c p q = true ∧ c.sep p q < best then (true, c.sep p q) else (false, best)

/-- `FindNearestNeighbors`, kdTree.cxx:179-221; state: candidate list and `bestDist`. On a null node the code reads
`getPosition()[4]`. -/
def findNN (c : Cfg) (ref : Nat) : Tree → List (ℚ × Nat) × ℚ → Res (List (ℚ × Nat) × ℚ)
  | .null, _ => .ub
  | .leaf h, (l, b) =>
    if ref = h then .ok (l, c.refBest)
    else
      let r := consistentPairs hit c ref h b
      if r.1 then .ok (l ++ [(r.2, h)], max c.refBest r.2) else .ok (l, r.2)
  | .node a v L R, s =>
    let x := (hit ref).pos a
    if x < v then
      match findNN c ref L s with
      | .ok s1 => if x + s1.2 > v then findNN c ref R s1 else .ok s1
      | .throw => .throw
      | .ub => .ub
    else
      match findNN c ref R s with
      | .ok s1 => if x - s1.2 < v then findNN c ref L s1 else .ok s1
      | .throw => .throw
      | .ub => .ub

/-- `FindEntryBrute`, kdTree.cxx:273-290. A null node is its own subtree (kdTree.h:146-152): unbounded recursion. -/
def findBrute (ref : Nat) : Tree → Res Bool
  | .null => .ub
  | .leaf h => .ok (decide (ref = h))
  | .node _ _ L R =>
    match findBrute ref L with
    | .ok true => .ok true
    | .ok false => findBrute ref R
    | .throw => .throw
    | .ub => .ub

/-- state of `FindEntry`: candidates, `bestDist`, `selfNotFound` -/
structure FE where
  cands : List (ℚ × Nat)
  best : ℚ
  notFound : Bool

/-- `FindEntry`, kdTree.cxx:223-271. The separation handed to `consistentPairs` is a local variable starting at 0. -/
def findEntry (c : Cfg) (ref : Nat) : Tree → FE → Res (Bool × FE)
  | .null, _ => .ub
  | .leaf h, s =>
    let nf := if ref = h then false else s.notFound
    let r := consistentPairs hit c ref h 0
    let s' : FE := if r.1 then
        { cands := s.cands ++ [(r.2, h)], best := if s.best < c.big then max s.best r.2 else max (1 / 2) r.2, notFound := nf }
      else { s with notFound := nf }
    .ok (! nf, s')
  | .node a v L R, s =>
    let x := (hit ref).pos a
    if x < v then
      match findEntry c ref L s with
      | .ok (true, s1) => .ok (true, s1)
      | .ok (false, s1) => if x + s1.best > v then findEntry c ref R s1 else .ok (false, s1)
      | .throw => .throw
      | .ub => .ub
    else
      match findEntry c ref R s with
      | .ok (true, s1) => .ok (true, s1)
      | .ok (false, s1) => if x - s1.best < v then findEntry c ref L s1 else .ok (false, s1)
      | .throw => .throw
      | .ub => .ub
end

/-! ## Specification -/

/-- Spec: the hits at the leaves, left to right -/
def Tree.hits : Tree → List Nat
  | .null => []
  | .leaf h => [h]
  | .node _ _ L R => L.hits ++ R.hits

/-- Spec: no null node anywhere -/
def Tree.NoNull : Tree → Prop
  | .null => False
  | .leaf _ => True
  | .node _ _ L R => L.NoNull ∧ R.NoNull

/-- Spec: every split separates the coordinates of its subtrees, along one of the three axes -/
def Tree.Separates (hit : Nat → Hit) : Tree → Prop
  | .null => True
  | .leaf _ => True
  | .node a v L R => a < 3 ∧ (∀ h ∈ L.hits, (hit h).pos a ≤ v) ∧ (∀ h ∈ R.hits, v ≤ (hit h).pos a) ∧
      L.Separates hit ∧ R.Separates hit

/-- contract of `std::sort` by a key -/
def SortOk (sort : (Nat → ℚ) → List Nat → List Nat) : Prop :=
  ∀ key l, (sort key l).Perm l ∧ (sort key l).Pairwise (fun a b => key a ≤ key b)

/-! ## Proofs -/

theorem moveBack_bounds (key : Nat → ℚ) (l : List Nat) (m : Nat) (h : 1 ≤ m) :
    1 ≤ moveBack key l m ∧ moveBack key l m ≤ m := by
  induction m with
  | zero => omega
  | succ m ih =>
    unfold moveBack
    split
    · omega
    · split
      · have := ih (by omega); omega
      · omega

theorem axisOf_lt (hit : Nat → Hit) (l : List Nat) : axisOf hit l < 3 := by
  unfold axisOf
  dsimp only
  split <;> split <;> omega

theorem build_spec (hit : Nat → Hit) (sort : (Nat → ℚ) → List Nat → List Nat) (hs : SortOk sort) (fuel : Nat)
    (l : List Nat) (hf : l.length ≤ fuel) (hfuel : 0 < fuel) :
    ∃ t, build hit sort fuel l = some t ∧ t.hits.Perm l ∧ (l ≠ [] → t.NoNull) ∧ t.Separates hit := by
  induction fuel generalizing l with
  | zero => omega
  | succ fuel ih =>
    unfold build
    by_cases hl : l.length < 2
    · rw [if_pos hl]
      match l, hl with
      | [], _ => exact ⟨.null, rfl, by simp [Tree.hits], by simp, trivial⟩
      | [x], _ => exact ⟨.leaf x, rfl, by simp [Tree.hits], fun _ => trivial, trivial⟩
      | x :: y :: t, h => exact absurd h (by simp)
    · rw [if_neg hl]
      dsimp only
      generalize ha : axisOf hit l = a
      have ha3 : a < 3 := by rw [← ha]; exact axisOf_lt hit l
      generalize hsl : sort (fun h => (hit h).pos a) l = s
      obtain ⟨hperm, hsorted⟩ := hs (fun h => (hit h).pos a) l
      rw [hsl] at hperm hsorted
      have hlen : s.length = l.length := hperm.length_eq
      generalize hm : (if l.length / 2 > 1 then moveBack (fun h => (hit h).pos a) s (l.length / 2) else l.length / 2) = m
      have hmb : 1 ≤ m ∧ m < l.length := by
        rw [← hm]
        split
        · have := moveBack_bounds (fun h => (hit h).pos a) s (l.length / 2) (by omega); omega
        · omega
      have hfl : l.length ≤ fuel + 1 := hf
      obtain ⟨L, l1, l2, l3, l4⟩ := ih (s.take m) (by rw [List.length_take]; omega) (by omega)
      obtain ⟨R, r1, r2, r3, r4⟩ := ih (s.drop m) (by rw [List.length_drop]; omega) (by omega)
      rw [l1, r1]
      refine ⟨_, rfl, ?_, ?_, ha3, ?_, ?_, l4, r4⟩
      · refine (l2.append r2).trans ?_
        rw [List.take_append_drop]
        exact hperm
      · intro _
        constructor
        · exact l3 (fun h => by have := congrArg List.length h; rw [List.length_take, List.length_nil] at this; omega)
        · exact r3 (fun h => by have := congrArg List.length h; rw [List.length_drop, List.length_nil] at this; omega)
      · intro h hh
        have hmem := l2.mem_iff.1 hh
        obtain ⟨i, hi, rfl⟩ := List.mem_iff_getElem.1 hmem
        rw [List.getElem_take]
        rw [List.length_take] at hi
        have e1 : s.getD m 0 = s[m]'(by omega) := by simp [List.getD, List.getElem?_eq_getElem (show m < s.length by omega)]
        have e2 : s.getD (m - 1) 0 = s[m - 1]'(by omega) := by
          simp [List.getD, List.getElem?_eq_getElem (show m - 1 < s.length by omega)]
        rw [e1, e2]
        have hle : ∀ i j (hi : i < s.length) (hj : j < s.length), i ≤ j → (hit s[i]).pos a ≤ (hit s[j]).pos a := by
          intro i j hi hj hij
          rcases Nat.lt_or_eq_of_le hij with h | h
          · exact List.pairwise_iff_getElem.1 hsorted i j hi hj h
          · subst h; exact le_refl _
        have h1 := hle i (m - 1) (by omega) (by omega) (by omega)
        have h2 := hle i m (by omega) (by omega) (by omega)
        linarith
      · intro h hh
        have hmem := r2.mem_iff.1 hh
        obtain ⟨i, hi, rfl⟩ := List.mem_iff_getElem.1 hmem
        rw [List.getElem_drop]
        rw [List.length_drop] at hi
        have e1 : s.getD m 0 = s[m]'(by omega) := by simp [List.getD, List.getElem?_eq_getElem (show m < s.length by omega)]
        have e2 : s.getD (m - 1) 0 = s[m - 1]'(by omega) := by
          simp [List.getD, List.getElem?_eq_getElem (show m - 1 < s.length by omega)]
        rw [e1, e2]
        have hle : ∀ i j (hi : i < s.length) (hj : j < s.length), i ≤ j → (hit s[i]).pos a ≤ (hit s[j]).pos a := by
          intro i j hi hj hij
          rcases Nat.lt_or_eq_of_le hij with h | h
          · exact List.pairwise_iff_getElem.1 hsorted i j hi hj h
          · subst h; exact le_refl _
        have h1 := hle (m - 1) (m + i) (by omega) (by omega) (by omega)
        have h2 := hle m (m + i) (by omega) (by omega) (by omega)
        linarith

/-- **C28**. For every non-empty hit list and every sorting function, the construction terminates with a recursion
depth of at most the number of hits, the leaves are the input hits, each exactly as often as in the input, no null node
occurs, and every split separates the coordinates. -/
theorem C28_build (hit : Nat → Hit) (sort : (Nat → ℚ) → List Nat → List Nat) (hs : SortOk sort) (l : List Nat)
    (hl : l ≠ []) (fuel : Nat) (hf : l.length ≤ fuel) :
    ∃ t, build hit sort fuel l = some t ∧ t.hits.Perm l ∧ t.NoNull ∧ t.Separates hit := by
  obtain ⟨t, h1, h2, h3, h4⟩ := build_spec hit sort hs fuel l hf (by
    have := List.length_pos_of_ne_nil hl; omega)
  exact ⟨t, h1, h2, h3 hl, h4⟩

/-- **C29** (brute force lookup). On a tree without null nodes the answer is membership. -/
theorem C29_brute (ref : Nat) (t : Tree) (ht : t.NoNull) : findBrute ref t = .ok (decide (ref ∈ t.hits)) := by
  induction t with
  | null => exact ht.elim
  | leaf h => simp [findBrute, Tree.hits]
  | node a v L R ihL ihR =>
    unfold findBrute
    rw [ihL ht.1, ihR ht.2]
    by_cases h : ref ∈ L.hits
    · simp [h, Tree.hits]
    · simp [h, Tree.hits]

/-- Spec: two hits are compatible: same cryostat and TPC, times closer than `nSigma` combined widths, and wires in each of
the three planes at most two apart -/
def Compatible (hit : Nat → Hit) (c : Cfg) (p q : Nat) : Prop :=
  (hit p).cryostat = (hit q).cryostat ∧ (hit p).tpc = (hit q).tpc ∧
  |(hit p).time - (hit q).time| < c.nSigma * ((hit p).sigma + (hit q).sigma) ∧
  ∀ i, i < 3 → |(hit p).wires i - (hit q).wires i| ≤ 2

theorem compat_iff (hit : Nat → Hit) (c : Cfg) (p q : Nat) : compat hit c p q = true ↔ Compatible hit c p q := by
  unfold compat Compatible
  simp only [Bool.and_eq_true, beq_iff_eq, decide_eq_true_eq, and_assoc, max_lt_iff]
  apply and_congr_right; intro _
  apply and_congr_right; intro _
  apply and_congr_right; intro _
  constructor
  · rintro ⟨h0, h1, h2⟩ i hi
    have : i = 0 ∨ i = 1 ∨ i = 2 := by omega
    rcases this with rfl | rfl | rfl <;> omega
  · intro h
    have h0 := h 0 (by omega)
    have h1 := h 1 (by omega)
    have h2 := h 2 (by omega)
    exact ⟨by omega, by omega, by omega⟩

/-- Spec: what a returned candidate must satisfy; `D` bounds the distance -/
def CandOk (hit : Nat → Hit) (c : Cfg) (ref : Nat) (t : Tree) (D : ℚ) (p : ℚ × Nat) : Prop :=
  p.2 ∈ t.hits ∧ p.2 ≠ ref ∧ compat hit c ref p.2 = true ∧ p.1 = c.sep ref p.2 ∧ p.1 < D

theorem findNN_spec (hit : Nat → Hit) (c : Cfg) (ref : Nat) (t : Tree) (ht : t.NoNull) (l : List (ℚ × Nat)) (b D : ℚ)
    (hb : b ≤ D) (hD : c.refBest ≤ D) :
    ∃ new b', findNN hit c ref t (l, b) = .ok (l ++ new, b') ∧ b' ≤ D ∧
      (∀ p ∈ new, CandOk hit c ref t D p) ∧ (t.hits.Nodup → (new.map (·.2)).Nodup) ∧
      (c.refBest ≤ b → c.refBest ≤ b') := by
  induction t generalizing l b with
  | null => exact ht.elim
  | leaf h =>
    unfold findNN
    by_cases hr : ref = h
    · simp only [hr, if_true]
      exact ⟨[], c.refBest, by simp, hD, by simp, by simp, fun _ => le_refl _⟩
    · simp only [hr, if_false]
      unfold consistentPairs
      by_cases hc : b < c.big ∧ compat hit c ref h = true ∧ c.sep ref h < b
      · simp only [hc, and_self, if_true]
        refine ⟨[(c.sep ref h, h)], _, rfl, max_le hD (le_trans (le_of_lt hc.2.2) hb), ?_, by simp,
          fun _ => le_max_left _ _⟩
        intro p hp
        have : p = (c.sep ref h, h) := by simpa using hp
        subst this
        exact ⟨by simp [Tree.hits], fun e => hr e.symm, hc.2.1, rfl, lt_of_lt_of_le hc.2.2 hb⟩
      · simp only [hc, if_false, Bool.false_eq_true]
        exact ⟨[], b, by simp, hb, by simp, by simp, fun h => h⟩
  | node a v L R ihL ihR =>
    have key : ∀ (A B : Tree) (cond : ℚ → Prop) [DecidablePred cond],
        (∀ (l : List (ℚ × Nat)) (b : ℚ), b ≤ D → ∃ new b', findNN hit c ref A (l, b) = .ok (l ++ new, b') ∧ b' ≤ D ∧
          (∀ p ∈ new, CandOk hit c ref A D p) ∧ (A.hits.Nodup → (new.map (·.2)).Nodup) ∧ (c.refBest ≤ b → c.refBest ≤ b')) →
        (∀ (l : List (ℚ × Nat)) (b : ℚ), b ≤ D → ∃ new b', findNN hit c ref B (l, b) = .ok (l ++ new, b') ∧ b' ≤ D ∧
          (∀ p ∈ new, CandOk hit c ref B D p) ∧ (B.hits.Nodup → (new.map (·.2)).Nodup) ∧ (c.refBest ≤ b → c.refBest ≤ b')) →
        (∀ h, h ∈ A.hits ∨ h ∈ B.hits → h ∈ L.hits ++ R.hits) →
        ((L.hits ++ R.hits).Nodup → A.hits.Nodup ∧ B.hits.Nodup ∧ ∀ h ∈ A.hits, h ∉ B.hits) →
        ∃ new b', (match findNN hit c ref A (l, b) with
          | .ok s1 => if cond s1.2 then findNN hit c ref B s1 else .ok s1
          | .throw => .throw
          | .ub => .ub) = .ok (l ++ new, b') ∧ b' ≤ D ∧
          (∀ p ∈ new, CandOk hit c ref (.node a v L R) D p) ∧
          ((L.hits ++ R.hits).Nodup → (new.map (·.2)).Nodup) ∧ (c.refBest ≤ b → c.refBest ≤ b') := by
      intro A B cond _ hA hB hmem hnd
      obtain ⟨n1, b1, e1, d1, c1, u1, m1⟩ := hA l b hb
      rw [e1]
      dsimp only
      by_cases hc : cond b1
      · rw [if_pos hc]
        obtain ⟨n2, b2, e2, d2, c2, u2, m2⟩ := hB (l ++ n1) b1 d1
        refine ⟨n1 ++ n2, b2, by rw [e2, List.append_assoc], d2, ?_, ?_, fun h => m2 (m1 h)⟩
        · intro p hp
          rcases List.mem_append.1 hp with h | h
          · obtain ⟨q1, q2⟩ := c1 p h
            exact ⟨hmem _ (Or.inl q1), q2⟩
          · obtain ⟨q1, q2⟩ := c2 p h
            exact ⟨hmem _ (Or.inr q1), q2⟩
        · intro hn
          obtain ⟨x1, x2, x3⟩ := hnd hn
          rw [List.map_append, List.nodup_append]
          refine ⟨u1 x1, u2 x2, ?_⟩
          intro x hx y hy hxy
          subst hxy
          obtain ⟨p, hp, rfl⟩ := List.mem_map.1 hx
          obtain ⟨q, hq, hqe⟩ := List.mem_map.1 hy
          have := (c2 q hq).1
          rw [hqe] at this
          exact x3 _ (c1 p hp).1 this
      · rw [if_neg hc]
        refine ⟨n1, b1, rfl, d1, ?_, fun hn => u1 (hnd hn).1, m1⟩
        intro p hp
        obtain ⟨q1, q2⟩ := c1 p hp
        exact ⟨hmem _ (Or.inl q1), q2⟩
    unfold findNN
    dsimp only
    by_cases hx : (hit ref).pos a < v
    · rw [if_pos hx]
      refine key L R (fun b => (hit ref).pos a + b > v) (fun l b h => ihL ht.1 l b h) (fun l b h => ihR ht.2 l b h)
        (fun h hh => List.mem_append.2 hh) ?_
      intro hn
      rw [List.nodup_append] at hn
      exact ⟨hn.1, hn.2.1, fun h h1 h2 => hn.2.2 h h1 h h2 rfl⟩
    · rw [if_neg hx]
      refine key R L (fun b => (hit ref).pos a - b < v) (fun l b h => ihR ht.2 l b h) (fun l b h => ihL ht.1 l b h)
        (fun h hh => List.mem_append.2 hh.symm) ?_
      intro hn
      rw [List.nodup_append] at hn
      exact ⟨hn.2.1, hn.1, fun h h1 h2 => hn.2.2 h h2 h h1 rfl⟩

/-- **C29** (neighbour search). On a tree without null nodes the search returns normally; it only appends, and what it
appends are hits of the tree other than the reference hit, compatible with it, with their true separation, closer than the
starting distance (or than the configured reference distance), each at most once. -/
theorem C29_neighbours (hit : Nat → Hit) (c : Cfg) (ref : Nat) (t : Tree) (ht : t.NoNull) (l : List (ℚ × Nat)) (b : ℚ) :
    ∃ new b', findNN hit c ref t (l, b) = .ok (l ++ new, b') ∧
      (∀ p ∈ new, p.2 ∈ t.hits ∧ p.2 ≠ ref ∧ Compatible hit c ref p.2 ∧ p.1 = c.sep ref p.2 ∧ p.1 < max b c.refBest) ∧
      (t.hits.Nodup → (new.map (·.2)).Nodup) := by
  obtain ⟨new, b', h1, _, h3, h4, _⟩ := findNN_spec hit c ref t ht l b (max b c.refBest) (le_max_left _ _) (le_max_right _ _)
  exact ⟨new, b', h1, fun p hp => by
    obtain ⟨a1, a2, a3, a4, a5⟩ := h3 p hp
    exact ⟨a1, a2, (compat_iff hit c ref p.2).1 a3, a4, a5⟩, h4⟩

/-- an empty input gives a null node, on which both searches misbehave -/
theorem C29_empty_undefined (hit : Nat → Hit) (sort : (Nat → ℚ) → List Nat → List Nat) (fuel : Nat) (c : Cfg) (ref : Nat)
    (s : List (ℚ × Nat) × ℚ) :
    build hit sort (fuel + 1) [] = some .null ∧ findNN hit c ref .null s = .ub ∧ findBrute ref .null = .ub :=
  ⟨rfl, rfl, rfl⟩

/-! ## C59: nearby hits are not missed -/

/-- Spec: the two hits differ by less than `d` in each coordinate -/
def Within (hit : Nat → Hit) (d : ℚ) (p q : Nat) : Prop := ∀ a, a < 3 → |(hit p).pos a - (hit q).pos a| < d

theorem findNN_complete (hit : Nat → Hit) (c : Cfg) (ref : Nat) (t : Tree) (ht : t.NoNull) (hsep : t.Separates hit)
    (l : List (ℚ × Nat)) (b D : ℚ) (hb : c.refBest ≤ b) (hbD : b ≤ D) (hD : D < c.big) (h : Nat) (hh : h ∈ t.hits)
    (hne : h ≠ ref) (hcomp : compat hit c ref h = true) (hclose : c.sep ref h < c.refBest)
    (hw : Within hit c.refBest ref h) :
    ∃ new b', findNN hit c ref t (l, b) = .ok (l ++ new, b') ∧ (c.sep ref h, h) ∈ new := by
  induction t generalizing l b with
  | null => exact ht.elim
  | leaf x =>
    have : h = x := by simpa [Tree.hits] using hh
    subst this
    unfold findNN
    rw [if_neg (fun e => hne e.symm)]
    unfold consistentPairs
    have hc : b < c.big ∧ compat hit c ref h = true ∧ c.sep ref h < b :=
      ⟨lt_of_le_of_lt hbD hD, hcomp, lt_of_lt_of_le hclose hb⟩
    simp only [hc, and_self, if_true]
    exact ⟨[(c.sep ref h, h)], _, rfl, by simp⟩
  | node a v L R ihL ihR =>
    obtain ⟨ha, hL, hR, sL, sR⟩ := hsep
    have hDr : c.refBest ≤ D := le_trans hb hbD
    have hwa := hw a ha
    rw [abs_lt] at hwa
    have hmem : h ∈ L.hits ∨ h ∈ R.hits := List.mem_append.1 hh
    unfold findNN
    dsimp only
    by_cases hx : (hit ref).pos a < v
    · rw [if_pos hx]
      obtain ⟨n1, b1, e1, d1, _, _, m1⟩ := findNN_spec hit c ref L ht.1 l b D hbD hDr
      have hb1 := m1 hb
      by_cases hin : h ∈ L.hits
      · obtain ⟨n1', b1', e1', i1⟩ := ihL ht.1 sL l b hb hbD hin
        rw [e1']
        rw [e1'] at e1
        simp only [Res.ok.injEq, Prod.mk.injEq, List.append_cancel_left_eq] at e1
        obtain ⟨rfl, rfl⟩ := e1
        dsimp only
        split
        · obtain ⟨n2, b2, e2, _⟩ := findNN_spec hit c ref R ht.2 (l ++ n1') b1' D d1 hDr
          exact ⟨n1' ++ n2, b2, by rw [e2, List.append_assoc], List.mem_append_left _ i1⟩
        · exact ⟨n1', b1', rfl, i1⟩
      · have hin : h ∈ R.hits := hmem.resolve_left hin
        have := hR h hin
        rw [e1]
        dsimp only
        rw [if_pos (by linarith)]
        obtain ⟨n2, b2, e2, i2⟩ := ihR ht.2 sR (l ++ n1) b1 hb1 d1 hin
        exact ⟨n1 ++ n2, b2, by rw [e2, List.append_assoc], List.mem_append_right _ i2⟩
    · rw [if_neg hx]
      obtain ⟨n1, b1, e1, d1, _, _, m1⟩ := findNN_spec hit c ref R ht.2 l b D hbD hDr
      have hb1 := m1 hb
      by_cases hin : h ∈ R.hits
      · obtain ⟨n1', b1', e1', i1⟩ := ihR ht.2 sR l b hb hbD hin
        rw [e1']
        rw [e1'] at e1
        simp only [Res.ok.injEq, Prod.mk.injEq, List.append_cancel_left_eq] at e1
        obtain ⟨rfl, rfl⟩ := e1
        dsimp only
        split
        · obtain ⟨n2, b2, e2, _⟩ := findNN_spec hit c ref L ht.1 (l ++ n1') b1' D d1 hDr
          exact ⟨n1' ++ n2, b2, by rw [e2, List.append_assoc], List.mem_append_left _ i1⟩
        · exact ⟨n1', b1', rfl, i1⟩
      · have hin : h ∈ L.hits := hmem.resolve_right hin
        have := hL h hin
        rw [e1]
        dsimp only
        rw [if_pos (by linarith)]
        obtain ⟨n2, b2, e2, i2⟩ := ihL ht.1 sL (l ++ n1) b1 hb1 d1 hin
        exact ⟨n1 ++ n2, b2, by rw [e2, List.append_assoc], List.mem_append_right _ i2⟩

/-- **C59** (partial). On a tree built from a hit list, starting from a finite distance not below the reference distance,
every other compatible hit whose separation *and* whose three coordinate differences are below the reference distance is
found. Missing: hits below the reference separation with a larger drift (x) difference, see the refutation. -/
theorem C59_close_hits_found_partial (hit : Nat → Hit) (sort : (Nat → ℚ) → List Nat → List Nat) (hs : SortOk sort)
    (hits : List Nat) (fuel : Nat) (hf : hits.length ≤ fuel) (t : Tree) (ht : build hit sort fuel hits = some t)
    (c : Cfg) (ref h : Nat) (hh : h ∈ hits) (hne : h ≠ ref) (hcomp : Compatible hit c ref h)
    (hclose : c.sep ref h < c.refBest) (hw : Within hit c.refBest ref h) (b : ℚ) (hb : c.refBest ≤ b) (hbig : b < c.big) :
    ∃ new b', findNN hit c ref t ([], b) = .ok (new, b') ∧ (c.sep ref h, h) ∈ new := by
  obtain ⟨t', h1, h2, h3, h4⟩ := C28_build hit sort hs hits (by rintro rfl; simp at hh) fuel hf
  rw [ht] at h1
  cases h1
  obtain ⟨new, b', e, m⟩ := findNN_complete hit c ref t h3 h4 [] b b hb (le_refl _) hbig h (h2.mem_iff.2 hh) hne
    ((compat_iff hit c ref h).2 hcomp)
    hclose hw
  exact ⟨new, b', by simpa using e, m⟩

/-! ## C60: FindEntry -/

theorem findEntry_spec (hit : Nat → Hit) (c : Cfg) (hsepPos : ∀ p q, 0 < c.sep p q) (ref : Nat) (t : Tree) (ht : t.NoNull)
    (hsep : t.Separates hit) (s : FE) (hb : 0 < s.best) (hn : s.notFound = true) :
    findEntry hit c ref t s = .ok (decide (ref ∈ t.hits), { s with notFound := ! decide (ref ∈ t.hits) }) := by
  induction t generalizing s with
  | null => exact ht.elim
  | leaf x =>
    unfold findEntry consistentPairs
    have hc : ¬ ((0 : ℚ) < c.big ∧ compat hit c ref x = true ∧ c.sep ref x < 0) := by
      rintro ⟨_, _, h⟩; linarith [hsepPos ref x]
    simp only [hc, if_false, Bool.false_eq_true]
    by_cases hr : ref = x
    · subst hr; simp [Tree.hits]
    · simp [hr, Tree.hits, hn]
  | node a v L R ihL ihR =>
    obtain ⟨ha, hL, hR, sL, sR⟩ := hsep
    have hs' : ({ s with notFound := true } : FE) = s := by cases s; simp at hn; simp [hn]
    unfold findEntry
    dsimp only
    by_cases hx : (hit ref).pos a < v
    · rw [if_pos hx, ihL ht.1 sL s hb hn]
      by_cases hin : ref ∈ L.hits
      · simp [hin, Tree.hits]
      · have hnR : ref ∉ R.hits := fun h => by linarith [hR ref h]
        simp only [hin, decide_false, Bool.not_false, hs', ihR ht.2 sR s hb hn, hnR, Tree.hits, List.mem_append, or_self]
        split <;> rfl
    · rw [if_neg hx, ihR ht.2 sR s hb hn]
      by_cases hin : ref ∈ R.hits
      · simp [hin, Tree.hits]
      · simp only [hin, decide_false, Bool.not_false, hs', ihL ht.1 sL s hb hn, Tree.hits, List.mem_append, or_false]
        by_cases hinL : ref ∈ L.hits
        · have := hL ref hinL
          rw [if_pos (by linarith)]
        · simp only [hinL, decide_false, Bool.not_false, hs']
          split <;> rfl

/-- **C60**. With a positive search distance, `FindEntry` on the tree of a hit list answers whether the hit is in the
list, for any sorting function. -/
theorem C60_find_entry (hit : Nat → Hit) (sort : (Nat → ℚ) → List Nat → List Nat) (hs : SortOk sort) (hits : List Nat)
    (hne : hits ≠ []) (fuel : Nat) (hf : hits.length ≤ fuel) (c : Cfg) (hsepPos : ∀ p q, 0 < c.sep p q) (ref : Nat)
    (cands : List (ℚ × Nat)) (b : ℚ) (hb : 0 < b) :
    ∃ t s, build hit sort fuel hits = some t ∧
      findEntry hit c ref t { cands := cands, best := b, notFound := true } = .ok (decide (ref ∈ hits), s) ∧
      -- and it never collects a candidate nor changes the distance (the separation limit it passes on is zero)
      s.cands = cands ∧ s.best = b := by
  obtain ⟨t, h1, h2, h3, h4⟩ := C28_build hit sort hs hits hne fuel hf
  refine ⟨t, { cands := cands, best := b, notFound := ! decide (ref ∈ hits) }, h1, ?_, ?_⟩
  · rw [findEntry_spec hit c hsepPos ref t h3 h4 _ hb rfl]
    have : decide (ref ∈ t.hits) = decide (ref ∈ hits) := by simp [h2.mem_iff]
    rw [this]
  · exact ⟨rfl, rfl⟩

/-! ## Concrete cases -/

/-- insertion sort, a concrete `std::sort` -/
def ins (key : Nat → ℚ) (x : Nat) : List Nat → List Nat
  | [] => [x]
  | y :: t => if key x ≤ key y then x :: y :: t else y :: ins key x t
def isort (key : Nat → ℚ) (l : List Nat) : List Nat := l.foldr (ins key) []

theorem ins_perm (key : Nat → ℚ) (x : Nat) (l : List Nat) : (ins key x l).Perm (x :: l) := by
  induction l with
  | nil => exact List.Perm.refl _
  | cons y t ih =>
    unfold ins
    split
    · exact List.Perm.refl _
    · exact (ih.cons y).trans (List.Perm.swap x y t)

theorem ins_sorted (key : Nat → ℚ) (x : Nat) (l : List Nat) (h : l.Pairwise (fun a b => key a ≤ key b)) :
    (ins key x l).Pairwise (fun a b => key a ≤ key b) := by
  induction l with
  | nil => simp [ins]
  | cons y t ih =>
    obtain ⟨h1, h2⟩ := List.pairwise_cons.1 h
    unfold ins
    split
    · rename_i hxy
      refine List.pairwise_cons.2 ⟨?_, h⟩
      intro z hz
      rcases List.mem_cons.1 hz with e | e
      · subst e; exact hxy
      · exact le_trans hxy (h1 z e)
    · rename_i hxy
      refine List.pairwise_cons.2 ⟨?_, ih h2⟩
      intro z hz
      rcases List.mem_cons.1 ((ins_perm key x t).mem_iff.1 hz) with e | e
      · subst e; exact le_of_not_ge hxy
      · exact h1 z e

/-- the contract of `std::sort` is satisfiable -/
theorem isort_ok : SortOk isort := by
  intro key l
  induction l with
  | nil => exact ⟨List.Perm.refl _, List.Pairwise.nil⟩
  | cons x t ih =>
    exact ⟨(ins_perm key x _).trans (ih.1.cons x), ins_sorted key x _ ih.2⟩

/-- four hits; hits 1 and 2 have the same x -/
def exHit : Nat → Hit := fun i =>
  { pos := fun a => if a = 0 then [0, 10, 10, 30].getD i 0 else if a = 1 then (i : ℚ) / 10 else 0,
    cryostat := 0, tpc := 0, wires := fun _ => 0, time := 0, sigma := 1 }
def exCfg : Cfg := { nSigma := 3, refBest := 1, big := 1000000, sep := fun p q => |(p : ℚ) - q| / 10 + 1 / 10000 }

example : build exHit isort 4 [3, 0, 2, 1] =
    some (.node 0 5 (.leaf 0) (.node 0 10 (.leaf 2) (.node 0 20 (.leaf 1) (.leaf 3)))) := by decide +kernel

/-- **C59** (refuted in full). The pruning compares the separation in the y-z plane with differences along x: hit 3 is
compatible and only 0.3 away from hit 0 in the y-z plane, less than the reference distance 1, but it is not found. -/
theorem C59_refuted : ∃ (t : Tree) (res : List (ℚ × Nat) × ℚ), build exHit isort 4 [3, 0, 2, 1] = some t ∧
    findNN exHit exCfg 0 t ([], 3 / 2) = .ok res ∧ Compatible exHit exCfg 0 3 ∧ exCfg.sep 0 3 < exCfg.refBest ∧
    3 ∈ t.hits ∧ ∀ p ∈ res.1, p.2 ≠ 3 := by
  refine ⟨.node 0 5 (.leaf 0) (.node 0 10 (.leaf 2) (.node 0 20 (.leaf 1) (.leaf 3))), ([], 1), by decide +kernel,
    by decide +kernel, (compat_iff _ _ _ _).1 (by decide +kernel), by decide +kernel, by decide, by simp⟩

/-- neighbour search and membership on the concrete tree -/
example : findNN exHit exCfg 1 (.node 0 5 (.leaf 0) (.node 0 10 (.leaf 2) (.node 0 20 (.leaf 1) (.leaf 3)))) ([], 3 / 2) =
    .ok ([(1 / 10 + 1 / 10000, 2)], 1) ∧
  findBrute 3 (.node 0 5 (.leaf 0) (.node 0 10 (.leaf 2) (.node 0 20 (.leaf 1) (.leaf 3)))) = .ok true ∧
  (findEntry exHit exCfg 2 (.node 0 5 (.leaf 0) (.node 0 10 (.leaf 2) (.node 0 20 (.leaf 1) (.leaf 3))))
    { cands := [], best := 1, notFound := true }).isOk = true := by decide +kernel

/-- hypotheses of `C59_close_hits_found_partial` are met by hits 1 and 2 -/
example : Compatible exHit exCfg 1 2 ∧ exCfg.sep 1 2 < exCfg.refBest ∧
    (∀ a, a < 3 → |(exHit 1).pos a - (exHit 2).pos a| < exCfg.refBest) := by
  refine ⟨(compat_iff _ _ _ _).1 (by decide +kernel), by decide +kernel, ?_⟩
  intro a ha
  have : a = 0 ∨ a = 1 ∨ a = 2 := by omega
  rcases this with rfl | rfl | rfl <;> decide +kernel

end Verif.KdTree

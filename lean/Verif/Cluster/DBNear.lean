import Mathlib.Analysis.SpecialFunctions.Exp
import Mathlib.Tactic.Linarith
import Mathlib.Tactic.Positivity
import Mathlib.Tactic.NormNum
import Mathlib.Tactic.FieldSimp
import Mathlib.Tactic.Ring

/-!
Model of the two neighbourhood searches of `larreco/RecoAlg/DBScanAlg.cxx`: the pairwise one (`getSimilarity`, `getSimilarity2`, `getWidthFactor`, `findNeighbors`) and the one that goes
through the R*-tree (`AcceptFindNeighbors`, `RegionQuery`), and C104.

Floating point numbers are real numbers.  The R*-tree is an external library: it is any tree whose boxes contain those of their children; a query visits the children of the accepted nodes.
-/
namespace Verif.DBNear

noncomputable section

/-- an R*-tree bounding box: first and second of `edges[0]` (wires, in cm) and `edges[1]` (time, in cm) -/
structure Box where
  lo0 : ℝ
  hi0 : ℝ
  lo1 : ℝ
  hi1 : ℝ

/-- a hit as `InitScan` stores it in `fps`, DBScanAlg.cxx:305-319: wire position, time, width -/
structure Pt where
  x : ℝ
  t : ℝ
  w : ℝ

/-- `dbsPoint pp(p[0], p[1], 0.0, p[2] / 2.0)` and `dbsPoint::bounds`, DBScanAlg.cxx:35-44, 328 -/
def Pt.box (p : Pt) : Box := ⟨p.x - |0|, p.x + |0|, p.t - |p.w / 2|, p.t + |p.w / 2|⟩

/-- `center`, DBScanAlg.cxx:150-156: the two coordinates of the point-like box -/
def Box.c0 (b : Box) : ℝ := (b.lo0 + b.hi0) / 2
def Box.c1 (b : Box) : ℝ := (b.lo1 + b.hi1) / 2

/-- the parameters of the acceptor, DBScanAlg.cxx:132-148; `sum` is `fBadWireSum` -/
structure Par where
  eps0 : ℝ
  eps1 : ℝ
  maxWidth : ℝ
  wireDist : ℝ
  sum : List Nat

/-- `(unsigned int)(x / wire_dist + 0.5)`, DBScanAlg.cxx:171-172, 364-366 -/
def wireOf (d x : ℝ) : Nat := ⌊x / d + 0.5⌋₊

/-- the "clamp" of DBScanAlg.cxx:175-176 -/
def clampWire (sum : List Nat) (w : Nat) : Nat := if w < sum.length then sum.length else w

/-- `fBadWireSum[i]`, DBScanAlg.cxx:180; what is read beyond the end is whatever the memory has there -/
def readSum (sum : List Nat) (mem : Nat → Nat) (i : Nat) : Nat := if h : i < sum.length then sum[i] else mem i

/-- `lar::util::absDiff` -/
def absDiff (a b : Nat) : Nat := if a < b then b - a else a - b

/-- the width factor clamped to [1, 6.25], DBScanAlg.cxx:192-196 (and `getWidthFactor`, 425-449, with the same result) -/
def wFactor (w1 w2 : ℝ) : ℝ := min (max (Real.exp (4.6 * (w1 * w1 + w2 * w2)) * 0.1) 1) 6.25

/-- the value compared with 1, DBScanAlg.cxx:183-190, 199, for `br` wires to bridge -/
def metric (e0 e1 d : ℝ) (br : Nat) (t0 t1 b0 b1 W : ℝ) : ℝ :=
  let cm := br * d
  let sim := (|t0 - b0| - cm) ^ 2
  let cm2 := if |t0 - b0| > 1e-10 then cm * |(t1 - b1) / (t0 - b0)| else cm
  let sim2 := (|t1 - b1| - cm2) ^ 2
  sim / (e0 * e0) + sim2 / (e1 * e1 * W)

/-- wires to bridge in `isNear`, DBScanAlg.cxx:171-180 -/
def bridge (P : Par) (mem : Nat → Nat) (t0 b0 : ℝ) : Nat :=
  absDiff (readSum P.sum mem (clampWire P.sum (wireOf P.wireDist t0))) (readSum P.sum mem (clampWire P.sum (wireOf P.wireDist b0)))

/-- `isNear`, DBScanAlg.cxx:159-200, of the test box `q` (`fBound`) -/
def isNear (P : Par) (mem : Nat → Nat) (q b : Box) : Prop :=
  metric P.eps0 P.eps1 P.wireDist (bridge P mem q.c0 b.c0) q.c0 q.c1 b.c0 b.c1 (wFactor |q.hi1 - q.lo1| |b.hi1 - b.lo1|) ≤ 1

/-- `nearestPoint`, DBScanAlg.cxx:201-225; the second comparison is with `edges[0]` in both dimensions -/
def nearestPoint (P : Par) (q b : Box) : Box :=
  let n0 := if b.lo0 > q.c0 then b.lo0 else if b.hi0 < q.c0 then b.hi0 else q.c0
  let n1 := if b.lo1 > q.c1 then b.lo1 else if b.hi0 < q.c0 then b.hi1 else q.c1
  ⟨n0, n0, n1 - P.maxWidth / 2, n1 + P.maxWidth / 2⟩

/-- `overlaps` of the external bounding box class: the boxes have inner points in common -/
def overlaps (a b : Box) : Prop := a.lo0 < b.hi0 ∧ b.lo0 < a.hi0 ∧ a.lo1 < b.hi1 ∧ b.lo1 < a.hi1

/-- the acceptor for inner nodes, DBScanAlg.cxx:226-234 -/
def acceptNode (P : Par) (mem : Nat → Nat) (q b : Box) : Prop := overlaps q b ∨ isNear P mem q (nearestPoint P q b)

/-- a tree of boxes; a leaf holds the index of a hit (`RTree`, DBScanAlg.h:32) -/
inductive Tree where
  | leaf (i : Nat) (b : Box)
  | node (b : Box) (ch : List Tree)

open Classical in
/-- `fRTree.Query` with the acceptor, DBScanAlg.cxx:573-585: the indices of the leaves reached -/
def query (P : Par) (mem : Nat → Nat) (q : Box) : Tree → List Nat
  | .leaf i b => if isNear P mem q b then [i] else []
  | .node b ch => if acceptNode P mem q b then ch.attach.flatMap (fun c => query P mem q c.1) else []
termination_by t => t
decreasing_by
  have := c.2
  have h := List.sizeOf_lt_of_mem this
  simp only [Tree.node.sizeOf_spec]
  omega

/-- the leaves of a tree -/
def leaves : Tree → List (Nat × Box)
  | .leaf i b => [(i, b)]
  | .node _ ch => ch.attach.flatMap (fun c => leaves c.1)
termination_by t => t
decreasing_by
  have := c.2
  have h := List.sizeOf_lt_of_mem this
  simp only [Tree.node.sizeOf_spec]
  omega

/-- the pairwise similarity of two hits, `getSimilarity`, `getSimilarity2`, DBScanAlg.cxx:350-422: the number of dead wires from one to the other -/
def deadBetween (dead : Nat → Bool) (a b : Nat) : Nat := ((List.range (max a b)).filter (fun i => min a b ≤ i && dead i)).length

/-- the value that `findNeighbors` compares with 1, DBScanAlg.cxx:350-422, 461-463 -/
def pairMetric (e0 e1 d : ℝ) (dead : Nat → Bool) (p r : Pt) : ℝ :=
  let cm := (deadBetween dead (wireOf d p.x) (wireOf d r.x) : ℝ) * d
  let sim := (|r.x - p.x| - cm) ^ 2
  let cm2 := if |r.x - p.x| > 1e-10 then cm * |(r.t - p.t) / (r.x - p.x)| else 0
  let sim2 := (|r.t - p.t| - cm2) ^ 2
  sim / (e0 * e0) + sim2 / (e1 * e1 * wFactor p.w r.w)

/-- `findNeighbors`, DBScanAlg.cxx:454-469 -/
def pairNear (e0 e1 d : ℝ) (dead : Nat → Bool) (p r : Pt) : Prop := pairMetric e0 e1 d dead p r < 1

/-! ## The pairwise search -/

theorem wFactor_comm (a b : ℝ) : wFactor a b = wFactor b a := by unfold wFactor; rw [add_comm]

theorem wFactor_ge (a b : ℝ) : 1 ≤ wFactor a b := by
  unfold wFactor
  exact le_min (le_max_right _ _) (by norm_num)

theorem wFactor_le (a b : ℝ) : wFactor a b ≤ 6.25 := min_le_right _ _

theorem wFactor_mono {a b c : ℝ} (hb : 0 ≤ b) (h : b ≤ c) : wFactor a b ≤ wFactor a c := by
  unfold wFactor
  apply min_le_min_right
  apply max_le_max_right
  have : b * b ≤ c * c := mul_self_le_mul_self hb h
  have h2 : Real.exp (4.6 * (a * a + b * b)) ≤ Real.exp (4.6 * (a * a + c * c)) := Real.exp_le_exp.2 (by linarith)
  linarith

theorem deadBetween_comm (dead : Nat → Bool) (a b : Nat) : deadBetween dead a b = deadBetween dead b a := by
  unfold deadBetween; rw [max_comm, min_comm]

/-- **C104**: the pairwise relation is symmetric -/
theorem C104_pair_symm (e0 e1 d : ℝ) (dead : Nat → Bool) (p r : Pt) : pairNear e0 e1 d dead p r ↔ pairNear e0 e1 d dead r p := by
  unfold pairNear pairMetric
  have h1 : |r.x - p.x| = |p.x - r.x| := abs_sub_comm _ _
  have h2 : |r.t - p.t| = |p.t - r.t| := abs_sub_comm _ _
  have h3 : |(r.t - p.t) / (r.x - p.x)| = |(p.t - r.t) / (p.x - r.x)| := by rw [abs_div, abs_div, h1, h2]
  simp only [h1, h2, h3, deadBetween_comm dead (wireOf d p.x), wFactor_comm p.w]

/-! ## The search in the tree -/

/-- **C104**: whatever the hits and the parameters, the table of dead wires is read beyond its end, twice -/
theorem C104_read_past_end (P : Par) (x : ℝ) : P.sum.length ≤ clampWire P.sum (wireOf P.wireDist x) := by
  unfold clampWire; split <;> omega

/-- **C104**: for hits on wires of the detector the same element is read twice, so that no dead wire is ever bridged -/
theorem C104_no_bridge (P : Par) (mem : Nat → Nat) (t0 b0 : ℝ) (h1 : wireOf P.wireDist t0 < P.sum.length) (h2 : wireOf P.wireDist b0 < P.sum.length) : bridge P mem t0 b0 = 0 := by
  unfold bridge clampWire
  rw [if_pos h1, if_pos h2]
  unfold absDiff; split <;> omega

/-- without wires to bridge -/
def plain (e0 e1 : ℝ) (t0 t1 b0 b1 W : ℝ) : ℝ := (t0 - b0) ^ 2 / (e0 * e0) + (t1 - b1) ^ 2 / (e1 * e1 * W)

theorem metric_zero (e0 e1 d t0 t1 b0 b1 W : ℝ) : metric e0 e1 d 0 t0 t1 b0 b1 W = plain e0 e1 t0 t1 b0 b1 W := by
  unfold metric plain
  simp [sq_abs]

theorem box_c0 (p : Pt) : p.box.c0 = p.x := by unfold Pt.box Box.c0; simp
theorem box_c1 (p : Pt) : p.box.c1 = p.t := by unfold Pt.box Box.c1; simp
theorem box_w {p : Pt} (h : 0 ≤ p.w) : |p.box.hi1 - p.box.lo1| = p.w := by
  unfold Pt.box
  simp only
  have : |p.w / 2| = p.w / 2 := abs_of_nonneg (by linarith)
  rw [this]
  have : p.t + p.w / 2 - (p.t - p.w / 2) = p.w := by ring
  rw [this, abs_of_nonneg h]

/-- **C104**: without dead wires the tree search accepts a leaf exactly if the pairwise search accepts the hit or the hit is right on the border of the ellipse -/
theorem C104_leaf (P : Par) (mem : Nat → Nat) (p r : Pt) (hp : 0 ≤ p.w) (hr : 0 ≤ r.w) (h1 : wireOf P.wireDist p.x < P.sum.length) (h2 : wireOf P.wireDist r.x < P.sum.length)
    (dead : Nat → Bool) (hd : ∀ i, dead i = false) :
    isNear P mem p.box r.box ↔ pairNear P.eps0 P.eps1 P.wireDist dead p r ∨ pairMetric P.eps0 P.eps1 P.wireDist dead p r = 1 := by
  have hz : deadBetween dead (wireOf P.wireDist p.x) (wireOf P.wireDist r.x) = 0 := by
    unfold deadBetween; simp [hd]
  have hm : pairMetric P.eps0 P.eps1 P.wireDist dead p r = plain P.eps0 P.eps1 p.x p.t r.x r.t (wFactor p.w r.w) := by
    unfold pairMetric plain
    rw [hz, ← sq_abs (p.x - r.x), ← sq_abs (p.t - r.t), abs_sub_comm p.x, abs_sub_comm p.t]
    simp
  unfold isNear pairNear
  rw [box_c0, box_c0, box_c1, box_c1, box_w hp, box_w hr, C104_no_bridge P mem _ _ h1 h2, metric_zero, hm]
  exact le_iff_lt_or_eq

/-- **C104**: with dead wires the two searches differ: the hits on the wires 0 and 3, with the wires 1 and 2 dead, are neighbours for the pairwise search only -/
theorem C104_dead_refuted : ∃ (P : Par) (dead : Nat → Bool) (p r : Pt), 0 ≤ p.w ∧ 0 ≤ r.w ∧ wireOf P.wireDist p.x < P.sum.length ∧ wireOf P.wireDist r.x < P.sum.length ∧
    (∀ i < P.sum.length, P.sum[i]? = some (((List.range (i + 1)).filter dead).length)) ∧ pairNear P.eps0 P.eps1 P.wireDist dead p r ∧ ∀ mem, ¬ isNear P mem p.box r.box := by
  have w0 : wireOf 1 0 = 0 := by unfold wireOf; norm_num
  have w3 : wireOf 1 3 = 3 := by
    unfold wireOf
    rw [Nat.floor_eq_iff (by norm_num)]; norm_num
  refine ⟨⟨2, 1, 0, 1, [0, 1, 2, 2]⟩, fun i => i == 1 || i == 2, ⟨0, 0, 0⟩, ⟨3, 0, 0⟩, le_refl _, le_refl _, ?_, ?_, by decide, ?_, ?_⟩
  · simp only [w0]; simp
  · simp only [w3]; simp
  · unfold pairNear pairMetric
    simp only [w0, w3]
    have : deadBetween (fun i => i == 1 || i == 2) 0 3 = 2 := by decide
    rw [this]
    norm_num
  · intro mem
    unfold isNear
    rw [box_c0, box_c0, box_c1, box_c1, C104_no_bridge _ mem _ _ (by simp only [w0]; simp) (by simp only [w3]; simp), metric_zero]
    unfold plain
    norm_num

/-! ## Pruning -/

/-- `a` is inside of `b` -/
def Inside (a b : Box) : Prop := b.lo0 ≤ a.lo0 ∧ a.hi0 ≤ b.hi0 ∧ b.lo1 ≤ a.lo1 ∧ a.hi1 ≤ b.hi1

/-- the box is not on the lower side in wires with the time of the point inside of it: the case in which the swapped index does harm -/
def Safe (q b : Box) : Prop := ¬ (b.hi0 < q.c0 ∧ b.lo1 ≤ q.c1 ∧ q.c1 < b.hi1)

theorem sq_le_of_between {t n l : ℝ} (h : (t ≤ n ∧ n ≤ l) ∨ (l ≤ n ∧ n ≤ t)) : (t - n) ^ 2 ≤ (t - l) ^ 2 := by
  rcases h with ⟨h1, h2⟩ | ⟨h1, h2⟩ <;> nlinarith

theorem wireOf_mono {d x y : ℝ} (hd : 0 < d) (h : x ≤ y) : wireOf d x ≤ wireOf d y := by
  unfold wireOf
  apply Nat.floor_le_floor
  have := div_le_div_of_nonneg_right h hd.le
  linarith

/-- **C104**: outside of the bad case a node is accepted if a leaf anywhere in its box is near -/
theorem C104_node (P : Par) (mem : Nat → Nat) (q b l : Box) (hl : Inside l b) (hv : l.lo0 ≤ l.hi0 ∧ l.lo1 ≤ l.hi1) (hw : l.hi1 - l.lo1 ≤ P.maxWidth)
    (hd : 0 < P.wireDist) (hq : wireOf P.wireDist q.c0 < P.sum.length) (hlw' : wireOf P.wireDist l.c0 < P.sum.length) (he0 : P.eps0 ≠ 0) (he1 : P.eps1 ≠ 0) (hs : Safe q b) (h : isNear P mem q l) :
    acceptNode P mem q b := by
  right
  obtain ⟨i1, i2, i3, i4⟩ := hl
  obtain ⟨v0, v1⟩ := hv
  have hc0 : b.lo0 ≤ l.c0 ∧ l.c0 ≤ b.hi0 := by unfold Box.c0; constructor <;> linarith
  have hc1 : b.lo1 ≤ l.c1 ∧ l.c1 ≤ b.hi1 := by unfold Box.c1; constructor <;> linarith
  have hn0 : (nearestPoint P q b).c0 = if b.lo0 > q.c0 then b.lo0 else if b.hi0 < q.c0 then b.hi0 else q.c0 := by
    unfold nearestPoint; simp only [Box.c0]; ring
  have hn1 : (nearestPoint P q b).c1 = if b.lo1 > q.c1 then b.lo1 else if b.hi0 < q.c0 then b.hi1 else q.c1 := by
    unfold nearestPoint; simp only [Box.c1]; ring
  have hbet : (q.c0 ≤ (nearestPoint P q b).c0 ∧ (nearestPoint P q b).c0 ≤ l.c0) ∨ (l.c0 ≤ (nearestPoint P q b).c0 ∧ (nearestPoint P q b).c0 ≤ q.c0) := by
    rw [hn0]
    split
    · left; constructor <;> linarith
    · split
      · right; constructor <;> linarith
      · rcases le_total q.c0 l.c0 with h | h
        · left; exact ⟨le_refl _, h⟩
        · right; exact ⟨h, le_refl _⟩
  have hnwire : wireOf P.wireDist (nearestPoint P q b).c0 < P.sum.length := by
    rcases hbet with ⟨-, h1⟩ | ⟨-, h1⟩
    · exact lt_of_le_of_lt (wireOf_mono hd h1) hlw'
    · exact lt_of_le_of_lt (wireOf_mono hd h1) hq
  unfold isNear at h ⊢
  rw [C104_no_bridge P mem _ _ hq hlw', metric_zero] at h
  rw [C104_no_bridge P mem _ _ hq hnwire, metric_zero]
  refine le_trans ?_ h
  have hnw : |(nearestPoint P q b).hi1 - (nearestPoint P q b).lo1| = P.maxWidth := by
    unfold nearestPoint; simp only
    have : ∀ x : ℝ, x + P.maxWidth / 2 - (x - P.maxWidth / 2) = P.maxWidth := fun x => by ring
    rw [this, abs_of_nonneg (by linarith)]
  have hlw : |l.hi1 - l.lo1| = l.hi1 - l.lo1 := abs_of_nonneg (by linarith)
  rw [hnw, hlw]
  have hW : wFactor |q.hi1 - q.lo1| (l.hi1 - l.lo1) ≤ wFactor |q.hi1 - q.lo1| P.maxWidth := wFactor_mono (by linarith) hw
  have hW1 := wFactor_ge |q.hi1 - q.lo1| (l.hi1 - l.lo1)
  have he0' : 0 < P.eps0 * P.eps0 := mul_self_pos.2 he0
  have he1' : 0 < P.eps1 * P.eps1 := mul_self_pos.2 he1
  have d0 : (q.c0 - (nearestPoint P q b).c0) ^ 2 ≤ (q.c0 - l.c0) ^ 2 := by
    exact sq_le_of_between hbet
  have d1 : (q.c1 - (nearestPoint P q b).c1) ^ 2 ≤ (q.c1 - l.c1) ^ 2 := by
    apply sq_le_of_between
    rw [hn1]
    split
    · left; constructor <;> linarith
    · rename_i h1
      split
      · rename_i h2
        have : b.hi1 ≤ q.c1 := by
          by_contra h3
          exact hs ⟨h2, not_lt.1 h1, not_le.1 h3⟩
        right; constructor <;> linarith
      · rcases le_total q.c1 l.c1 with h | h
        · left; exact ⟨le_refl _, h⟩
        · right; exact ⟨h, le_refl _⟩
  unfold plain
  have a0 : (q.c0 - (nearestPoint P q b).c0) ^ 2 / (P.eps0 * P.eps0) ≤ (q.c0 - l.c0) ^ 2 / (P.eps0 * P.eps0) := div_le_div_of_nonneg_right d0 he0'.le
  have a1 : (q.c1 - (nearestPoint P q b).c1) ^ 2 / (P.eps1 * P.eps1 * wFactor |q.hi1 - q.lo1| P.maxWidth) ≤ (q.c1 - l.c1) ^ 2 / (P.eps1 * P.eps1 * wFactor |q.hi1 - q.lo1| (l.hi1 - l.lo1)) := by
    apply div_le_div₀ (sq_nonneg _) d1
    · exact mul_pos he1' (by linarith)
    · exact mul_le_mul_of_nonneg_left hW he1'.le
  linarith

/-- the contract of the tree: the boxes of the leaves are inside of the boxes of the nodes above them; and `Safe` for all nodes -/
inductive Good (q : Box) : Tree → Prop
  | leaf (i : Nat) (b : Box) : Good q (.leaf i b)
  | node (b : Box) (ch : List Tree) : Safe q b → (∀ c ∈ ch, ∀ l ∈ leaves c, Inside l.2 b) → (∀ c ∈ ch, Good q c) → Good q (.node b ch)

theorem mem_leaves_node {b : Box} {ch : List Tree} {l : Nat × Box} : l ∈ leaves (.node b ch) ↔ ∃ c ∈ ch, l ∈ leaves c := by
  rw [leaves]
  simp

theorem mem_query_node {P : Par} {mem : Nat → Nat} {q b : Box} {ch : List Tree} {i : Nat} :
    i ∈ query P mem q (.node b ch) ↔ acceptNode P mem q b ∧ ∃ c ∈ ch, i ∈ query P mem q c := by
  rw [query]
  by_cases h : acceptNode P mem q b
  · simp [h]
  · simp [h]

/-- **C104**: the tree search never gives a hit that is not near -/
theorem C104_query_sound (P : Par) (mem : Nat → Nat) (q : Box) (t : Tree) : ∀ i ∈ query P mem q t, ∃ b, (i, b) ∈ leaves t ∧ isNear P mem q b := by
  induction t using leaves.induct with
  | case1 i b =>
    intro j hj; rw [query] at hj
    by_cases h : isNear P mem q b
    · rw [if_pos h] at hj
      simp at hj; subst hj
      exact ⟨b, by rw [leaves]; simp, h⟩
    · rw [if_neg h] at hj; simp at hj
  | case2 b ch ih =>
    intro j hj
    obtain ⟨-, c, hc, hj⟩ := mem_query_node.1 hj
    obtain ⟨b', h1, h2⟩ := ih ⟨c, hc⟩ j hj
    exact ⟨b', mem_leaves_node.2 ⟨c, hc, h1⟩, h2⟩

/-- **C104**: as long as no node is in the bad position, the tree search gives exactly the hits whose leaf is near -/
theorem C104_query_partial (P : Par) (mem : Nat → Nat) (q : Box) (hd : 0 < P.wireDist) (hq : wireOf P.wireDist q.c0 < P.sum.length) (he0 : P.eps0 ≠ 0) (he1 : P.eps1 ≠ 0) (t : Tree) (hg : Good q t)
    (hl : ∀ l ∈ leaves t, l.2.lo0 ≤ l.2.hi0 ∧ l.2.lo1 ≤ l.2.hi1 ∧ l.2.hi1 - l.2.lo1 ≤ P.maxWidth ∧ wireOf P.wireDist l.2.c0 < P.sum.length) :
    ∀ i, i ∈ query P mem q t ↔ ∃ b, (i, b) ∈ leaves t ∧ isNear P mem q b := by
  intro i
  refine ⟨C104_query_sound P mem q t i, ?_⟩
  rintro ⟨b, hib, hn⟩
  induction t using leaves.induct with
  | case1 j b' =>
    rw [leaves] at hib
    simp at hib
    obtain ⟨rfl, rfl⟩ := hib
    rw [query, if_pos hn]; simp
  | case2 b' ch ih =>
    cases hg with
    | node _ _ g1 g2 g3 =>
    obtain ⟨c, hc, hcl⟩ := mem_leaves_node.1 hib
    obtain ⟨l1, l2, l3, l4⟩ := hl (i, b) hib
    refine mem_query_node.2 ⟨C104_node P mem q b' b (g2 c hc _ hcl) ⟨l1, l2⟩ l3 hd hq l4 he0 he1 g1 hn, c, hc, ?_⟩
    exact ih ⟨c, hc⟩ (g3 c hc) (fun l hl' => hl l (mem_leaves_node.2 ⟨c, hc, hl'⟩)) hcl

/-- two hits with the same time on the wires 4 and 5; the node of the first one also has a hit far away in time -/
def hitA : Pt := ⟨4, 0, 0⟩
def hitB : Pt := ⟨5, 0, 0⟩
def nodeA : Tree := .node ⟨4, 4, 0, 10⟩ [.leaf 0 hitA.box, .leaf 1 (Pt.box ⟨4, 10, 0⟩)]
def nodeB : Tree := .node ⟨5, 5, 0, 0⟩ [.leaf 2 hitB.box]
def parAB : Par := ⟨1.5, 1.5, 0, 1, [0, 0, 0, 0, 0, 0]⟩

theorem wire4 : wireOf 1 4 = 4 := by
  unfold wireOf
  rw [Nat.floor_eq_iff (by norm_num)]; norm_num

theorem wire5 : wireOf 1 5 = 5 := by
  unfold wireOf
  rw [Nat.floor_eq_iff (by norm_num)]; norm_num

theorem noBridge (mem : Nat → Nat) (x y : ℝ) (hx : x = 4 ∨ x = 5) (hy : y = 4 ∨ y = 5) : bridge parAB mem x y = 0 := by
  have h : ∀ x : ℝ, x = 4 ∨ x = 5 → wireOf parAB.wireDist x < parAB.sum.length := by
    rintro x (rfl | rfl)
    · show wireOf 1 4 < 6; rw [wire4]; norm_num
    · show wireOf 1 5 < 6; rw [wire5]; norm_num
  exact C104_no_bridge _ _ _ _ (h x hx) (h y hy)

theorem safe_example : Good hitA.box (.node ⟨4, 5, 0, 10⟩ [nodeA, nodeB]) := by
  have hc0 : hitA.box.c0 = 4 := box_c0 _
  refine .node _ _ ?_ ?_ ?_
  · unfold Safe; rw [hc0]; norm_num
  · intro c hc l hl
    simp at hc
    rcases hc with rfl | rfl
    · unfold nodeA at hl
      obtain ⟨c, hc, hl⟩ := mem_leaves_node.1 hl
      simp at hc
      rcases hc with rfl | rfl <;> (rw [leaves] at hl; simp at hl; subst hl; simp [Inside, Pt.box, hitA]; try norm_num)
    · unfold nodeB at hl
      obtain ⟨c, hc, hl⟩ := mem_leaves_node.1 hl
      simp at hc
      subst hc
      rw [leaves] at hl; simp at hl; subst hl; simp [Inside, Pt.box, hitB]; try norm_num
  · intro c hc
    simp at hc
    rcases hc with rfl | rfl
    · refine .node _ _ ?_ ?_ ?_
      · unfold Safe; rw [hc0]; norm_num
      · intro c hc l hl
        simp at hc
        rcases hc with rfl | rfl <;> (rw [leaves] at hl; simp at hl; subst hl; simp [Inside, Pt.box, hitA])
      · intro c hc
        simp at hc
        rcases hc with rfl | rfl <;> exact .leaf _ _
    · refine .node _ _ ?_ ?_ ?_
      · unfold Safe; rw [hc0]; norm_num
      · intro c hc l hl
        simp at hc
        subst hc
        rw [leaves] at hl; simp at hl; subst hl; simp [Inside, Pt.box, hitB]
      · intro c hc
        simp at hc
        subst hc; exact .leaf _ _

theorem leaves_example : ∀ l ∈ leaves (.node ⟨4, 5, 0, 10⟩ [nodeA, nodeB]),
    l.2.lo0 ≤ l.2.hi0 ∧ l.2.lo1 ≤ l.2.hi1 ∧ l.2.hi1 - l.2.lo1 ≤ parAB.maxWidth ∧ wireOf parAB.wireDist l.2.c0 < parAB.sum.length := by
  have h4 : wireOf parAB.wireDist 4 < parAB.sum.length := by show wireOf 1 4 < 6; rw [wire4]; norm_num
  have h5 : wireOf parAB.wireDist 5 < parAB.sum.length := by show wireOf 1 5 < 6; rw [wire5]; norm_num
  have hw : ∀ x t : ℝ, (x = 4 ∨ x = 5) → (Pt.box ⟨x, t, 0⟩).lo0 ≤ (Pt.box ⟨x, t, 0⟩).hi0 ∧ (Pt.box ⟨x, t, 0⟩).lo1 ≤ (Pt.box ⟨x, t, 0⟩).hi1 ∧ (Pt.box ⟨x, t, 0⟩).hi1 - (Pt.box ⟨x, t, 0⟩).lo1 ≤ parAB.maxWidth ∧
      wireOf parAB.wireDist (Pt.box ⟨x, t, 0⟩).c0 < parAB.sum.length := by
    intro x t hx
    refine ⟨by simp [Pt.box], by simp [Pt.box], by simp [Pt.box, parAB], ?_⟩
    rw [box_c0]
    rcases hx with rfl | rfl
    · exact h4
    · exact h5
  intro l hl
  obtain ⟨c, hc, hl⟩ := mem_leaves_node.1 hl
  simp at hc
  rcases hc with rfl | rfl
  · unfold nodeA at hl
    obtain ⟨c, hc, hl⟩ := mem_leaves_node.1 hl
    simp at hc
    rcases hc with rfl | rfl <;> (rw [leaves] at hl; simp at hl; subst hl; exact hw _ _ (Or.inl rfl))
  · unfold nodeB at hl
    obtain ⟨c, hc, hl⟩ := mem_leaves_node.1 hl
    simp at hc
    subst hc
    rw [leaves] at hl; simp at hl; subst hl; exact hw _ _ (Or.inr rfl)

theorem nearAB (mem : Nat → Nat) : isNear parAB mem hitA.box hitB.box := by
  unfold isNear
  rw [box_c0, box_c0, box_c1, box_c1, noBridge mem hitA.x hitB.x (Or.inl rfl) (Or.inr rfl), metric_zero]
  unfold plain hitA hitB parAB
  norm_num

/-- the hypotheses of `C104_query_partial` are met: from hit A, hit B is found -/
theorem foundB (mem : Nat → Nat) : 2 ∈ query parAB mem hitA.box (.node ⟨4, 5, 0, 10⟩ [nodeA, nodeB]) := by
  rw [C104_query_partial parAB _ _ (by norm_num [parAB]) (by rw [box_c0]; show wireOf 1 4 < 6; rw [wire4]; norm_num) (by norm_num [parAB]) (by norm_num [parAB]) _ safe_example leaves_example]
  exact ⟨hitB.box, mem_leaves_node.2 ⟨nodeB, by simp, mem_leaves_node.2 ⟨_, List.mem_singleton.2 rfl, by rw [leaves]; simp⟩⟩, nearAB mem⟩

/-- **C104**: the swapped index makes the search lose neighbours, and the neighbourhood is not symmetric: hit A finds hit B, hit B does not find hit A -/
theorem C104_prune_refuted : ∃ (P : Par) (t : Tree) (p r : Pt) (i j : Nat), (i, p.box) ∈ leaves t ∧ (j, r.box) ∈ leaves t ∧
    (∀ mem, isNear P mem p.box r.box ∧ isNear P mem r.box p.box ∧ j ∈ query P mem p.box t ∧ i ∉ query P mem r.box t) := by
  refine ⟨parAB, .node ⟨4, 5, 0, 10⟩ [nodeA, nodeB], hitA, hitB, 0, 2, ?_, ?_, ?_⟩
  · exact mem_leaves_node.2 ⟨nodeA, by simp, mem_leaves_node.2 ⟨.leaf 0 hitA.box, by simp, by rw [leaves]; simp⟩⟩
  · exact mem_leaves_node.2 ⟨nodeB, by simp, mem_leaves_node.2 ⟨.leaf 2 hitB.box, by simp, by rw [leaves]; simp⟩⟩
  · intro mem
    have near2 : isNear parAB mem hitB.box hitA.box := by
      unfold isNear
      rw [box_c0, box_c0, box_c1, box_c1, noBridge mem hitB.x hitA.x (Or.inr rfl) (Or.inl rfl), metric_zero]
      unfold plain hitA hitB parAB
      norm_num
    refine ⟨nearAB mem, near2, foundB mem, ?_⟩
    · intro h
      obtain ⟨-, c, hc, h⟩ := mem_query_node.1 h
      simp at hc
      rcases hc with rfl | rfl
      · unfold nodeA at h
        obtain ⟨ha, -⟩ := mem_query_node.1 h
        have hc0 : hitB.box.c0 = 5 := box_c0 _
        have hc1 : hitB.box.c1 = 0 := box_c1 _
        rcases ha with ha | ha
        · unfold overlaps at ha
          have : hitB.box.lo0 = 5 := by simp [Pt.box, hitB]
          rw [this] at ha
          norm_num at ha
        · unfold isNear at ha
          have e0 : (nearestPoint parAB hitB.box ⟨4, 4, 0, 10⟩).c0 = 4 := by
            unfold nearestPoint; rw [hc0]; norm_num [Box.c0]
          have e1 : (nearestPoint parAB hitB.box ⟨4, 4, 0, 10⟩).c1 = 10 := by
            unfold nearestPoint; rw [hc0, hc1]; norm_num [Box.c1]
          rw [e0, e1, hc0, hc1, noBridge mem _ _ (Or.inr rfl) (Or.inl rfl), metric_zero] at ha
          generalize hW : wFactor _ _ = W at ha
          have hW1 : 1 ≤ W := hW ▸ wFactor_ge _ _
          have hW2 : W ≤ 6.25 := hW ▸ wFactor_le _ _
          unfold plain parAB at ha
          have h3 : (6.25 : ℝ) < (0 - 10) ^ 2 / (1.5 * 1.5 * W) * 1 := by
            rw [mul_one, lt_div_iff₀ (by linarith)]
            nlinarith
          have h4 : (0 : ℝ) ≤ (5 - 4) ^ 2 / (1.5 * 1.5) := by norm_num
          simp only at ha
          linarith
      · unfold nodeB at h
        obtain ⟨-, c, hc, h⟩ := mem_query_node.1 h
        simp at hc; subst hc
        rw [query] at h
        split at h <;> simp at h

end

end Verif.DBNear

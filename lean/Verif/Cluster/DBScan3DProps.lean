import Verif.Cluster.DBScan3DProofs
import Mathlib.Data.Finset.Card
import Mathlib.Tactic.IntervalCases
/-!
# C20, C21, C22: DBSCAN on space points
The specification speaks only about the points: who is within epsilon of whom (`Within`, from the configured
distance), how many such neighbours a point has, and chains of core points.
-/
namespace Verif.DBScan3D

/-! ## Specification -/

/-- points `i ≠ j` of the list are within epsilon of each other: squared Euclidean distance at most epsilon squared plus
the squared allowance for the bad channels of both points -/
def Within (eps w : ℚ) (pts : List Pt) (i j : Nat) : Prop :=
  i ≠ j ∧ ∃ a b, pts[i]? = some a ∧ pts[j]? = some b ∧
    (a.x - b.x) ^ 2 + (a.y - b.y) ^ 2 + (a.z - b.z) ^ 2 ≤ eps ^ 2 + ((a.bad + b.bad) * w) ^ 2

/-- core point: at least `minpts` other points within epsilon -/
def IsCore (eps w : ℚ) (minpts : Nat) (pts : List Pt) (i : Nat) : Prop :=
  i < pts.length ∧ ∃ s : Finset Nat, (∀ j ∈ s, Within eps w pts i j) ∧ minpts ≤ s.card

/-- linked by a chain of core points, each within epsilon of the next -/
def Linked (eps w : ℚ) (minpts : Nat) (pts : List Pt) : Nat → Nat → Prop :=
  Relation.ReflTransGen (fun i j => IsCore eps w minpts pts i ∧ IsCore eps w minpts pts j ∧ Within eps w pts i j)

/-! ## Bridging -/

theorem near_iff {eps w : ℚ} {pts : List Pt} {i j : Nat} :
    near eps w pts i j = true ↔ ∃ a b, pts[i]? = some a ∧ pts[j]? = some b ∧ dist w a b ≤ eps * eps := by
  unfold near
  cases pts[i]? <;> cases pts[j]? <;> simp

theorem dist_le_iff (eps w : ℚ) (a b : Pt) : dist w a b ≤ eps * eps ↔
    (a.x - b.x) ^ 2 + (a.y - b.y) ^ 2 + (a.z - b.z) ^ 2 ≤ eps ^ 2 + ((a.bad + b.bad) * w) ^ 2 := by
  unfold dist
  have he : 0 ≤ eps * eps := mul_self_nonneg eps
  rw [max_le_iff]
  push_cast
  constructor
  · rintro ⟨h, _⟩; nlinarith
  · intro h; exact ⟨by nlinarith, he⟩

theorem within_iff {eps w : ℚ} {pts : List Pt} {i j : Nat} :
    Within eps w pts i j ↔ j ∈ nbrs pts.length (near eps w pts) i := by
  rw [mem_nbrs, near_iff, Within]
  constructor
  · rintro ⟨h1, a, b, h2, h3, h4⟩
    exact ⟨(List.getElem?_eq_some_iff.1 h3).1, fun e => h1 e.symm, a, b, h2, h3, (dist_le_iff eps w a b).2 h4⟩
  · rintro ⟨_, h1, a, b, h2, h3, h4⟩
    exact ⟨fun e => h1 e.symm, a, b, h2, h3, (dist_le_iff eps w a b).1 h4⟩

theorem isCore_iff {eps w : ℚ} {minpts : Nat} {pts : List Pt} {i : Nat} (hi : i < pts.length) :
    IsCore eps w minpts pts i ↔ Core pts.length minpts (near eps w pts) i := by
  unfold IsCore Core
  constructor
  · rintro ⟨_, s, h1, h2⟩
    refine h2.trans ?_
    rw [← List.toFinset_card_of_nodup (nodup_nbrs i)]
    exact Finset.card_le_card (fun j hj => by rw [List.mem_toFinset, ← within_iff]; exact h1 j hj)
  · intro h
    refine ⟨hi, (nbrs pts.length (near eps w pts) i).toFinset, ?_, ?_⟩
    · intro j hj; rw [within_iff]; exact List.mem_toFinset.1 hj
    · rw [List.toFinset_card_of_nodup (nodup_nbrs i)]; exact h

theorem linked_iff {eps w : ℚ} {minpts : Nat} {pts : List Pt} {i j : Nat} :
    Linked eps w minpts pts i j ↔ Conn pts.length minpts (near eps w pts) i j := by
  unfold Linked Conn
  have : (fun i j => IsCore eps w minpts pts i ∧ IsCore eps w minpts pts j ∧ Within eps w pts i j) =
      CoreStep pts.length minpts (near eps w pts) := by
    funext a b
    apply propext
    unfold CoreStep
    constructor
    · rintro ⟨h1, h2, h3⟩
      exact ⟨h1.1, (isCore_iff h1.1).1 h1, (isCore_iff h2.1).1 h2, within_iff.1 h3⟩
    · rintro ⟨h1, h2, h3, h4⟩
      exact ⟨(isCore_iff h1).2 h2, (isCore_iff (mem_nbrs.1 h4).1).2 h3, within_iff.2 h4⟩
  rw [this]

/-! ## Properties. Termination is part of each statement: a budget of `2·(number of points)` seed visits per cluster
suffices. -/

/-- **C20.** `dbscan()` returns; no point is left unclassified; a point is labelled noise exactly when it is not a core
point and no core point is within epsilon of it; a non-core, non-noise point carries the label of a core point within
epsilon of it. -/
theorem C20_labels (eps w : ℚ) (minpts : Nat) (pts : List Pt) (fuel : Nat) (hf : 2 * pts.length ≤ fuel) :
    ∃ lab k, dbscan fuel eps w minpts pts = some (lab, k) ∧
      (∀ i < pts.length, lab i ≠ UNCLASSIFIED ∧
        (lab i = NOISE ↔ ¬ IsCore eps w minpts pts i ∧
          ∀ j, IsCore eps w minpts pts j → ¬ Within eps w pts i j) ∧
        (lab i ≠ NOISE → ¬ IsCore eps w minpts pts i →
          ∃ j, IsCore eps w minpts pts j ∧ Within eps w pts i j ∧ lab j = lab i)) := by
  have hs := near_symm eps w pts
  obtain ⟨lab, k, h1, hi, h3⟩ := dbscanOn_spec (minpts := minpts) hs fuel hf
  refine ⟨lab, k, h1, fun i hin => ⟨h3 i hin, ⟨?_, ?_⟩, ?_⟩⟩
  · intro hn
    refine ⟨fun hc => hi.noise i hin hn ((isCore_iff hin).1 hc), fun j hj hw => ?_⟩
    have hjc := (isCore_iff hj.1).1 hj
    have hj0 : 0 ≤ lab j := by
      rcases hi.range j hj.1 with h | h | h
      · exact absurd h (h3 j hj.1)
      · exact absurd hjc (hi.noise j hj.1 h)
      · exact h.1
    have := (hi.closed j hj.1 hjc hj0 i (nb_symm hs hin (within_iff.1 hw))).1
    rw [hn] at this
    simp [NOISE] at this
  · rintro ⟨hnc, hno⟩
    rcases hi.range i hin with h | h | h
    · exact absurd h (h3 i hin)
    · exact h
    · obtain ⟨j, hj, hjc, _⟩ := hi.border i hin (fun hc => hnc ((isCore_iff hin).2 hc)) h.1
      exact absurd (within_iff.2 hj) (hno j ((isCore_iff (mem_nbrs.1 hj).1).2 hjc))
  · intro hn hnc
    rcases hi.range i hin with h | h | h
    · exact absurd h (h3 i hin)
    · exact absurd h hn
    · obtain ⟨j, hj, hjc, hjl⟩ := hi.border i hin (fun hc => hnc ((isCore_iff hin).2 hc)) h.1
      exact ⟨j, (isCore_iff (mem_nbrs.1 hj).1).2 hjc, within_iff.2 hj, hjl⟩

/-- **C21.** Two core points get the same cluster id exactly when they are linked by a chain of core points. -/
theorem C21_density_components (eps w : ℚ) (minpts : Nat) (pts : List Pt) (fuel : Nat) (hf : 2 * pts.length ≤ fuel) :
    ∃ lab k, dbscan fuel eps w minpts pts = some (lab, k) ∧
      ∀ i j, IsCore eps w minpts pts i → IsCore eps w minpts pts j →
        (lab i = lab j ↔ Linked eps w minpts pts i j) := by
  have hs := near_symm eps w pts
  obtain ⟨lab, k, h1, hi, h3⟩ := dbscanOn_spec (minpts := minpts) hs fuel hf
  have hpos : ∀ i, i < pts.length → Core pts.length minpts (near eps w pts) i → 0 ≤ lab i := by
    intro i hin hc
    rcases hi.range i hin with h | h | h
    · exact absurd h (h3 i hin)
    · exact absurd hc (hi.noise i hin h)
    · exact h.1
  refine ⟨lab, k, h1, fun i j hic hjc => ?_⟩
  rw [linked_iff]
  have hic' := (isCore_iff hic.1).1 hic
  have hjc' := (isCore_iff hjc.1).1 hjc
  constructor
  · intro he
    exact hi.conn i j hic.1 hjc.1 hic' hjc' (hpos i hic.1 hic') he
  · intro hc
    clear hjc hjc'
    induction hc with
    | refl => rfl
    | tail _ hs2 ih =>
      rw [ih]
      exact ((hi.closed _ hs2.1 hs2.2.1 (hpos _ hs2.1 hs2.2.1) _ hs2.2.2.2).2 hs2.2.2.1).symm

/-- **C22.** The cluster ids in use are exactly `0..k-1` and each is carried by a core point. -/
theorem C22_ids_contiguous (eps w : ℚ) (minpts : Nat) (pts : List Pt) (fuel : Nat) (hf : 2 * pts.length ≤ fuel) :
    ∃ lab k, dbscan fuel eps w minpts pts = some (lab, k) ∧
      (∀ i < pts.length, lab i = NOISE ∨ ∃ id : Nat, id < k ∧ lab i = id) ∧
      (∀ id < k, ∃ i, IsCore eps w minpts pts i ∧ lab i = (id : Int)) := by
  have hs := near_symm eps w pts
  obtain ⟨lab, k, h1, hi, h3⟩ := dbscanOn_spec (minpts := minpts) hs fuel hf
  refine ⟨lab, k, h1, fun i hin => ?_, fun id hid => ?_⟩
  · rcases hi.range i hin with h | h | h
    · exact absurd h (h3 i hin)
    · exact Or.inl h
    · right
      refine ⟨(lab i).toNat, by omega, by omega⟩
  · obtain ⟨j, hj, hjc, hjl⟩ := hi.used id hid
    exact ⟨j, (isCore_iff hj).2 hjc, hjl⟩

/-! ### Independence of the input order -/

/-- `σ` maps the points of `pts` one to one to equal points of `pts'` -/
structure Reordering (pts pts' : List Pt) (σ τ : Nat → Nat) : Prop where
  to_pt : ∀ i < pts.length, σ i < pts'.length ∧ pts'[σ i]? = pts[i]? ∧ τ (σ i) = i
  back : ∀ i < pts'.length, τ i < pts.length ∧ σ (τ i) = i

theorem Reordering.symm {pts pts' : List Pt} {σ τ : Nat → Nat} (h : Reordering pts pts' σ τ) :
    Reordering pts' pts τ σ where
  to_pt i hi := by
    obtain ⟨a, b⟩ := h.back i hi
    refine ⟨a, ?_, b⟩
    have := (h.to_pt (τ i) a).2.1
    rw [b] at this
    exact this.symm
  back i hi := ⟨(h.to_pt i hi).1, (h.to_pt i hi).2.2⟩

theorem within_lt {eps w : ℚ} {pts : List Pt} {i j : Nat} (h : Within eps w pts i j) :
    i < pts.length ∧ j < pts.length := by
  obtain ⟨_, a, b, h2, h3, _⟩ := h
  exact ⟨(List.getElem?_eq_some_iff.1 h2).1, (List.getElem?_eq_some_iff.1 h3).1⟩

theorem Reordering.within {pts pts' : List Pt} {σ τ : Nat → Nat} (h : Reordering pts pts' σ τ) {eps w : ℚ}
    {i j : Nat} (hw : Within eps w pts i j) : Within eps w pts' (σ i) (σ j) := by
  obtain ⟨hi, hj⟩ := within_lt hw
  obtain ⟨hne, a, b, h2, h3, h4⟩ := hw
  obtain ⟨_, p2, p3⟩ := h.to_pt i hi
  obtain ⟨_, q2, q3⟩ := h.to_pt j hj
  refine ⟨fun e => hne ?_, a, b, by rw [p2, h2], by rw [q2, h3], h4⟩
  rw [← p3, ← q3, e]

theorem Reordering.core {pts pts' : List Pt} {σ τ : Nat → Nat} (h : Reordering pts pts' σ τ) {eps w : ℚ}
    {minpts i : Nat} (hc : IsCore eps w minpts pts i) : IsCore eps w minpts pts' (σ i) := by
  obtain ⟨hi, s, h1, h2⟩ := hc
  refine ⟨(h.to_pt i hi).1, s.image σ, ?_, ?_⟩
  · intro j hj
    obtain ⟨k, hk, rfl⟩ := Finset.mem_image.1 hj
    exact h.within (h1 k hk)
  · rw [Finset.card_image_of_injOn]
    · exact h2
    · intro a ha b hb he
      have ha' := (within_lt (h1 a ha)).2
      have hb' := (within_lt (h1 b hb)).2
      rw [← (h.to_pt a ha').2.2, ← (h.to_pt b hb').2.2]
      exact congrArg τ he

theorem Reordering.linked {pts pts' : List Pt} {σ τ : Nat → Nat} (h : Reordering pts pts' σ τ) {eps w : ℚ}
    {minpts i j : Nat} (hl : Linked eps w minpts pts i j) : Linked eps w minpts pts' (σ i) (σ j) := by
  unfold Linked at hl
  induction hl with
  | refl => exact .refl
  | tail _ h2 ih => exact .tail ih ⟨h.core h2.1, h.core h2.2.1, h.within h2.2.2⟩

/-- **C21 (order independence).** Reordering the input does not change which points are core, which core points share
a cluster, or which points are noise. -/
theorem C21_order_independent (eps w : ℚ) (minpts : Nat) (pts pts' : List Pt) (σ τ : Nat → Nat)
    (hσ : Reordering pts pts' σ τ) (fuel : Nat) (hf : 2 * pts.length ≤ fuel) (hf' : 2 * pts'.length ≤ fuel) :
    ∃ lab k lab' k', dbscan fuel eps w minpts pts = some (lab, k) ∧ dbscan fuel eps w minpts pts' = some (lab', k') ∧
      (∀ i < pts.length, (IsCore eps w minpts pts i ↔ IsCore eps w minpts pts' (σ i)) ∧
        (lab i = NOISE ↔ lab' (σ i) = NOISE)) ∧
      (∀ i j, IsCore eps w minpts pts i → IsCore eps w minpts pts j →
        (lab i = lab j ↔ lab' (σ i) = lab' (σ j))) := by
  obtain ⟨lab, k, h1, h2⟩ := C21_density_components eps w minpts pts fuel hf
  obtain ⟨lab', k', h1', h2'⟩ := C21_density_components eps w minpts pts' fuel hf'
  obtain ⟨labA, kA, g1, g2⟩ := C20_labels eps w minpts pts fuel hf
  obtain ⟨labB, kB, g1', g2'⟩ := C20_labels eps w minpts pts' fuel hf'
  rw [h1] at g1; cases g1
  rw [h1'] at g1'; cases g1'
  have hcore : ∀ i < pts.length, (IsCore eps w minpts pts i ↔ IsCore eps w minpts pts' (σ i)) := by
    intro i hi
    refine ⟨hσ.core, fun h => ?_⟩
    have := hσ.symm.core h
    rwa [(hσ.to_pt i hi).2.2] at this
  refine ⟨lab, k, lab', k', h1, h1', fun i hi => ⟨hcore i hi, ?_⟩, fun i j hi hj => ?_⟩
  · rw [(g2 i hi).2.1, (g2' (σ i) (hσ.to_pt i hi).1).2.1, hcore i hi]
    apply and_congr_right
    intro _
    constructor
    · intro h j hj hw
      have hb := hσ.back j hj.1
      have hw' := hσ.symm.within hw
      rw [(hσ.to_pt i hi).2.2] at hw'
      exact h (τ j) (hσ.symm.core hj) hw'
    · intro h j hj hw
      exact h (σ j) (hσ.core hj) (hσ.within hw)
  · rw [h2 i j hi hj, h2' (σ i) (σ j) (hσ.core hi) (hσ.core hj)]
    refine ⟨hσ.linked, fun h => ?_⟩
    have := hσ.symm.linked h
    rwa [(hσ.to_pt i hi.1).2.2, (hσ.to_pt j hj.1).2.2] at this

/-! ## Witnesses -/

/-- four points in a row one apart, and one far away; `minpts = 2`, `eps = 1` -/
def demoPts : List Pt := [⟨0, 0, 0, 0⟩, ⟨1, 0, 0, 0⟩, ⟨2, 0, 0, 0⟩, ⟨3, 0, 0, 0⟩, ⟨50, 0, 0, 0⟩]

example : (dbscan 10 1 0 2 demoPts).map (fun r => ((List.range 5).map r.1, r.2)) = some ([0, 0, 0, 0, -2], 1) := by
  decide +kernel
example : Within 1 0 demoPts 1 2 := ⟨by decide, _, _, rfl, rfl, by decide +kernel⟩
example : IsCore 1 0 2 demoPts 1 := ⟨by decide, {0, 2}, by
  intro j hj
  simp at hj
  rcases hj with rfl | rfl <;> exact ⟨by decide, _, _, rfl, rfl, by decide +kernel⟩, by decide⟩
/-- bad channels extend the reach -/
example : (dbscan 10 1 10 2 [⟨0, 0, 0, 2⟩, ⟨5, 0, 0, 2⟩, ⟨9, 0, 0, 1⟩]).map (fun r => r.1 0) = some 0 := by decide +kernel
/-- swapping two points is a reordering -/
example : Reordering [⟨0, 0, 0, 0⟩, ⟨7, 0, 0, 0⟩] [⟨7, 0, 0, 0⟩, ⟨0, 0, 0, 0⟩] (fun i => 1 - i) (fun i => 1 - i) where
  to_pt i hi := by
    simp at hi
    interval_cases i <;> simp
  back i hi := by
    simp at hi
    interval_cases i <;> simp

end Verif.DBScan3D

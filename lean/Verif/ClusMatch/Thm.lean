import Verif.ClusMatch.Model
import Mathlib.Algebra.Order.Field.Basic
import Mathlib.Algebra.BigOperators.Group.List.Basic
import Mathlib.Tactic.FieldSimp
import Mathlib.Tactic.NormNum
import Mathlib.Tactic.Positivity
import Mathlib.Tactic.Ring
import Mathlib.Tactic.Linarith

/-! # Matching of clusters between planes: the tests (C380, C381, C382, C383, C389) -/

namespace Verif.ClusMatch

/-! ### C380 -/

theorem fold_max {α β : Type} [LinearOrder β] (f : α → β) (l : List α) : ∀ a : β,
    a ≤ l.foldl (fun m h => if m < f h then f h else m) a ∧ (∀ h ∈ l, f h ≤ l.foldl (fun m h => if m < f h then f h else m) a) ∧
    (l.foldl (fun m h => if m < f h then f h else m) a = a ∨ ∃ h ∈ l, l.foldl (fun m h => if m < f h then f h else m) a = f h) := by
  induction l with
  | nil => intro a; simp
  | cons b l ih =>
    intro a
    rw [List.foldl_cons]
    obtain ⟨h1, h2, h3⟩ := ih (if a < f b then f b else a)
    have ha : a ≤ (if a < f b then f b else a) := by split <;> [exact le_of_lt ‹_›; exact le_refl _]
    have hb : f b ≤ (if a < f b then f b else a) := by split <;> [exact le_refl _; exact not_lt.mp ‹_›]
    refine ⟨le_trans ha h1, ?_, ?_⟩
    · intro q hq
      rcases List.mem_cons.mp hq with rfl | hq
      · exact le_trans hb h1
      · exact h2 q hq
    · rcases h3 with h3 | ⟨q, hq, h3⟩
      · by_cases hc : a < f b
        · right; exact ⟨b, by simp, by rw [h3, if_pos hc]⟩
        · left; rw [h3, if_neg hc]
      · right; exact ⟨q, by simp [hq], h3⟩

theorem fold_min {α β : Type} [LinearOrder β] (f : α → β) (l : List α) : ∀ a : β,
    l.foldl (fun m h => if m > f h then f h else m) a ≤ a ∧ (∀ h ∈ l, l.foldl (fun m h => if m > f h then f h else m) a ≤ f h) ∧
    (l.foldl (fun m h => if m > f h then f h else m) a = a ∨ ∃ h ∈ l, l.foldl (fun m h => if m > f h then f h else m) a = f h) :=
  fun a => fold_max (β := βᵒᵈ) (fun h => OrderDual.toDual (f h)) l (OrderDual.toDual a)

theorem fold_proj {γ : Type} (off : ℚ) (p : Info → γ) (g : γ → Hit → γ) (hg : ∀ ci h, p (addHit off ci h) = g (p ci) h) (l : List Hit) :
    ∀ ci, p (l.foldl (addHit off) ci) = l.foldl g (p ci) := by
  induction l with
  | nil => intro ci; rfl
  | cons h l ih => intro ci; rw [List.foldl_cons, ih, hg, List.foldl_cons]

/-- Specification: the largest and the smallest value of a list. -/
def IsMax {β : Type} [LinearOrder β] (m : β) (l : List β) : Prop := m ∈ l ∧ ∀ x ∈ l, x ≤ m
def IsMin {β : Type} [LinearOrder β] (m : β) (l : List β) : Prop := m ∈ l ∧ ∀ x ∈ l, m ≤ x

theorem isMax_fold {β : Type} [LinearOrder β] (f : Hit → β) (l : List Hit) (hne : l ≠ []) (a : β) (h : ∀ x ∈ l, a ≤ f x) :
    IsMax (l.foldl (fun m h => if m < f h then f h else m) a) (l.map f) := by
  obtain ⟨h1, h2, h3⟩ := fold_max f l a
  refine ⟨?_, fun x hx => ?_⟩
  · rcases h3 with h3 | ⟨q, hq, h3⟩
    · obtain ⟨q, hq⟩ := List.exists_mem_of_ne_nil l hne
      rw [h3]
      have : a = f q := le_antisymm (h q hq) (by rw [← h3]; exact h2 q hq)
      rw [this]; exact List.mem_map_of_mem hq
    · rw [h3]; exact List.mem_map_of_mem hq
  · obtain ⟨q, hq, rfl⟩ := List.mem_map.mp hx
    exact h2 q hq

theorem isMin_fold {β : Type} [LinearOrder β] (f : Hit → β) (l : List Hit) (hne : l ≠ []) (a : β) (h : ∀ x ∈ l, f x ≤ a) :
    IsMin (l.foldl (fun m h => if m > f h then f h else m) a) (l.map f) := by
  obtain ⟨h1, h2, h3⟩ := fold_min f l a
  refine ⟨?_, fun x hx => ?_⟩
  · rcases h3 with h3 | ⟨q, hq, h3⟩
    · obtain ⟨q, hq⟩ := List.exists_mem_of_ne_nil l hne
      rw [h3]
      have : a = f q := le_antisymm (by rw [← h3]; exact h2 q hq) (h q hq)
      rw [this]; exact List.mem_map_of_mem hq
    · rw [h3]; exact List.mem_map_of_mem hq
  · obtain ⟨q, hq, rfl⟩ := List.mem_map.mp hx
    exact h2 q hq

theorem fold_sum (l : List Hit) : ∀ a : ℚ, l.foldl (fun s h => s + h.q) a = a + (l.map Hit.q).sum := by
  induction l with
  | nil => intro a; simp
  | cons h l ih => intro a; rw [List.foldl_cons, ih]; simp only [List.map_cons, List.sum_cons]; ring

theorem fold_hits (l : List Hit) : ∀ a : List Hit, l.foldl (fun s h => s ++ [h]) a = a ++ l := by
  induction l with
  | nil => intro a; simp
  | cons h l ih => intro a; rw [List.foldl_cons, ih]; simp

theorem fill_hits (off : Nat → ℚ) (id view : Nat) (hits : List Hit) : (fill off id view hits).hits = hits := by
  show (hits.foldl (addHit (off view)) (Info.init id view)).hits = hits
  rw [fold_proj (off view) Info.hits (fun s h => s ++ [h]) (fun _ _ => rfl), fold_hits]; simp [Info.init]

theorem fill_view (off : Nat → ℚ) (id view : Nat) (hits : List Hit) : (fill off id view hits).id = id % 65536 ∧ (fill off id view hits).view = view := by
  constructor
  · show (hits.foldl (addHit (off view)) (Info.init id view)).id = id % 65536
    rw [fold_proj (off view) Info.id (fun s _ => s) (fun _ _ => rfl)]
    have : ∀ (l : List Hit) (a : Nat), l.foldl (fun s _ => s) a = a := by intro l; induction l with | nil => intro a; rfl | cons h l ih => intro a; exact ih a
    rw [this]; rfl
  · show (hits.foldl (addHit (off view)) (Info.init id view)).view = view
    rw [fold_proj (off view) Info.view (fun s _ => s) (fun _ _ => rfl)]
    have : ∀ (l : List Hit) (a : Nat), l.foldl (fun s _ => s) a = a := by intro l; induction l with | nil => intro a; rfl | cons h l ih => intro a; exact ih a
    rw [this]; rfl

/-- C380: for a cluster with hits on wires below 65536 and with times from -1 to 10^9 after the correction by the offset of the plane, the range of wires and the ranges of start, peak and end times
are those of its hits; the number of hits is right, and the charge is one less than the sum of theirs. -/
theorem C380_info_partial (off : Nat → ℚ) (id view : Nat) (hits : List Hit) (hne : hits ≠ []) (hw : ∀ h ∈ hits, h.wire < 65536)
    (ht : ∀ h ∈ hits, -1 ≤ h.peak - h.rms - off view ∧ 0 ≤ h.rms ∧ h.peak + h.rms - off view ≤ 10 ^ 9) :
    let ci := fill off id view hits
    IsMax ci.wireMax (hits.map Hit.wire) ∧ IsMin ci.wireMin (hits.map Hit.wire) ∧
    IsMax ci.startMax (hits.map fun h => h.peak - h.rms - off view) ∧ IsMin ci.startMin (hits.map fun h => h.peak - h.rms - off view) ∧
    IsMax ci.peakMax (hits.map fun h => h.peak - off view) ∧ IsMin ci.peakMin (hits.map fun h => h.peak - off view) ∧
    IsMax ci.endMax (hits.map fun h => h.peak + h.rms - off view) ∧ IsMin ci.endMin (hits.map fun h => h.peak + h.rms - off view) ∧
    ci.nhits = hits.length ∧ ci.charge = (hits.map Hit.q).sum - 1 := by
  intro ci
  have e1 : ci.wireMax = hits.foldl (fun m h => if m < h.wire then h.wire else m) 0 := fold_proj (off view) Info.wireMax _ (fun _ _ => rfl) hits _
  have e2 : ci.wireMin = hits.foldl (fun m h => if m > h.wire then h.wire else m) 65535 := fold_proj (off view) Info.wireMin _ (fun _ _ => rfl) hits _
  have e3 : ci.startMax = hits.foldl (fun m h => if m < h.peak - h.rms - off view then h.peak - h.rms - off view else m) (-1) := fold_proj (off view) Info.startMax _ (fun _ _ => rfl) hits _
  have e4 : ci.startMin = hits.foldl (fun m h => if m > h.peak - h.rms - off view then h.peak - h.rms - off view else m) (10 ^ 9) := fold_proj (off view) Info.startMin _ (fun _ _ => rfl) hits _
  have e5 : ci.peakMax = hits.foldl (fun m h => if m < h.peak - off view then h.peak - off view else m) (-1) := fold_proj (off view) Info.peakMax _ (fun _ _ => rfl) hits _
  have e6 : ci.peakMin = hits.foldl (fun m h => if m > h.peak - off view then h.peak - off view else m) (10 ^ 9) := fold_proj (off view) Info.peakMin _ (fun _ _ => rfl) hits _
  have e7 : ci.endMax = hits.foldl (fun m h => if m < h.peak + h.rms - off view then h.peak + h.rms - off view else m) (-1) := fold_proj (off view) Info.endMax _ (fun _ _ => rfl) hits _
  have e8 : ci.endMin = hits.foldl (fun m h => if m > h.peak + h.rms - off view then h.peak + h.rms - off view else m) (10 ^ 9) := fold_proj (off view) Info.endMin _ (fun _ _ => rfl) hits _
  have e9 : ci.charge = hits.foldl (fun s h => s + h.q) (-1) := fold_proj (off view) Info.charge _ (fun _ _ => rfl) hits _
  rw [e1, e2, e3, e4, e5, e6, e7, e8, e9, fold_sum]
  refine ⟨isMax_fold _ _ hne _ (fun h _ => Nat.zero_le _), isMin_fold _ _ hne _ (fun h hh => by have := hw h hh; show h.wire ≤ 65535; omega),
    isMax_fold _ _ hne _ (fun h hh => (ht h hh).1), isMin_fold _ _ hne _ (fun h hh => ?_),
    isMax_fold _ _ hne _ (fun h hh => ?_), isMin_fold _ _ hne _ (fun h hh => ?_),
    isMax_fold _ _ hne _ (fun h hh => ?_), isMin_fold _ _ hne _ (fun h hh => (ht h hh).2.2), rfl, by ring⟩
  all_goals
    obtain ⟨h1, h2, h3⟩ := ht h hh
    linarith

example : (fill (fun _ => 2) 7 0 [⟨5, 10, 1, 4⟩, ⟨9, 20, 3, 6⟩]).startMin = 7 ∧ (fill (fun _ => 2) 7 0 [⟨5, 10, 1, 4⟩, ⟨9, 20, 3, 6⟩]).endMax = 21 ∧
    (fill (fun _ => 2) 7 0 [⟨5, 10, 1, 4⟩, ⟨9, 20, 3, 6⟩]).charge = 9 := by decide +kernel

/-- C380: the charge is not the sum of the charges of the hits, and hits before the time -1 after the correction do not set the largest times. -/
theorem C380_refuted :
    (¬ ∀ (off : Nat → ℚ) id view hits, (fill off id view hits).charge = (hits.map Hit.q).sum) ∧
    ¬ ∀ (off : Nat → ℚ) id view hits, hits ≠ [] → IsMax (fill off id view hits).peakMax (hits.map fun h => h.peak - off view) := by
  constructor
  · intro h
    have := h (fun _ => 0) 0 0 []
    revert this
    decide +kernel
  · intro h
    have := (h (fun _ => 20) 0 0 [⟨1, 10, 1, 1⟩] (by simp)).1
    revert this
    decide +kernel

/-! ### C381 -/

/-- C381: whether two clusters overlap in time does not depend on their order. -/
theorem C381_sym (c : Cfg) (a b : Info) : roughT c a b = roughT c b a := by
  unfold roughT
  rw [min_comm, max_comm, show a.endMax - a.startMin + b.endMax - b.startMin = b.endMax - b.startMin + a.endMax - a.startMin by ring]

/-- C381: two clusters of which at least one has a length overlap if twice the common time is more than the cut times the sum of their lengths; they never do with a cut of one or more, and
clusters without common time never do with a cut that is not negative. -/
theorem C381_overlap_partial (c : Cfg) (a b : Info) (ha : a.startMin ≤ a.endMax) (hb : b.startMin ≤ b.endMax) (hl : a.startMin < a.endMax ∨ b.startMin < b.endMax) :
    (roughT c a b = true ↔ c.tcut * ((a.endMax - a.startMin) + (b.endMax - b.startMin)) < 2 * (min a.endMax b.endMax - max a.startMin b.startMin)) ∧
    (1 ≤ c.tcut → roughT c a b = false) ∧
    (0 ≤ c.tcut → (a.endMax ≤ b.startMin ∨ b.endMax ≤ a.startMin) → roughT c a b = false) := by
  have hd : 0 < a.endMax - a.startMin + b.endMax - b.startMin := by rcases hl with h | h <;> linarith
  have key : roughT c a b = true ↔ c.tcut * ((a.endMax - a.startMin) + (b.endMax - b.startMin)) < 2 * (min a.endMax b.endMax - max a.startMin b.startMin) := by
    unfold roughT
    dsimp only
    rw [if_neg hd.ne', decide_eq_true_eq, gt_iff_lt, div_mul_eq_mul_div, lt_div_iff₀ hd]
    constructor <;> intro h <;> linarith
  have hm1 := min_le_left a.endMax b.endMax
  have hm2 := min_le_right a.endMax b.endMax
  have hM1 := le_max_left a.startMin b.startMin
  have hM2 := le_max_right a.startMin b.startMin
  refine ⟨key, fun h1 => ?_, fun h0 hdis => ?_⟩
  · rw [Bool.eq_false_iff, Ne, key]
    nlinarith
  · rw [Bool.eq_false_iff, Ne, key]
    have : 0 ≤ c.tcut * ((a.endMax - a.startMin) + (b.endMax - b.startMin)) := mul_nonneg h0 (by linarith)
    rcases hdis with h | h <;> linarith

/-- Settings for examples. -/
def exCfg : Cfg := ⟨false, true, true, true, true, 1, 1 / 2, 1 / 2, 3, fun a b => some (a + b), 0, fun l => l.map Hit.wire⟩

example : roughT exCfg (fill (fun _ => 0) 0 0 [⟨1, 10, 1, 1⟩, ⟨2, 20, 1, 1⟩]) (fill (fun _ => 0) 0 1 [⟨1, 12, 1, 1⟩, ⟨2, 22, 1, 1⟩]) = true := by decide +kernel

/-- C381: two clusters without hits are said to overlap completely. -/
theorem C381_refuted (off : Nat → ℚ) (id1 id2 v1 v2 : Nat) (c : Cfg) (hc : c.tcut < 1) : roughT c (fill off id1 v1 []) (fill off id2 v2 []) = true := by
  unfold roughT
  simp only [fill, List.foldl_nil, Info.init, min_self, max_self]
  rw [if_neg (by norm_num), decide_eq_true_eq, gt_iff_lt]
  norm_num
  exact hc

/-! ### C382 -/

/-- C382: with a positive charge in the second cluster the charges match if they differ by less than the given fraction of the second. -/
theorem C382_charge_partial (c : Cfg) (u v : Info) (hv : 0 < v.charge) : sumQ c u v = true ↔ |u.charge - v.charge| < c.qcut * v.charge := by
  unfold sumQ
  rw [if_neg hv.ne', Bool.and_eq_true, decide_eq_true_eq, decide_eq_true_eq, lt_div_iff₀ hv, div_lt_iff₀ hv, abs_lt]
  constructor
  · rintro ⟨h1, h2⟩; constructor <;> linarith
  · rintro ⟨h1, h2⟩; constructor <;> linarith

/-- C382: the comparison of charges depends on the order of the planes. -/
theorem C382_refuted : ¬ ∀ (c : Cfg) (u v : Info), 0 < u.charge → 0 < v.charge → sumQ c u v = sumQ c v u := by
  intro h
  have := h exCfg (fill (fun _ => 0) 0 0 [⟨1, 10, 1, 7⟩]) (fill (fun _ => 0) 0 1 [⟨1, 12, 1, 11⟩]) (by decide +kernel) (by decide +kernel)
  revert this
  decide +kernel

/-! ### C383 -/

/-- C383: if the first wires and the last wires of two clusters cross, they match exactly if the last ones cross at a larger z; if the last ones do not cross and the first ones do not either or
cross at a z of at least -1, they do not match. -/
theorem C383_z_partial (c : Cfg) (a b : Info) :
    (∀ z0 z1, c.cross a.wireMin b.wireMin = some z0 → c.cross a.wireMax b.wireMax = some z1 → (roughZ c a b = true ↔ z0 < z1)) ∧
    (c.cross a.wireMax b.wireMax = none → (∀ z0, c.cross a.wireMin b.wireMin = some z0 → -1 ≤ z0) → roughZ c a b = false) := by
  constructor
  · intro z0 z1 h0 h1
    simp [roughZ, h0, h1]
  · intro h1 h0
    unfold roughZ
    simp only [h1, Option.getD_none]
    rw [decide_eq_false_iff_not, gt_iff_lt, not_lt]
    cases e : c.cross a.wireMin b.wireMin with
    | none => simp
    | some z => simpa using h0 z e

example : roughZ exCfg (fill (fun _ => 0) 0 0 [⟨1, 10, 1, 7⟩, ⟨2, 10, 1, 7⟩]) (fill (fun _ => 0) 0 1 [⟨1, 12, 1, 11⟩]) = true := by decide +kernel

/-- C383: clusters whose first wires do not cross match if the last ones cross at any z above -1. -/
theorem C383_refuted : ¬ ∀ (c : Cfg) (a b : Info), c.cross a.wireMin b.wireMin = none → roughZ c a b = false := by
  intro h
  have := h { exCfg with cross := fun a b => if a = 1 then none else some (a + b) } (fill (fun _ => 0) 0 0 [⟨1, 10, 1, 7⟩, ⟨2, 10, 1, 7⟩]) (fill (fun _ => 0) 0 1 [⟨1, 12, 1, 11⟩]) (by decide +kernel)
  revert this
  decide +kernel

/-! ### C389 -/

theorem inRange_all (lo hi : ℚ) (l : List Hit) (h : ∀ x ∈ l, lo ≤ x.peak ∧ x.peak ≤ hi) : inRange lo hi l = l := by
  unfold inRange
  rw [List.filter_eq_self]
  intro x hx
  obtain ⟨h1, h2⟩ := h x hx
  simp [h1, h2]

/-- The conditions on a cluster: it has hits, and their times are in range. -/
def Good (hits : List Hit) : Prop := hits ≠ [] ∧ ∀ h ∈ hits, -1 ≤ h.peak - h.rms ∧ 0 ≤ h.rms ∧ h.peak + h.rms ≤ 10 ^ 9

theorem peaks (id view : Nat) (hits : List Hit) : ∀ h ∈ hits, (fill (fun _ => 0) id view hits).peakMin ≤ h.peak ∧ h.peak ≤ (fill (fun _ => 0) id view hits).peakMax := by
  intro h hh
  have e5 : (fill (fun _ => 0) id view hits).peakMax = hits.foldl (fun m h => if m < h.peak - 0 then h.peak - 0 else m) (-1) := fold_proj 0 Info.peakMax _ (fun _ _ => rfl) hits _
  have e6 : (fill (fun _ => 0) id view hits).peakMin = hits.foldl (fun m h => if m > h.peak - 0 then h.peak - 0 else m) (10 ^ 9) := fold_proj 0 Info.peakMin _ (fun _ _ => rfl) hits _
  have h1 := (fold_max (fun h : Hit => h.peak - 0) hits (-1)).2.1 h hh
  have h2 := (fold_min (fun h : Hit => h.peak - 0) hits (10 ^ 9)).2.1 h hh
  rw [← e5] at h1
  rw [← e6] at h2
  constructor <;> linarith

/-- C389: without time offsets between the planes all hits of the three clusters are used to make space points, and the clusters match if there are enough of them. -/
theorem C389_space_partial (c : Cfg) (i j k : Nat) (hu hv hw : List Hit) (h1 : hu ≠ []) (h2 : hv ≠ []) (h3 : hw ≠ []) (hd : 0 ≤ c.maxDT) :
    (2 < c.planes → spacePoint c (fill (fun _ => 0) i 0 hu) (fill (fun _ => 0) j 1 hv) (some (fill (fun _ => 0) k 2 hw)) =
      (decide (c.nsps ≤ (c.sps (hu ++ hv ++ hw)).length), c.sps (hu ++ hv ++ hw))) ∧
    (c.planes ≤ 2 → ∀ w, spacePoint c (fill (fun _ => 0) i 0 hu) (fill (fun _ => 0) j 1 hv) w =
      (decide (c.nsps ≤ (c.sps (hu ++ hv)).length), c.sps (hu ++ hv))) := by
  have pu := peaks i 0 hu
  have pv := peaks j 1 hv
  have pw := peaks k 2 hw
  constructor
  · intro hp
    unfold spacePoint
    rw [if_pos hp]
    dsimp only
    unfold spMatch range
    simp only [fill_hits]
    rw [inRange_all _ _ hu, inRange_all _ _ hv, inRange_all _ _ hw]
    · simp [h1, h2, h3]
    · intro x hx
      obtain ⟨a, b⟩ := pw x hx
      constructor
      · linarith [min_le_right (min (fill (fun _ => 0) i 0 hu).peakMin (fill (fun _ => 0) j 1 hv).peakMin) (fill (fun _ => 0) k 2 hw).peakMin]
      · linarith [le_max_right (max (fill (fun _ => 0) i 0 hu).peakMax (fill (fun _ => 0) j 1 hv).peakMax) (fill (fun _ => 0) k 2 hw).peakMax]
    · intro x hx
      obtain ⟨a, b⟩ := pv x hx
      constructor
      · linarith [min_le_left (min (fill (fun _ => 0) i 0 hu).peakMin (fill (fun _ => 0) j 1 hv).peakMin) (fill (fun _ => 0) k 2 hw).peakMin, min_le_right (fill (fun _ => 0) i 0 hu).peakMin (fill (fun _ => 0) j 1 hv).peakMin]
      · linarith [le_max_left (max (fill (fun _ => 0) i 0 hu).peakMax (fill (fun _ => 0) j 1 hv).peakMax) (fill (fun _ => 0) k 2 hw).peakMax, le_max_right (fill (fun _ => 0) i 0 hu).peakMax (fill (fun _ => 0) j 1 hv).peakMax]
    · intro x hx
      obtain ⟨a, b⟩ := pu x hx
      constructor
      · linarith [min_le_left (min (fill (fun _ => 0) i 0 hu).peakMin (fill (fun _ => 0) j 1 hv).peakMin) (fill (fun _ => 0) k 2 hw).peakMin, min_le_left (fill (fun _ => 0) i 0 hu).peakMin (fill (fun _ => 0) j 1 hv).peakMin]
      · linarith [le_max_left (max (fill (fun _ => 0) i 0 hu).peakMax (fill (fun _ => 0) j 1 hv).peakMax) (fill (fun _ => 0) k 2 hw).peakMax, le_max_left (fill (fun _ => 0) i 0 hu).peakMax (fill (fun _ => 0) j 1 hv).peakMax]
  · intro hp w
    unfold spacePoint
    rw [if_neg (by omega)]
    unfold spMatch range
    simp only [fill_hits]
    rw [inRange_all _ _ hu, inRange_all _ _ hv]
    · simp [h1, h2]
    · intro x hx
      obtain ⟨a, b⟩ := pv x hx
      constructor
      · linarith [min_le_right (fill (fun _ => 0) i 0 hu).peakMin (fill (fun _ => 0) j 1 hv).peakMin]
      · linarith [le_max_right (fill (fun _ => 0) i 0 hu).peakMax (fill (fun _ => 0) j 1 hv).peakMax]
    · intro x hx
      obtain ⟨a, b⟩ := pu x hx
      constructor
      · linarith [min_le_left (fill (fun _ => 0) i 0 hu).peakMin (fill (fun _ => 0) j 1 hv).peakMin]
      · linarith [le_max_left (fill (fun _ => 0) i 0 hu).peakMax (fill (fun _ => 0) j 1 hv).peakMax]

example : spacePoint exCfg (fill (fun _ => 0) 0 0 [⟨1, 10, 1, 7⟩]) (fill (fun _ => 0) 0 1 [⟨2, 12, 1, 7⟩]) (some (fill (fun _ => 0) 0 2 [⟨3, 11, 1, 7⟩])) = (true, [1, 2, 3]) := by decide +kernel

/-- C389: with a time offset the corrected times of the clusters are compared with the uncorrected times of the hits; here each cluster has one hit at the same time and the same offset, and no hit is used. -/
theorem C389_refuted : spacePoint exCfg (fill (fun _ => 5) 0 0 [⟨1, 10, 1, 7⟩]) (fill (fun _ => 5) 0 1 [⟨2, 10, 1, 7⟩]) (some (fill (fun _ => 5) 0 2 [⟨3, 10, 1, 7⟩])) = (false, []) := by
  decide +kernel

end Verif.ClusMatch

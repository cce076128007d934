import Mathlib.Algebra.BigOperators.Group.List.Basic
import Mathlib.Algebra.Order.Field.Rat
import Mathlib.Data.List.Nodup
import Mathlib.Tactic.Ring
import Mathlib.Tactic.Linarith

/-!
Model of `RecobClusterParameters::UpdateParameters` (`larreco/RecoAlg/Cluster3DAlgs/Cluster3D.cxx`) and `ClusterParameters::UpdateParameters` (`Cluster3D.h`), which collect the parameters of the two dimensional clusters
when a three dimensional cluster is stored, and C106.

Times and charges are rationals.  Not modelled: `m_view`.  The hits come in the order of an `std::unordered_set` of pointers, so in any order.
-/
namespace Verif.ClusParams

/-- what is read of a two dimensional hit: an identifier, plane, wire, `PeakTimeMinusRMS`, `PeakTimePlusRMS`, `SigmaPeakTime`, `Integral` -/
structure H2 where
  id : Nat
  plane : Nat
  wire : Nat
  tLow : Rat
  tHigh : Rat
  sigma : Rat
  charge : Rat
  deriving DecidableEq, Repr

/-- `RecobClusterParameters` with the values of its constructor, Cluster3D.h:292-320 -/
structure Params where
  startTime : Rat := 999999
  sigmaStart : Rat := 1
  endTime : Rat := 0
  sigmaEnd : Rat := 1
  charge : Rat := 0
  startWire : Nat := 9999999
  endWire : Nat := 0
  hits : List H2 := []
  deriving DecidableEq, Repr

/-- first part of `UpdateParameters`, Cluster3D.cxx:395-400 -/
def low (p : Params) (h : H2) : Params :=
  if h.wire < p.startWire then { p with startWire := h.wire, startTime := h.tLow, sigmaStart := h.sigma } else p

/-- second part, Cluster3D.cxx:402-406 -/
def high (p : Params) (h : H2) : Params :=
  if h.wire > p.endWire then { p with endWire := h.wire, endTime := h.tHigh, sigmaEnd := h.sigma } else p

/-- `RecobClusterParameters::UpdateParameters`, Cluster3D.cxx:387-415 -/
def update (p : Params) (h : H2) : Params :=
  let p := high (low p h) h
  { p with charge := p.charge + h.charge, hits := p.hits ++ [h] }

/-- `ClusterParameters::UpdateParameters`, Cluster3D.h:440-443: the plane selects the entry of the map, which is created with the values of the constructor -/
def updateMap (m : Nat → Option Params) (h : H2) : Nat → Option Params := fun i => if i = h.plane then some (update ((m i).getD {}) h) else m i

/-- the loop over the set of hits, ClusterParamsBuilder_tool.cc:281-284 -/
def collect (l : List H2) : Nat → Option Params := l.foldl updateMap (fun _ => none)

/-! ## Proofs -/

/-- the parameters after the hits `l` of one plane -/
theorem foldl_update (l : List H2) : ∀ p : Params,
    (l.foldl update p).charge = p.charge + (l.map H2.charge).sum ∧ (l.foldl update p).hits = p.hits ++ l ∧
    (l.foldl update p).startWire = l.foldl (fun a h => min a h.wire) p.startWire ∧ (l.foldl update p).endWire = l.foldl (fun a h => max a h.wire) p.endWire := by
  induction l with
  | nil => intro p; simp
  | cons h l ih =>
    intro p
    obtain ⟨i1, i2, i3, i4⟩ := ih (update p h)
    simp only [List.foldl_cons]
    have e1 : (update p h).charge = p.charge + h.charge := by unfold update high low; simp only; split <;> split <;> rfl
    have e2 : (update p h).hits = p.hits ++ [h] := by unfold update high low; simp only; split <;> split <;> rfl
    have e3 : (update p h).startWire = min p.startWire h.wire := by
      have : (update p h).startWire = (low p h).startWire := by unfold update high; simp only; split <;> rfl
      rw [this]; unfold low
      by_cases hw : h.wire < p.startWire
      · rw [if_pos hw]; simp only; omega
      · rw [if_neg hw]; omega
    have e4 : (update p h).endWire = max p.endWire h.wire := by
      have hl : (low p h).endWire = p.endWire := by unfold low; split <;> rfl
      have : (update p h).endWire = (high (low p h) h).endWire := rfl
      rw [this]; unfold high
      rw [hl]
      by_cases hw : h.wire > p.endWire
      · rw [if_pos hw]; simp only; omega
      · rw [if_neg hw]; rw [hl]; omega
    rw [i1, i2, i3, i4, e1, e2, e3, e4]
    refine ⟨?_, ?_, rfl, rfl⟩
    · rw [List.map_cons, List.sum_cons]; ring
    · simp

/-- start: the initial value or a hit on the wire -/
theorem foldl_start (l : List H2) : ∀ p : Params,
    ((l.foldl update p).startWire = p.startWire ∧ (l.foldl update p).startTime = p.startTime ∧ (l.foldl update p).sigmaStart = p.sigmaStart) ∨
    ∃ h ∈ l, (l.foldl update p).startWire = h.wire ∧ (l.foldl update p).startTime = h.tLow ∧ (l.foldl update p).sigmaStart = h.sigma := by
  induction l with
  | nil => intro p; left; exact ⟨rfl, rfl, rfl⟩
  | cons h l ih =>
    intro p
    simp only [List.foldl_cons]
    rcases ih (update p h) with ⟨i1, i2, i3⟩ | ⟨x, hx, hx'⟩
    · rw [i1, i2, i3]
      have hs : (update p h).startWire = (low p h).startWire ∧ (update p h).startTime = (low p h).startTime ∧ (update p h).sigmaStart = (low p h).sigmaStart := by
        unfold update high; simp only; split <;> exact ⟨rfl, rfl, rfl⟩
      rw [hs.1, hs.2.1, hs.2.2]
      unfold low
      by_cases hw : h.wire < p.startWire
      · rw [if_pos hw]; right; exact ⟨h, by simp, rfl, rfl, rfl⟩
      · rw [if_neg hw]; left; exact ⟨rfl, rfl, rfl⟩
    · right; exact ⟨x, List.mem_cons_of_mem _ hx, hx'⟩

/-- end: the initial value or a hit on the wire -/
theorem foldl_end (l : List H2) : ∀ p : Params,
    ((l.foldl update p).endWire = p.endWire ∧ (l.foldl update p).endTime = p.endTime ∧ (l.foldl update p).sigmaEnd = p.sigmaEnd) ∨
    ∃ h ∈ l, (l.foldl update p).endWire = h.wire ∧ (l.foldl update p).endTime = h.tHigh ∧ (l.foldl update p).sigmaEnd = h.sigma := by
  induction l with
  | nil => intro p; left; exact ⟨rfl, rfl, rfl⟩
  | cons h l ih =>
    intro p
    simp only [List.foldl_cons]
    rcases ih (update p h) with ⟨i1, i2, i3⟩ | ⟨x, hx, hx'⟩
    · rw [i1, i2, i3]
      have hl : (low p h).endWire = p.endWire ∧ (low p h).endTime = p.endTime ∧ (low p h).sigmaEnd = p.sigmaEnd := by unfold low; split <;> exact ⟨rfl, rfl, rfl⟩
      have hs : (update p h).endWire = (high (low p h) h).endWire ∧ (update p h).endTime = (high (low p h) h).endTime ∧ (update p h).sigmaEnd = (high (low p h) h).sigmaEnd := ⟨rfl, rfl, rfl⟩
      rw [hs.1, hs.2.1, hs.2.2]
      unfold high
      by_cases hw : h.wire > (low p h).endWire
      · rw [if_pos hw]; right; exact ⟨h, by simp, rfl, rfl, rfl⟩
      · rw [if_neg hw]; left; exact hl
    · right; exact ⟨x, List.mem_cons_of_mem _ hx, hx'⟩

theorem foldl_min_le (l : List H2) : ∀ a, l.foldl (fun a h => min a h.wire) a ≤ a ∧ ∀ h ∈ l, l.foldl (fun a h => min a h.wire) a ≤ h.wire := by
  induction l with
  | nil => intro a; simp
  | cons x l ih =>
    intro a
    obtain ⟨i1, i2⟩ := ih (min a x.wire)
    simp only [List.foldl_cons, List.forall_mem_cons]
    exact ⟨le_trans i1 (min_le_left _ _), le_trans i1 (min_le_right _ _), i2⟩

theorem foldl_max_ge (l : List H2) : ∀ a, a ≤ l.foldl (fun a h => max a h.wire) a ∧ ∀ h ∈ l, h.wire ≤ l.foldl (fun a h => max a h.wire) a := by
  induction l with
  | nil => intro a; simp
  | cons x l ih =>
    intro a
    obtain ⟨i1, i2⟩ := ih (max a x.wire)
    simp only [List.foldl_cons, List.forall_mem_cons]
    exact ⟨le_trans (le_max_left _ _) i1, le_trans (le_max_right _ _) i1, i2⟩

theorem collect_plane (l : List H2) (i : Nat) : collect l i = if (l.filter (fun h => h.plane == i)) = [] then none else some ((l.filter (fun h => h.plane == i)).foldl update {}) := by
  have key : ∀ (l : List H2) (m : Nat → Option Params), l.foldl updateMap m i =
      if (l.filter (fun h => h.plane == i)) = [] then m i else some ((l.filter (fun h => h.plane == i)).foldl update ((m i).getD {})) := by
    intro l
    induction l with
    | nil => intro m; simp
    | cons h l ih =>
      intro m
      rw [List.foldl_cons, ih]
      by_cases hp : h.plane = i
      · subst hp
        have hm : updateMap m h h.plane = some (update ((m h.plane).getD {}) h) := by unfold updateMap; simp
        rw [hm, List.filter_cons_of_pos (by simp)]
        by_cases hl : l.filter (fun x => x.plane == h.plane) = []
        · rw [if_pos hl, if_neg (by simp), hl]; rfl
        · rw [if_neg hl, if_neg (by simp)]; rfl
      · have hm : updateMap m h i = m i := by unfold updateMap; rw [if_neg (fun hh => hp hh.symm)]
        rw [hm, List.filter_cons_of_neg (by simpa using hp)]
  unfold collect
  rw [key]
  rfl

/-- **C106**: whatever the order of the hits, a plane has parameters exactly if one of the hits is on it; they hold all hits of the plane with their charge, the lowest wire (below the limit of 9999999) and the highest one,
the start time of a hit on the lowest wire and, if it is not wire 0, the end time of a hit on the highest wire -/
theorem C106_params (l : List H2) (hlim : ∀ h ∈ l, h.wire < 9999999) (i : Nat) :
    (collect l i = none ↔ ∀ h ∈ l, h.plane ≠ i) ∧
    ∀ p, collect l i = some p → p.hits = l.filter (fun h => h.plane == i) ∧ p.charge = (p.hits.map H2.charge).sum ∧
      (∃ h ∈ l, h.plane = i ∧ h.wire = p.startWire ∧ h.tLow = p.startTime ∧ h.sigma = p.sigmaStart) ∧ (∀ h ∈ l, h.plane = i → p.startWire ≤ h.wire ∧ h.wire ≤ p.endWire) ∧
      (∃ h ∈ l, h.plane = i ∧ h.wire = p.endWire) ∧
      (0 < p.endWire → ∃ h ∈ l, h.plane = i ∧ h.wire = p.endWire ∧ h.tHigh = p.endTime ∧ h.sigma = p.sigmaEnd) := by
  rw [collect_plane]
  have hmem : ∀ h, h ∈ l.filter (fun h => h.plane == i) ↔ h ∈ l ∧ h.plane = i := by intro h; rw [List.mem_filter]; simp
  constructor
  · constructor
    · intro h x hx hxp
      split at h
      · rename_i hf
        have := (hmem x).2 ⟨hx, hxp⟩
        rw [hf] at this; simp at this
      · cases h
    · intro h
      rw [if_pos]
      rw [List.filter_eq_nil_iff]
      intro x hx; simpa using h x hx
  · intro p hp
    split at hp
    · cases hp
    · rename_i hne
      cases hp
      generalize hq : l.filter (fun h => h.plane == i) = q at hmem hne
      obtain ⟨e1, e2, e3, e4⟩ := foldl_update q {}
      have hs := foldl_start q {}
      have he := foldl_end q {}
      obtain ⟨m1, m2⟩ := foldl_min_le q ({} : Params).startWire
      obtain ⟨n1, n2⟩ := foldl_max_ge q ({} : Params).endWire
      generalize q.foldl update {} = r at e1 e2 e3 e4 hs he
      obtain ⟨x, hx⟩ := List.exists_mem_of_ne_nil _ hne
      have hstart : ∃ h ∈ q, r.startWire = h.wire ∧ r.startTime = h.tLow ∧ r.sigmaStart = h.sigma := by
        rcases hs with ⟨h1, -, -⟩ | h
        · exfalso
          have h2 := m2 x hx
          rw [← e3, h1] at h2
          have := hlim x ((hmem x).1 hx).1
          simp at h2
          omega
        · exact h
      refine ⟨by rw [e2]; simp, by rw [e1, e2]; simp, ?_, ?_, ?_, ?_⟩
      · obtain ⟨h, hh, h1, h2, h3⟩ := hstart
        exact ⟨h, ((hmem h).1 hh).1, ((hmem h).1 hh).2, h1.symm, h2.symm, h3.symm⟩
      · intro h hh hp
        have := (hmem h).2 ⟨hh, hp⟩
        rw [e3, e4]
        exact ⟨m2 h this, n2 h this⟩
      · rcases he with ⟨h1, -, -⟩ | ⟨h, hh, h1, -⟩
        · refine ⟨x, ((hmem x).1 hx).1, ((hmem x).1 hx).2, ?_⟩
          have h2 := n2 x hx
          rw [← e4, h1] at h2
          rw [h1]
          simp at h2 ⊢
          exact h2
        · exact ⟨h, ((hmem h).1 hh).1, ((hmem h).1 hh).2, h1.symm⟩
      · intro hpos
        rcases he with ⟨h1, -, -⟩ | ⟨h, hh, h1, h2, h3⟩
        · rw [h1] at hpos; simp at hpos
        · exact ⟨h, ((hmem h).1 hh).1, ((hmem h).1 hh).2, h1.symm, h2.symm, h3.symm⟩

theorem foldl_min_perm {l l' : List H2} (h : l.Perm l') (a : Nat) : l.foldl (fun a h => min a h.wire) a = l'.foldl (fun a h => min a h.wire) a :=
  h.foldl_eq' (fun x _ y _ z => by omega) a

theorem foldl_max_perm {l l' : List H2} (h : l.Perm l') (a : Nat) : l.foldl (fun a h => max a h.wire) a = l'.foldl (fun a h => max a h.wire) a :=
  h.foldl_eq' (fun x _ y _ z => by omega) a

/-- **C106**: the wire range, the charge and the set of hits do not depend on the order of the hits -/
theorem C106_order (l l' : List H2) (h : l.Perm l') (i : Nat) : (collect l i).map (fun p => (p.startWire, p.endWire, p.charge)) = (collect l' i).map (fun p => (p.startWire, p.endWire, p.charge)) ∧
    ∀ p p', collect l i = some p → collect l' i = some p' → p.hits.Perm p'.hits := by
  have hf : (l.filter (fun h => h.plane == i)).Perm (l'.filter (fun h => h.plane == i)) := h.filter _
  rw [collect_plane, collect_plane]
  generalize l.filter (fun h => h.plane == i) = q at hf
  generalize l'.filter (fun h => h.plane == i) = q' at hf
  by_cases hq : q = []
  · subst hq
    have := hf.nil_eq
    subst this
    simp
  · have hq' : q' ≠ [] := fun h' => hq (by rw [h'] at hf; exact hf.eq_nil)
    rw [if_neg hq, if_neg hq']
    obtain ⟨e1, e2, e3, e4⟩ := foldl_update q {}
    obtain ⟨f1, f2, f3, f4⟩ := foldl_update q' {}
    constructor
    · simp only [Option.map_some, e1, e3, e4, f1, f3, f4, foldl_min_perm hf, foldl_max_perm hf, (hf.map H2.charge).sum_eq]
    · intro p p' hp hp'
      cases hp; cases hp'
      rw [e2, f2]
      simpa using hf

/-- two hits on wire 3, one on wire 5, one on another plane -/
def sampleHits : List H2 := [⟨0, 1, 3, 10, 12, 1, 100⟩, ⟨1, 1, 3, 20, 22, 2, 50⟩, ⟨2, 1, 5, 15, 17, 1, 10⟩, ⟨3, 0, 0, 30, 32, 1, 7⟩]

example : (∀ h ∈ sampleHits, h.wire < 9999999) ∧ (collect sampleHits 1).map (fun p => (p.startWire, p.endWire, p.startTime, p.endTime, p.charge)) = some (3, 5, 10, 17, 160) := by decide +kernel

/-- the start time depends on the order of the hits, which is that of their addresses: two hits on the first wire -/
theorem C106_start_time_refuted : ∃ l l' : List H2, l.Perm l' ∧ (∀ h ∈ l, h.wire < 9999999) ∧ (collect l 1).map Params.startTime ≠ (collect l' 1).map Params.startTime :=
  ⟨[⟨0, 1, 3, 10, 12, 1, 100⟩, ⟨1, 1, 3, 20, 22, 2, 50⟩], [⟨1, 1, 3, 20, 22, 2, 50⟩, ⟨0, 1, 3, 10, 12, 1, 100⟩], List.Perm.swap _ _ _, by decide +kernel, by decide +kernel⟩

/-- a cluster on wire 0 only keeps the end time 0 of the constructor, whatever its hits are -/
theorem C106_wire_zero_refuted (l : List H2) (hne : l ≠ []) (hw : ∀ h ∈ l, h.wire = 0 ∧ h.plane = 1) : (collect l 1).map (fun p => (p.endTime, p.sigmaEnd)) = some (0, 1) := by
  rw [collect_plane]
  have hf : l.filter (fun h => h.plane == 1) = l := by
    rw [List.filter_eq_self]; intro h hh; simp [(hw h hh).2]
  rw [hf, if_neg hne]
  have key : ∀ (l : List H2), (∀ h ∈ l, h.wire = 0) → ∀ p : Params, (l.foldl update p).endTime = p.endTime ∧ (l.foldl update p).sigmaEnd = p.sigmaEnd := by
    intro l
    induction l with
    | nil => intro _ p; exact ⟨rfl, rfl⟩
    | cons h l ih =>
      intro hl p
      rw [List.foldl_cons]
      obtain ⟨i1, i2⟩ := ih (fun x hx => hl x (List.mem_cons_of_mem _ hx)) (update p h)
      rw [i1, i2]
      have h0 := hl h (by simp)
      unfold update high low
      rw [h0]
      simp only
      split <;> split <;> first | exact ⟨rfl, rfl⟩ | (rename_i h1; simp at h1)
  obtain ⟨k1, k2⟩ := key l (fun h hh => (hw h hh).1) {}
  rw [Option.map_some, k1, k2]

example : [(⟨3, 1, 0, 30, 32, 1, 7⟩ : H2)] ≠ [] ∧ ∀ h ∈ [(⟨3, 1, 0, 30, 32, 1, 7⟩ : H2)], h.wire = 0 ∧ h.plane = 1 := by decide

end Verif.ClusParams

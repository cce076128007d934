import Verif.MCComp.BackTrackProofs
import Mathlib.Tactic.Linarith
import Mathlib.Tactic.FieldSimp
import Mathlib.Algebra.Order.Field.Rat
/-!
# Properties of the back tracker (C30, C31, C32, C62)
-/
namespace Verif.MCComp
open Verif

/-! ## Specification -/

/-- one energy deposit of the simulation, flattened -/
structure Dep where
  ch : Nat
  time : Nat
  track : Int
  q : ℚ

/-- all deposits of the simulation input -/
def deposits (sim : List SimCh) : List Dep :=
  sim.flatMap (fun x => x.tdcs.flatMap (fun p => p.2.map (fun i => ⟨x.ch, p.1, i.trackID, i.q⟩)))

/-- number of electrons of the deposits satisfying `P` -/
def electrons (sim : List SimCh) (P : Dep → Prop) [DecidablePred P] : ℚ :=
  (((deposits sim).filter (fun d => decide (P d))).map (·.q)).sum

/-- `owner t` is the registered object of a track; a deposit belongs to entry `k` of the charge vectors if its track
belongs to object `k`, or its track is not registered and `k` is the last entry `n` -/
def InEntry (owner : Nat → Option Nat) (n k : Nat) (d : Dep) : Prop := (owner d.track.toNat).getD n = k

instance (owner : Nat → Option Nat) (n k : Nat) : DecidablePred (InEntry owner n k) := fun _ => by unfold InEntry; infer_instance

/-- what the prepared back tracker `s` reports, for `n` registered objects with the given ownership -/
structure Reports (g : Geo) (owner : Nat → Option Nat) (n : Nat) (sim : List SimCh) (s : BT) : Prop where
  parts : s.numParts = n
  index : ∀ id, s.index id = owner id
  plane : ∀ p, p < g.nplanes → ∃ row, s.mcqSum p = .ok row ∧ row.length = n + 1 ∧
    (∀ k, k ≤ n → row.getD k 0 = electrons sim (fun d => g.planeOf d.ch = p ∧ InEntry owner n k d)) ∧
    row.sum = electrons sim (fun d => g.planeOf d.ch = p)
  hit : ∀ w : Win, w.lo ≤ w.hi + 2 → w.hi + 1 < U32 → (s.mcq w).length = n + 1 ∧
    (∀ k, k ≤ n → (s.mcq w).getD k 0 =
      electrons sim (fun d => d.ch = w.ch ∧ w.lo ≤ d.time ∧ d.time ≤ w.hi + 1 ∧ InEntry owner n k d)) ∧
    (s.mcq w).sum = electrons sim (fun d => d.ch = w.ch ∧ w.lo ≤ d.time ∧ d.time ≤ w.hi + 1)
  hits : ∀ ws : List Win, (s.mcqList ws).length = n + 1 ∧
    ∀ k, k ≤ n → (s.mcqList ws).getD k 0 = (ws.map (fun w => (s.mcq w).getD k 0)).sum

/-! ## Proof -/

theorem sq_eq (table : List (Option Nat)) (np : Nat) (w : Nat → ℚ) (C P : Nat → Bool) (sim : List SimCh) :
    sq table np w C P sim = (((deposits sim).filter (fun d => C d.ch && P d.time)).map
      (fun d => w (slot table np d.track) * d.q)).sum := by
  unfold sq deposits
  have inner : ∀ (c t : Nat) (l : List Ide), (((l.map (fun i => (⟨c, t, i.trackID, i.q⟩ : Dep))).filter
      (fun d => C d.ch && P d.time)).map (fun d => w (slot table np d.track) * d.q)).sum =
      if C c && P t then (l.map (fun x => w (slot table np x.trackID) * x.q)).sum else 0 := by
    intro c t l
    by_cases h : (C c && P t) = true
    · rw [if_pos h, List.filter_eq_self.2 (by intro d hd; obtain ⟨i, _, rfl⟩ := List.mem_map.1 hd; exact h), List.map_map]
      rfl
    · rw [if_neg h, List.filter_eq_nil_iff.2 (by intro d hd; obtain ⟨i, _, rfl⟩ := List.mem_map.1 hd; exact h)]
      rfl
  have mid : ∀ (c : Nat) (l : List (Nat × List Ide)), (((l.flatMap (fun p => p.2.map (fun i => (⟨c, p.1, i.trackID, i.q⟩ : Dep)))).filter
      (fun d => C d.ch && P d.time)).map (fun d => w (slot table np d.track) * d.q)).sum =
      if C c then tq table np w P l else 0 := by
    intro c l
    induction l with
    | nil => simp [tq]
    | cons p l ih =>
      rw [List.flatMap_cons, List.filter_append, List.map_append, List.sum_append, ih, inner]
      simp only [tq, List.map_cons, List.sum_cons]
      by_cases h1 : C c = true
      · by_cases h2 : P p.1 = true <;> simp [h1, h2]
      · simp [h1]
  induction sim with
  | nil => simp
  | cons x xs ih =>
    rw [List.flatMap_cons, List.filter_append, List.map_append, List.sum_append, mid, ← ih]
    simp

theorem sum_filter_weight (l : List Dep) (C : Dep → Bool) (K : Dep → Prop) [DecidablePred K] :
    ((l.filter C).map (fun d => (if K d then 1 else 0) * d.q)).sum = ((l.filter (fun d => C d && decide (K d))).map (·.q)).sum := by
  induction l with
  | nil => simp
  | cons d l ih =>
    by_cases h1 : C d = true
    · by_cases h2 : K d
      · rw [List.filter_cons_of_pos h1, List.filter_cons_of_pos (by simp [h1, h2]), List.map_cons, List.sum_cons, ih]
        simp [h2]
      · rw [List.filter_cons_of_pos h1, List.filter_cons_of_neg (by simp [h2]), List.map_cons, List.sum_cons, ih]
        simp [h2]
    · rw [List.filter_cons_of_neg h1, List.filter_cons_of_neg (by simp [h1]), ih]

theorem electrons_entry (sim : List SimCh) (Q : Dep → Prop) [DecidablePred Q] (C P : Nat → Bool) (table : List (Option Nat))
    (n k : Nat) (owner : Nat → Option Nat) (ho : ∀ j, table.getD j none = owner j) (hlt : ∀ j i, owner j = some i → i < n)
    (hQ : ∀ d : Dep, Q d ↔ (C d.ch = true ∧ P d.time = true ∧ InEntry owner n k d)) :
    sq table (n + 1) (fun i => if i = k then 1 else 0) C P sim = electrons sim Q := by
  rw [sq_eq]
  have hslot : ∀ t : Int, slot table (n + 1) t = (owner t.toNat).getD n := by
    intro t
    unfold slot
    rw [ho]
    cases h : owner t.toNat with
    | none => rfl
    | some i => have := hlt _ _ h; dsimp only; rw [if_neg (by omega)]; rfl
  have := sum_filter_weight (deposits sim) (fun d => C d.ch && P d.time) (fun d => InEntry owner n k d)
  unfold electrons
  rw [show (fun d : Dep => decide (Q d)) = (fun d => (C d.ch && P d.time) && decide (InEntry owner n k d)) from by
    funext d
    by_cases h : Q d
    · have := (hQ d).1 h; simp [h, this.1, this.2.1, this.2.2]
    · have h' := fun x => h ((hQ d).2 x)
      simp only [h, decide_false]
      by_cases h1 : C d.ch = true <;> by_cases h2 : P d.time = true <;> by_cases h3 : InEntry owner n k d <;>
        simp_all]
  rw [← this]
  congr 1
  apply List.map_congr_left
  intro d _
  rw [hslot]
  rfl

theorem electrons_all (sim : List SimCh) (Q : Dep → Prop) [DecidablePred Q] (C P : Nat → Bool) (table : List (Option Nat))
    (np : Nat) (hQ : ∀ d : Dep, Q d ↔ (C d.ch = true ∧ P d.time = true)) :
    sq table np (fun _ => 1) C P sim = electrons sim Q := by
  rw [sq_eq]
  unfold electrons
  rw [show (fun d : Dep => decide (Q d)) = (fun d => (C d.ch && P d.time)) from by
    funext d
    by_cases h : Q d
    · have := (hQ d).1 h; simp [h, this.1, this.2]
    · have h' := fun x => h ((hQ d).2 x)
      by_cases h1 : C d.ch = true <;> by_cases h2 : P d.time = true <;> simp_all]
  simp

theorem sum_eq_of_entries {v : List ℚ} {np : Nat} (hv : v.length = np) : v.sum = wt np (fun _ => 1) v := by
  subst hv; rw [wt_one]

/-- the sum over the entries of the weights of single entries -/
theorem chw_total (s : BT) (ch : Nat) (P : Nat → Bool) :
    (∑ k ∈ Finset.range s.nparts, s.chw ch (fun i => if i = k then 1 else 0) P) = s.chw ch (fun _ => 1) P := by
  unfold BT.chw cw
  induction s.event.getD ch [] with
  | nil => simp
  | cons p c ih =>
    simp only [List.map_cons, List.sum_cons, Finset.sum_add_distrib, ih]
    congr 1
    by_cases h : P p.1 = true
    · simp only [h, if_true]
      unfold wt
      apply Finset.sum_congr rfl
      intro k hk
      have := wt_single s.nparts p.2 k (Finset.mem_range.1 hk)
      unfold wt at this
      rw [this, one_mul]
    · simp [h]

theorem finish_reports (g : Geo) (sim : List SimCh) (hsim : SimOk g sim) (s : BT) (owner : Nat → Option Nat) (n : Nat)
    (he : s.event = []) (hq : s.sumq = []) (hn : s.nparts = n) (ht : ∀ j, s.table.getD j none = owner j)
    (hlt : ∀ j i, owner j = some i → i < n) :
    ∃ s', finish g sim (.ok s) = .ok s' ∧ Reports g owner n sim s' ∧ StOk g s' ∧ s'.nparts = n + 1 := by
  obtain ⟨s', e1, e2, e3, e4, e5, e6⟩ := processSim_spec g sim hsim { s with nparts := s.nparts + 1 } he hq (by simp)
  simp only at e3 e4 e5 e6
  have hnp : s'.nparts = n + 1 := by rw [e4, hn]
  rw [hn] at e5 e6
  have hent : ∀ ch k P, s'.chw ch (fun i => if i = k then 1 else 0) P = sq s.table (n + 1) (fun i => if i = k then 1 else 0)
      (fun c => decide (c = ch)) P sim := fun ch k P => e6 ch _ P
  refine ⟨s', e1, ⟨?_, ?_, ?_, ?_, ?_⟩, e2, hnp⟩
  · unfold BT.numParts; omega
  · intro id
    unfold BT.index
    rw [e3]
    by_cases h : id ≥ s.table.length
    · rw [if_pos h, ← ht, List.getD, List.getElem?_eq_none (by omega)]; rfl
    · rw [if_neg h, ht]
  · intro p hp
    have hp' : p < s'.sumq.length := by rw [e2.rows]; exact hp
    have hrow : s'.sumq[p]? = some (s'.sumq.getD p []) := by simp [List.getD, List.getElem?_eq_getElem hp']
    have hrl : (s'.sumq.getD p []).length = n + 1 := by
      have : s'.sumq.getD p [] ∈ s'.sumq := List.mem_of_getElem? hrow
      rw [e2.row _ this, hnp]
    refine ⟨s'.sumq.getD p [], ?_, hrl, ?_, ?_⟩
    · unfold BT.mcqSum
      rw [if_neg (by omega), hrow]
    · intro k hk
      rw [← wt_single (n + 1) _ k (by omega), e5 p _ hp]
      exact electrons_entry sim _ _ _ _ n k owner ht hlt (by intro d; simp)
    · rw [sum_eq_of_entries hrl, e5 p _ hp]
      exact electrons_all sim _ _ _ _ _ (by intro d; simp)
  · intro w hw1 hw2
    obtain ⟨a, b⟩ := mcq_spec e2 w hw1 hw2
    rw [hnp] at a b
    refine ⟨a, fun k hk => ?_, ?_⟩
    · rw [b k (by omega), hent]
      exact electrons_entry sim _ _ _ _ n k owner ht hlt (by intro d; simp [and_assoc])
    · rw [sum_eq_of_entries a]
      unfold wt
      rw [Finset.sum_congr rfl (fun k hk => by rw [one_mul, b k (Finset.mem_range.1 hk)]), ← hnp, chw_total, e6]
      exact electrons_all sim _ _ _ _ _ (by intro d; simp)
  · intro ws
    obtain ⟨a, b⟩ := mcqList_spec e2 ws
    rw [hnp] at a b
    exact ⟨a, fun k hk => b k (by omega)⟩

/-- object of a track id registered one by one: its position among the distinct ids -/
def ownerSingle (ids : List Nat) (id : Nat) : Option Nat := if id ∈ distinct ids then some ((distinct ids).idxOf id) else none

theorem foldl_distinct_mem (l D : List Nat) (x : Nat) :
    x ∈ l.foldl (fun acc x => if x ∈ acc then acc else acc ++ [x]) D ↔ x ∈ D ∨ x ∈ l := by
  induction l generalizing D with
  | nil => simp
  | cons a l ih =>
    rw [List.foldl_cons, ih]
    by_cases h : a ∈ D
    · simp only [h, if_true, List.mem_cons]
      constructor
      · rintro (h1 | h1)
        · exact Or.inl h1
        · exact Or.inr (Or.inr h1)
      · rintro (h1 | h1 | h1)
        · exact Or.inl h1
        · subst h1; exact Or.inl h
        · exact Or.inr h1
    · simp [h, or_assoc]

theorem foldl_distinct_nodup (l D : List Nat) (h : D.Nodup) :
    (l.foldl (fun acc x => if x ∈ acc then acc else acc ++ [x]) D).Nodup := by
  induction l generalizing D with
  | nil => exact h
  | cons a l ih =>
    rw [List.foldl_cons]
    apply ih
    by_cases ha : a ∈ D
    · simpa [ha] using h
    · simp only [ha, if_false]
      rw [List.nodup_append]
      refine ⟨h, by simp, ?_⟩
      intro x hx y hy
      rw [List.mem_singleton] at hy
      subst hy
      rintro rfl
      exact ha hx

theorem mem_distinct (l : List Nat) (x : Nat) : x ∈ distinct l ↔ x ∈ l := by
  unfold distinct; rw [foldl_distinct_mem]; simp

theorem distinct_nodup (l : List Nat) : (distinct l).Nodup := foldl_distinct_nodup l [] (by simp)

theorem reset_full (g : Geo) (ids : List Nat) (sim : List SimCh) (hids : ∀ id ∈ ids, id + 1 < U32) (hsim : SimOk g sim) :
    ∃ s, reset g ids sim = .ok s ∧ Reports g (ownerSingle ids) (distinct ids).length sim s ∧ StOk g s ∧
      s.nparts = (distinct ids).length + 1 := by
  obtain ⟨s', a, b, c, d, e⟩ := regAll_register ids hids cleared [] rfl (by intro j; simp [cleared])
  unfold reset
  rw [a]
  exact finish_reports g sim hsim s' (ownerSingle ids) _ b c d e (by
    intro j i h
    unfold ownerSingle at h
    split at h
    · cases h; exact List.idxOf_lt_length_iff.2 (by assumption)
    · cases h)

theorem groupOf_lt (groups : List (List Nat)) (j i : Nat) (h : groupOf groups j = some i) : i < groups.length := by
  unfold groupOf at h
  rw [List.findIdx?_eq_some_iff_findIdx_eq] at h
  exact h.1

theorem resetGroups_full (g : Geo) (groups : List (List Nat)) (sim : List SimCh)
    (hids : ∀ gr ∈ groups, ∀ id ∈ gr, id + 1 < U32) (hsim : SimOk g sim) (hnd : groups.flatten.Nodup) :
    ∃ s, resetGroups g groups sim = .ok s ∧ Reports g (groupOf groups) groups.length sim s ∧ StOk g s ∧
      s.nparts = groups.length + 1 := by
  obtain ⟨s', a, b, c, d, e⟩ := (regAll_groups groups [] hids cleared rfl (by intro j; simp [cleared, groupOf])).1
    ⟨hnd, by intro id _; simp [groupOf]⟩
  unfold resetGroups
  rw [a]
  exact finish_reports g sim hsim s' (groupOf groups) _ b c (by simpa using d) (by simpa using e)
    (fun j i h => groupOf_lt groups j i h)

/-! ## C30 -/

/-- **C30.** After `Reset` with single track ids, for each plane and each hit window the charge entries and their sum are
the electrons of the simulation on that plane (channel and window) and the hit-list charge is the entrywise sum. -/
theorem reset_conserves_charge (g : Geo) (ids : List Nat) (sim : List SimCh) (hids : ∀ id ∈ ids, id + 1 < U32)
    (hsim : SimOk g sim) :
    ∃ s, reset g ids sim = .ok s ∧ Reports g (ownerSingle ids) (distinct ids).length sim s := by
  obtain ⟨s, a, b, _⟩ := reset_full g ids sim hids hsim
  exact ⟨s, a, b⟩

/-- **C30.** The same for registration by groups. -/
theorem resetGroups_conserves_charge (g : Geo) (groups : List (List Nat)) (sim : List SimCh)
    (hids : ∀ gr ∈ groups, ∀ id ∈ gr, id + 1 < U32) (hsim : SimOk g sim) (hnd : groups.flatten.Nodup) :
    ∃ s, resetGroups g groups sim = .ok s ∧ Reports g (groupOf groups) groups.length sim s := by
  obtain ⟨s, a, b, _⟩ := resetGroups_full g groups sim hids hsim hnd
  exact ⟨s, a, b⟩

def exGeo : Geo := { nplanes := 2, planeOf := fun c => c % 2 }
def exSim : List SimCh := [⟨3, [(5, [⟨7, 10⟩, ⟨8, 2⟩]), (6, [⟨7, 3⟩])]⟩, ⟨4, [(5, [⟨9, 1⟩])]⟩, ⟨3, [(5, [⟨1, 100⟩])]⟩]

theorem exSim_ok : SimOk exGeo exSim := by
  intro x hx
  simp only [exSim, List.mem_cons, List.not_mem_nil, or_false] at hx
  rcases hx with rfl | rfl | rfl <;> simp [exGeo, U32]

example : ∃ s, reset exGeo [7, 8, 7] exSim = .ok s ∧ Reports exGeo (ownerSingle [7, 8, 7]) 2 exSim s :=
  reset_conserves_charge exGeo [7, 8, 7] exSim (by simp [U32]) exSim_ok
example : electrons exSim (fun d => d.ch = 3 ∧ 5 ≤ d.time ∧ d.time ≤ 4 + 1) = 112 := by decide +kernel
example : ∃ s, resetGroups exGeo [[7, 1], [8]] exSim = .ok s ∧ Reports exGeo (groupOf [[7, 1], [8]]) 2 exSim s :=
  resetGroups_conserves_charge exGeo [[7, 1], [8]] exSim (by simp [U32]) exSim_ok (by decide)

/-! ## C31 -/

/-- **C31.** `Reset` by groups succeeds exactly when no track id is repeated, and otherwise raises an exception. -/
theorem resetGroups_ok_iff (g : Geo) (groups : List (List Nat)) (sim : List SimCh)
    (hids : ∀ gr ∈ groups, ∀ id ∈ gr, id + 1 < U32) (hsim : SimOk g sim) :
    ((∃ s, resetGroups g groups sim = .ok s) ↔ groups.flatten.Nodup) ∧
    (¬ groups.flatten.Nodup → resetGroups g groups sim = .throw) := by
  have hth : ¬ groups.flatten.Nodup → resetGroups g groups sim = .throw := by
    intro h
    have := (regAll_groups groups [] hids cleared rfl (by intro j; simp [cleared, groupOf])).2 (fun x => h x.1)
    unfold resetGroups
    rw [this]; rfl
  refine ⟨⟨?_, ?_⟩, hth⟩
  · rintro ⟨s, hs⟩
    by_contra h
    rw [hth h] at hs; cases hs
  · intro h
    obtain ⟨s, a, _⟩ := resetGroups_full g groups sim hids hsim h
    exact ⟨s, a⟩

/-- **C31.** Two registered ids have the same index exactly when they were registered in the same group; an id has an
invalid index exactly when it is in no group; valid indices are below the number of objects. -/
theorem groups_index (g : Geo) (groups : List (List Nat)) (sim : List SimCh)
    (hids : ∀ gr ∈ groups, ∀ id ∈ gr, id + 1 < U32) (hsim : SimOk g sim) (s : BT) (hs : resetGroups g groups sim = .ok s) :
    s.numParts = groups.length ∧
    (∀ id, s.index id = none ↔ ∀ gr ∈ groups, id ∉ gr) ∧
    (∀ id k, s.index id = some k ↔ ∃ h : k < groups.length, id ∈ groups[k]) ∧
    (∀ a b, s.index a ≠ none → s.index b ≠ none →
      (s.index a = s.index b ↔ ∃ gr ∈ groups, a ∈ gr ∧ b ∈ gr)) := by
  have hnd := (resetGroups_ok_iff g groups sim hids hsim).1.1 ⟨s, hs⟩
  obtain ⟨s', a, b, _⟩ := resetGroups_full g groups sim hids hsim hnd
  rw [hs] at a; cases a
  have hnone : ∀ id, s.index id = none ↔ ∀ gr ∈ groups, id ∉ gr := by
    intro id
    rw [b.index]; unfold groupOf
    rw [List.findIdx?_eq_none_iff]; simp
  have hsome : ∀ id k, s.index id = some k ↔ ∃ h : k < groups.length, id ∈ groups[k] := by
    intro id k
    rw [b.index]; unfold groupOf
    rw [List.findIdx?_eq_some_iff_getElem]
    constructor
    · rintro ⟨h, h1, _⟩
      exact ⟨h, by simpa using h1⟩
    · rintro ⟨h, h1⟩
      refine ⟨h, by simpa using h1, ?_⟩
      intro j hj
      have hdis := (List.nodup_flatten.1 hnd).2
      rw [List.pairwise_iff_getElem] at hdis
      have := hdis j k (by omega) h hj
      simp only [decide_eq_true_eq]
      intro hmem
      exact this hmem h1
  refine ⟨b.parts, hnone, hsome, ?_⟩
  intro x y hx hy
  obtain ⟨k, hk⟩ := Option.ne_none_iff_exists'.1 hx
  obtain ⟨l, hl⟩ := Option.ne_none_iff_exists'.1 hy
  obtain ⟨h1, h2⟩ := (hsome x k).1 hk
  obtain ⟨h3, h4⟩ := (hsome y l).1 hl
  constructor
  · intro e
    rw [hk, hl] at e; cases e
    exact ⟨groups[k], List.getElem_mem h1, h2, h4⟩
  · rintro ⟨gr, hgr, e1, e2⟩
    obtain ⟨m, hm, rfl⟩ := List.getElem_of_mem hgr
    rw [(hsome x m).2 ⟨hm, e1⟩, (hsome y m).2 ⟨hm, e2⟩]

/-- **C31.** For single ids: registered ids are exactly those with a valid index, distinct ids have distinct indices, the
indices are `0 … NumParts-1` in order of first appearance, and repeating an id changes nothing. -/
theorem single_index (g : Geo) (ids : List Nat) (sim : List SimCh) (hids : ∀ id ∈ ids, id + 1 < U32) (hsim : SimOk g sim) :
    ∃ s, reset g ids sim = .ok s ∧
      (∀ id, s.index id ≠ none ↔ id ∈ ids) ∧
      (∀ a ∈ ids, ∀ b ∈ ids, s.index a = s.index b → a = b) ∧
      (∀ k, k < s.numParts ↔ ∃ id ∈ ids, s.index id = some k) ∧
      (∃ s', reset g (distinct ids) sim = .ok s' ∧ s'.numParts = s.numParts ∧ ∀ id, s'.index id = s.index id) := by
  obtain ⟨s, a, b, _⟩ := reset_full g ids sim hids hsim
  refine ⟨s, a, ?_, ?_, ?_, ?_⟩
  · intro id
    rw [b.index, ← mem_distinct]; unfold ownerSingle
    by_cases h : id ∈ distinct ids <;> simp [h]
  · intro x hx y hy
    rw [b.index, b.index]; unfold ownerSingle
    rw [if_pos ((mem_distinct _ _).2 hx), if_pos ((mem_distinct _ _).2 hy)]
    intro e
    exact (List.idxOf_inj ((mem_distinct _ _).2 hx)).1 (Option.some.inj e)
  · intro k
    rw [b.parts]
    constructor
    · intro hk
      refine ⟨(distinct ids)[k], (mem_distinct _ _).1 (List.getElem_mem hk), ?_⟩
      rw [b.index]; unfold ownerSingle
      rw [if_pos (List.getElem_mem hk), (distinct_nodup ids).idxOf_getElem]
    · rintro ⟨id, hid, e⟩
      rw [b.index] at e; unfold ownerSingle at e
      split at e
      · cases e; exact List.idxOf_lt_length_iff.2 (by assumption)
      · cases e
  · obtain ⟨s', a', b', _⟩ := reset_full g (distinct ids) sim (fun id h => hids id ((mem_distinct _ _).1 h)) hsim
    have hdd : distinct (distinct ids) = distinct ids := by
      have gen : ∀ (l D : List Nat), (D ++ l).Nodup →
          l.foldl (fun acc x => if x ∈ acc then acc else acc ++ [x]) D = D ++ l := by
        intro l
        induction l with
        | nil => intro D _; simp
        | cons x l ih =>
          intro D hD
          rw [List.foldl_cons]
          have hx : x ∉ D := by
            intro hx
            exact (List.nodup_append.1 hD).2.2 x hx x (by simp) rfl
          rw [if_neg hx, ih _ (by simpa using hD)]
          simp
      have := gen (distinct ids) [] (by simpa using distinct_nodup ids)
      simpa [distinct] using this
    refine ⟨s', a', by rw [b'.parts, b.parts, hdd], fun id => ?_⟩
    rw [b'.index, b.index]; unfold ownerSingle; rw [hdd]

/-- **C31.** The charge of unregistered tracks goes to the last entry only: entry `n` of a plane's or a hit's vector is
exactly the electrons of tracks with invalid index, and no other entry contains any of them. -/
theorem unregistered_last (g : Geo) (ids : List Nat) (sim : List SimCh) (hids : ∀ id ∈ ids, id + 1 < U32) (hsim : SimOk g sim) :
    ∃ s, reset g ids sim = .ok s ∧ ∀ w : Win, w.lo ≤ w.hi + 2 → w.hi + 1 < U32 →
      (s.mcq w).getD s.numParts 0 =
        electrons sim (fun d => d.ch = w.ch ∧ w.lo ≤ d.time ∧ d.time ≤ w.hi + 1 ∧ d.track.toNat ∉ ids) ∧
      ∀ id ∈ ids, ∃ k, s.index id = some k ∧ k < s.numParts ∧ (s.mcq w).getD k 0 =
        electrons sim (fun d => d.ch = w.ch ∧ w.lo ≤ d.time ∧ d.time ≤ w.hi + 1 ∧ d.track.toNat = id) := by
  obtain ⟨s, a, b, _⟩ := reset_full g ids sim hids hsim
  refine ⟨s, a, fun w h1 h2 => ?_⟩
  obtain ⟨_, c, _⟩ := b.hit w h1 h2
  constructor
  · rw [b.parts, c _ le_rfl]
    unfold electrons
    congr 2
    apply List.filter_congr
    intro d _
    rw [decide_eq_decide]
    unfold InEntry ownerSingle
    have hmd := mem_distinct ids d.track.toNat
    dsimp only
    rw [← hmd]
    by_cases h : d.track.toNat ∈ distinct ids
    · have hlt := List.idxOf_lt_length_iff.2 h
      simp only [h, if_true, Option.getD_some, not_true_eq_false, and_false, iff_false, not_and]
      intros; omega
    · simp [h]
  · intro id hid
    have hd := (mem_distinct ids id).2 hid
    have hlt := List.idxOf_lt_length_iff.2 hd
    refine ⟨(distinct ids).idxOf id, by rw [b.index]; unfold ownerSingle; rw [if_pos hd], by rw [b.parts]; exact hlt, ?_⟩
    rw [c _ (by omega)]
    unfold electrons
    congr 2
    apply List.filter_congr
    intro d _
    rw [decide_eq_decide]
    unfold InEntry ownerSingle
    by_cases h : d.track.toNat ∈ distinct ids
    · simp only [h, if_true, Option.getD_some]
      rw [List.idxOf_inj h]
    · simp only [h, if_false, Option.getD_none]
      constructor
      · rintro ⟨_, _, _, e⟩; omega
      · rintro ⟨_, _, _, e⟩; rw [e] at h; exact absurd hd h

example : ∃ s, reset exGeo [7, 8, 7] exSim = .ok s ∧ s.index 8 = some 1 ∧ s.index 9 = none ∧
    (s.mcq ⟨3, 5, 4⟩) = [10, 2, 100] := by
  refine ⟨_, rfl, ?_⟩
  decide +kernel
example : resetGroups exGeo [[7], [8, 7]] exSim = .throw :=
  (resetGroups_ok_iff exGeo [[7], [8, 7]] exSim (by simp [U32]) exSim_ok).2 (by decide)

/-! ## C32 -/

/-- **C32 (proved part).** After a `Reset`, a request for a plane below the number of planes succeeds, a request for a plane
above it raises an exception; track-id lookups and hit requests never fail, whatever the id or channel. (Missing: the
plane *equal* to the number of planes, negative track ids in the simulation, empty clusters — see the refutations.) -/
theorem accessors_in_range_partial (g : Geo) (ids : List Nat) (sim : List SimCh) (hids : ∀ id ∈ ids, id + 1 < U32)
    (hsim : SimOk g sim) :
    ∃ s, reset g ids sim = .ok s ∧ (∀ p, p < g.nplanes → ∃ r, s.mcqSum p = .ok r) ∧
      (∀ p, g.nplanes < p → s.mcqSum p = .throw) ∧ (∀ id, id ∉ ids → s.index id = none) ∧
      (∀ w : Win, (∀ x ∈ sim, x.ch ≠ w.ch) → w.lo ≤ w.hi + 2 → w.hi + 1 < U32 → ∀ q ∈ s.mcq w, q = 0) := by
  obtain ⟨s, a, b, c, d⟩ := reset_full g ids sim hids hsim
  refine ⟨s, a, ?_, ?_, ?_, ?_⟩
  · intro p hp
    obtain ⟨r, h, _⟩ := b.plane p hp
    exact ⟨r, h⟩
  · intro p hp
    unfold BT.mcqSum
    rw [c.rows, if_pos (by omega)]
  · intro id hid
    rw [b.index]; unfold ownerSingle
    rw [if_neg (fun h => hid ((mem_distinct _ _).1 h))]
  · intro w hw h1 h2 q hq
    obtain ⟨e1, e2, _⟩ := b.hit w h1 h2
    obtain ⟨k, hk, rfl⟩ := List.getElem_of_mem hq
    have := e2 k (by omega)
    rw [show (s.mcq w).getD k 0 = (s.mcq w)[k] by simp [List.getD, List.getElem?_eq_getElem hk]] at this
    rw [this]
    unfold electrons
    rw [List.filter_eq_nil_iff.2]
    · rfl
    · intro d hd
      unfold deposits at hd
      simp only [List.mem_flatMap, List.mem_map] at hd
      obtain ⟨x, hx, p, _, i, _, rfl⟩ := hd
      simp only [decide_eq_true_eq, not_and]
      intro e
      exact absurd e (hw x hx)

/-- **C32 refuted (1).** For every geometry and every prepared back tracker, asking for the plane equal to the number of
planes reads outside the table (`>` instead of `>=` in the range check). -/
theorem mcqSum_off_by_one (g : Geo) (ids : List Nat) (sim : List SimCh) (hids : ∀ id ∈ ids, id + 1 < U32)
    (hsim : SimOk g sim) : ∃ s, reset g ids sim = .ok s ∧ s.mcqSum g.nplanes = .ub := by
  obtain ⟨s, a, b, c, d⟩ := reset_full g ids sim hids hsim
  refine ⟨s, a, ?_⟩
  unfold BT.mcqSum
  rw [c.rows, if_neg (by omega), List.getElem?_eq_none (by rw [c.rows])]

/-- **C32 refuted (2).** A deposit with a negative track id (as LArG4 produces for secondaries whose parent is not kept)
makes `Reset` index the track table out of range. -/
theorem negative_track_ub : reset exGeo [7] [⟨0, [(5, [⟨-1, 10⟩])]⟩] = .ub := by rfl

/-- **Observation.** A hit whose window is reversed by more than two counts collects everything after its start. -/
theorem reversed_window : ∃ s, reset exGeo [7] [⟨0, [(2, [⟨7, 1⟩]), (9, [⟨7, 10⟩]), (12, [⟨7, 5⟩])]⟩] = .ok s ∧
    s.mcq ⟨0, 9, 0⟩ = [15, 0] := by
  refine ⟨_, rfl, ?_⟩
  decide +kernel

/-! ## C62 -/

/-- **C62.** The fractions of a charge vector: the entries of the registered objects are their charge divided by the total
registered charge (and so add up to 1 if that is not zero), the last entry is the unregistered share of the total. -/
theorem frac_spec (reg : List ℚ) (u : ℚ) :
    fracOf (reg ++ [u]) = reg.map (· / reg.sum) ++ [u / (reg.sum + u)] ∧
    (reg.sum ≠ 0 → ((fracOf (reg ++ [u])).take reg.length).sum = 1) := by
  have h : fracOf (reg ++ [u]) = reg.map (· / reg.sum) ++ [u / (reg.sum + u)] := by
    unfold fracOf
    rw [if_neg (by simp)]
    dsimp only
    have hs : (reg ++ [u]).sum = reg.sum + u := by simp
    have hl : (reg ++ [u]).getD ((reg ++ [u]).length - 1) 0 = u := by simp [List.getD]
    rw [hs, hl]
    apply List.ext_getElem
    · simp
    · intro i h1 h2
      rw [List.getElem_map, List.getElem_range]
      by_cases hi : i < reg.length
      · rw [if_pos (by simpa using hi), List.getElem_append_left (by simpa using hi), List.getElem_map]
        simp [List.getD, List.getElem?_append_left hi, List.getElem?_eq_getElem hi]
      · have : i = reg.length := by simp at h1; omega
        subst this
        rw [if_neg (by simp)]
        simp [List.getD]
  refine ⟨h, fun hne => ?_⟩
  rw [h, List.take_append_of_le_length (by simp), List.take_of_length_le (by simp)]
  have : ∀ (l : List ℚ) (d : ℚ), (l.map (· / d)).sum = l.sum / d := by
    intro l d
    induction l with
    | nil => simp
    | cons a l ih => rw [List.map_cons, List.sum_cons, ih, List.sum_cons, add_div]
  rw [this, div_self hne]

example : fracOf [1, 3, 12] = [1 / 4, 3 / 4, 3 / 4] := by decide +kernel

end Verif.MCComp

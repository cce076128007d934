import Verif.MCComp.BackTrackModel
import Mathlib.Algebra.BigOperators.Group.Finset.Basic
import Mathlib.Algebra.BigOperators.Intervals
import Mathlib.Algebra.BigOperators.Ring.Finset
import Mathlib.Data.List.Basic
/-! Proofs about the back tracker tables -/
namespace Verif.MCComp
open Verif

theorem resize_length {α : Type} (l : List α) (n : Nat) (v : α) (h : l.length ≤ n) : (resize l n v).length = n := by
  unfold resize
  rw [List.length_append, List.length_take, List.length_replicate]
  omega

theorem resize_getElem? {α : Type} (l : List α) (n : Nat) (v : α) (h : l.length ≤ n) (i : Nat) :
    (resize l n v)[i]? = if i < l.length then l[i]? else if i < n then some v else none := by
  unfold resize
  rw [List.take_of_length_le h, List.getElem?_append]
  split
  · rfl
  · rw [List.getElem?_replicate]
    split <;> split <;> first | rfl | omega

theorem resize_getD {α : Type} (l : List α) (n : Nat) (v : α) (h : l.length ≤ n) (i : Nat) :
    (resize l n v).getD i v = l.getD i v := by
  simp only [List.getD, resize_getElem? l n v h]
  split
  · rfl
  · rename_i hi
    rw [List.getElem?_eq_none (by omega)]
    split <;> rfl

theorem getD_set {α : Type} (l : List α) (i j : Nat) (x v : α) (hi : i < l.length) :
    (l.set i x).getD j v = if j = i then x else l.getD j v := by
  simp only [List.getD, List.getElem?_set]
  by_cases h : i = j
  · subst h; simp [hi]
  · have h' : ¬ j = i := fun e => h e.symm
    simp [h, h']

/-! ### Registration -/

theorem register_spec (s : BT) (id : Nat) (hid : id + 1 < U32) :
    ∃ s', register s id = .ok s' ∧ s'.event = s.event ∧ s'.sumq = s.sumq ∧
      s'.nparts = (if s.table.getD id none = none then s.nparts + 1 else s.nparts) ∧
      ∀ j, s'.table.getD j none =
        if j = id ∧ s.table.getD id none = none then some s.nparts else s.table.getD j none := by
  unfold register
  generalize ht : (if s.table.length ≤ id then resize s.table ((id + 1) % U32) none else s.table) = table
  have hmod : (id + 1) % U32 = id + 1 := Nat.mod_eq_of_lt hid
  have hlen : id < table.length := by
    rw [← ht]
    split
    · rw [hmod, resize_length _ _ _ (by omega)]; omega
    · omega
  have hget : ∀ j, table.getD j none = s.table.getD j none := by
    intro j
    rw [← ht]
    split
    · rw [hmod, resize_getD _ _ _ (by omega)]
    · rfl
  have hg : table[id]? = some (s.table.getD id none) := by
    rw [← hget id]
    simp [List.getD, List.getElem?_eq_getElem hlen]
  dsimp only
  rw [hg]
  cases hc : s.table.getD id none with
  | none =>
    refine ⟨_, rfl, rfl, rfl, by simp, ?_⟩
    intro j
    show (table.set id (some s.nparts)).getD j none = _
    rw [getD_set _ _ _ _ _ hlen, hget]
    simp
  | some x =>
    exact ⟨_, rfl, rfl, rfl, by simp, fun j => by show table.getD j none = _; rw [hget]; simp⟩

/-- distinct elements in order of first appearance -/
def distinct (l : List Nat) : List Nat := l.foldl (fun acc x => if x ∈ acc then acc else acc ++ [x]) []

theorem regAll_register (ids : List Nat) (hids : ∀ id ∈ ids, id + 1 < U32) (s : BT) (D : List Nat)
    (hn : s.nparts = D.length) (ht : ∀ j, s.table.getD j none = if j ∈ D then some (D.idxOf j) else none) :
    ∃ s', regAll register ids s = .ok s' ∧ s'.event = s.event ∧ s'.sumq = s.sumq ∧
      s'.nparts = (ids.foldl (fun acc x => if x ∈ acc then acc else acc ++ [x]) D).length ∧
      ∀ j, s'.table.getD j none = if j ∈ ids.foldl (fun acc x => if x ∈ acc then acc else acc ++ [x]) D then
        some ((ids.foldl (fun acc x => if x ∈ acc then acc else acc ++ [x]) D).idxOf j) else none := by
  induction ids generalizing s D with
  | nil => exact ⟨s, rfl, rfl, rfl, hn, ht⟩
  | cons id ids ih =>
    obtain ⟨s1, e1, e2, e3, e4, e5⟩ := register_spec s id (hids id (by simp))
    obtain ⟨s2, f1, f2, f3, f4, f5⟩ := ih (fun i hi => hids i (by simp [hi])) s1 (if id ∈ D then D else D ++ [id])
      (by
        rw [e4, ht]
        by_cases h : id ∈ D
        · simp [h, hn]
        · simp [h, hn])
      (by
        intro j
        rw [e5, ht, ht]
        by_cases h : id ∈ D
        · simp [h]
        · simp only [h, if_false, and_true, List.mem_append, List.mem_singleton]
          by_cases hj : j = id
          · subst hj
            simp [List.idxOf_append, h, hn]
          · by_cases hjD : j ∈ D
            · simp [hj, hjD, List.idxOf_append]
            · simp [hj, hjD])
    refine ⟨s2, by simp [regAll, e1, f1], by rw [f2, e2], by rw [f3, e3], f4, f5⟩

/-- the group of an id: the first group containing it -/
def groupOf (groups : List (List Nat)) (id : Nat) : Option Nat := groups.findIdx? (fun g => decide (id ∈ g))

theorem registerLoop_spec (n : Nat) (ids : List Nat) (t : List (Option Nat)) (hl : ∀ id ∈ ids, id < t.length) :
    (ids.Nodup ∧ (∀ id ∈ ids, t.getD id none = none) → ∃ t', registerLoop n ids t = .ok t' ∧
      ∀ j, t'.getD j none = if j ∈ ids then some n else t.getD j none) ∧
    (¬ (ids.Nodup ∧ (∀ id ∈ ids, t.getD id none = none)) → registerLoop n ids t = .throw) := by
  induction ids generalizing t with
  | nil => exact ⟨fun _ => ⟨t, rfl, by simp⟩, fun h => absurd ⟨List.nodup_nil, by simp⟩ h⟩
  | cons id ids ih =>
    have hlen := hl id (by simp)
    have hg : t[id]? = some (t.getD id none) := by simp [List.getD, List.getElem?_eq_getElem hlen]
    have hset := fun j => getD_set t id j (some n) none hlen
    obtain ⟨ih1, ih2⟩ := ih (t.set id (some n)) (fun i hi => by rw [List.length_set]; exact hl i (by simp [hi]))
    unfold registerLoop
    rw [hg]
    cases hc : t.getD id none with
    | some x =>
      refine ⟨fun h => ?_, fun _ => rfl⟩
      have := h.2 id (by simp)
      rw [hc] at this; cases this
    | none =>
      dsimp only
      constructor
      · rintro ⟨hnd, hfree⟩
        obtain ⟨hn1, hn2⟩ := List.nodup_cons.1 hnd
        obtain ⟨t', a, b⟩ := ih1 ⟨hn2, fun i hi => by
          rw [hset, if_neg (by rintro rfl; exact hn1 hi)]; exact hfree i (by simp [hi])⟩
        refine ⟨t', a, fun j => ?_⟩
        rw [b, hset]
        by_cases h1 : j ∈ ids
        · simp [h1]
        · by_cases h2 : j = id <;> simp [h1, h2]
      · intro hno
        apply ih2
        rintro ⟨hn2, hfree⟩
        apply hno
        have hn1 : id ∉ ids := by
          intro hi
          have := hfree id hi
          rw [hset, if_pos rfl] at this; cases this
        refine ⟨List.nodup_cons.2 ⟨hn1, hn2⟩, ?_⟩
        intro i hi
        rcases List.mem_cons.1 hi with h | h
        · subst h; exact hc
        · have := hfree i h
          rw [hset, if_neg (by rintro rfl; exact hn1 h)] at this
          exact this

theorem foldl_max_ge (ids : List Nat) (m : Nat) : m ≤ ids.foldl (fun m id => if m < id then id else m) m ∧
    (∀ id ∈ ids, id ≤ ids.foldl (fun m id => if m < id then id else m) m) ∧
    (ids.foldl (fun m id => if m < id then id else m) m = m ∨
      ids.foldl (fun m id => if m < id then id else m) m ∈ ids) := by
  induction ids generalizing m with
  | nil => simp
  | cons a l ih =>
    obtain ⟨h1, h2, h3⟩ := ih (if m < a then a else m)
    simp only [List.foldl_cons]
    generalize hF : l.foldl (fun m id => if m < id then id else m) (if m < a then a else m) = F at h1 h2 h3
    refine ⟨by split at h1 <;> omega, ?_, ?_⟩
    · intro id hid
      rcases List.mem_cons.1 hid with h | h
      · subst h; split at h1 <;> omega
      · exact h2 id h
    · rcases h3 with h | h
      · by_cases hma : m < a
        · rw [if_pos hma] at h; right; rw [h]; simp
        · rw [if_neg hma] at h; left; exact h
      · right; simp [h]

theorem registerGroup_spec (s : BT) (ids : List Nat) (hids : ∀ id ∈ ids, id + 1 < U32) :
    (ids.Nodup ∧ (∀ id ∈ ids, s.table.getD id none = none) → ∃ s', registerGroup s ids = .ok s' ∧ s'.event = s.event ∧
      s'.sumq = s.sumq ∧ s'.nparts = s.nparts + 1 ∧
      ∀ j, s'.table.getD j none = if j ∈ ids then some s.nparts else s.table.getD j none) ∧
    (¬ (ids.Nodup ∧ (∀ id ∈ ids, s.table.getD id none = none)) → registerGroup s ids = .throw) := by
  unfold registerGroup
  dsimp only
  obtain ⟨_, hm2, hm3⟩ := foldl_max_ge ids 0
  generalize ids.foldl (fun m id => if m < id then id else m) 0 = M at hm2 hm3
  have hM : M + 1 < U32 := by
    rcases hm3 with h | h
    · subst h; decide
    · exact hids M h
  have hmod : (M + 1) % U32 = M + 1 := Nat.mod_eq_of_lt hM
  generalize ht : (if s.table.length ≤ M then resize s.table ((M + 1) % U32) none else s.table) = table
  have hlen : M < table.length := by
    rw [← ht]
    split
    · rw [hmod, resize_length _ _ _ (by omega)]; omega
    · omega
  have hget : ∀ j, table.getD j none = s.table.getD j none := by
    intro j
    rw [← ht]
    split
    · rw [hmod, resize_getD _ _ _ (by omega)]
    · rfl
  obtain ⟨a, b⟩ := registerLoop_spec s.nparts ids table (fun id hid => by have := hm2 id hid; omega)
  simp only [hget] at a b
  constructor
  · intro h
    obtain ⟨t', e1, e2⟩ := a h
    rw [e1]
    exact ⟨_, rfl, rfl, rfl, rfl, e2⟩
  · intro h
    rw [b h]

theorem regAll_groups (groups done : List (List Nat)) (hids : ∀ g ∈ groups, ∀ id ∈ g, id + 1 < U32) (s : BT)
    (hn : s.nparts = done.length) (ht : ∀ j, s.table.getD j none = groupOf done j) :
    ((groups.flatten.Nodup ∧ ∀ id ∈ groups.flatten, groupOf done id = none) →
      ∃ s', regAll registerGroup groups s = .ok s' ∧ s'.event = s.event ∧ s'.sumq = s.sumq ∧
        s'.nparts = done.length + groups.length ∧ ∀ j, s'.table.getD j none = groupOf (done ++ groups) j) ∧
    (¬ (groups.flatten.Nodup ∧ ∀ id ∈ groups.flatten, groupOf done id = none) →
      regAll registerGroup groups s = .throw) := by
  induction groups generalizing s done with
  | nil => exact ⟨fun _ => ⟨s, rfl, rfl, rfl, by simpa using hn, by simpa using ht⟩, fun h => absurd ⟨by simp, by simp⟩ h⟩
  | cons g gs ih =>
    obtain ⟨a, b⟩ := registerGroup_spec s g (hids g (by simp))
    simp only [ht] at a b
    by_cases hg : g.Nodup ∧ ∀ id ∈ g, groupOf done id = none
    · obtain ⟨s1, e1, e2, e3, e4, e5⟩ := a hg
      have hgo : ∀ j, groupOf (done ++ [g]) j = if j ∈ g then (if groupOf done j = none then some done.length else groupOf done j)
          else groupOf done j := by
        intro j
        unfold groupOf
        rw [List.findIdx?_append]
        cases hf : List.findIdx? (fun g => decide (j ∈ g)) done with
        | some x => simp
        | none => by_cases hj : j ∈ g <;> simp [hj]
      have hgo' : ∀ j, s1.table.getD j none = groupOf (done ++ [g]) j := by
        intro j
        rw [e5, hgo, hn]
        by_cases hj : j ∈ g
        · simp [hj, hg.2 j hj]
        · simp [hj]
      obtain ⟨c, d⟩ := ih (done ++ [g]) (fun g' hg' => hids g' (by simp [hg'])) s1 (by simp [e4, hn]) hgo'
      have hequiv : (((g :: gs).flatten).Nodup ∧ ∀ id ∈ (g :: gs).flatten, groupOf done id = none) ↔
          (gs.flatten.Nodup ∧ ∀ id ∈ gs.flatten, groupOf (done ++ [g]) id = none) := by
        rw [List.flatten_cons, List.nodup_append]
        constructor
        · rintro ⟨⟨h1, h2, h3⟩, h4⟩
          refine ⟨h2, fun id hid => ?_⟩
          have hng : id ∉ g := fun h => h3 id h id hid rfl
          rw [hgo, if_neg hng]
          exact h4 id (List.mem_append_right _ hid)
        · rintro ⟨h1, h2⟩
          have h3 : ∀ id ∈ gs.flatten, id ∉ g ∧ groupOf done id = none := by
            intro id hid
            have := h2 id hid
            rw [hgo] at this
            by_cases hin : id ∈ g
            · rw [if_pos hin] at this
              split at this
              · cases this
              · contradiction
            · rw [if_neg hin] at this
              exact ⟨hin, this⟩
          refine ⟨⟨hg.1, h1, ?_⟩, ?_⟩
          · intro x hx y hy hxy
            subst hxy
            exact (h3 x hy).1 hx
          · intro id hid
            rcases List.mem_append.1 hid with h | h
            · exact hg.2 id h
            · exact (h3 id h).2
      constructor
      · intro h
        obtain ⟨s2, f1, f2, f3, f4, f5⟩ := c (hequiv.1 h)
        refine ⟨s2, by simp [regAll, e1, f1], by rw [f2, e2], by rw [f3, e3], ?_, ?_⟩
        · rw [f4]; simp; omega
        · intro j; rw [f5]; simp
      · intro h
        have := d (fun h' => h (hequiv.2 h'))
        simp [regAll, e1, this]
    · constructor
      · rintro ⟨h1, h2⟩
        exfalso
        apply hg
        rw [List.flatten_cons] at h1 h2
        exact ⟨(List.nodup_append.1 h1).1, fun id hid => h2 id (List.mem_append_left _ hid)⟩
      · intro _
        simp [regAll, b hg]

/-! ### Deposits -/

/-- weighted total of a charge vector -/
def wt (np : Nat) (w : Nat → ℚ) (v : List ℚ) : ℚ := ∑ i ∈ Finset.range np, w i * v.getD i 0

theorem wt_set (np : Nat) (w : Nat → ℚ) (v : List ℚ) (i : Nat) (q : ℚ) (hv : v.length = np) (hi : i < np) :
    wt np w (v.set i (v.getD i 0 + q)) = wt np w v + w i * q := by
  unfold wt
  have : ∀ j ∈ Finset.range np, w j * (v.set i (v.getD i 0 + q)).getD j 0 = w j * v.getD j 0 + (if j = i then w i * q else 0) := by
    intro j _
    rw [getD_set _ _ _ _ _ (by omega)]
    by_cases h : j = i
    · subst h; simp; ring
    · simp [h]
  rw [Finset.sum_congr rfl this, Finset.sum_add_distrib, Finset.sum_ite_eq' ]
  simp [hi]

theorem wt_zero (np : Nat) (w : Nat → ℚ) : wt np w (List.replicate np 0) = 0 := by
  unfold wt
  apply Finset.sum_eq_zero
  intro j _
  have : (List.replicate np (0 : ℚ)).getD j 0 = 0 := by
    simp only [List.getD, List.getElem?_replicate]; split <;> rfl
  rw [this, mul_zero]

theorem wt_nil (np : Nat) (w : Nat → ℚ) : wt np w [] = 0 := by
  unfold wt
  apply Finset.sum_eq_zero
  intro j _
  simp

/-- entry of the charge vectors a track's electrons go to; `np` is the vector length -/
def slot (table : List (Option Nat)) (np : Nat) (t : Int) : Nat :=
  match table.getD t.toNat none with
  | some i => if np ≤ i then np - 1 else i
  | none => np - 1

theorem slot_lt (table : List (Option Nat)) (np : Nat) (t : Int) (hn : 0 < np) : slot table np t < np := by
  unfold slot
  split
  · split <;> omega
  · omega

theorem ideLoop_spec (table : List (Option Nat)) (np : Nat) (hn : 0 < np) (ides : List Ide) (h0 : ∀ x ∈ ides, 0 ≤ x.trackID)
    (e r : List ℚ) (he : e.length = np) (hr : r.length = np) :
    ∃ e' r', ideLoop table np ides e r = .ok (e', r') ∧ e'.length = np ∧ r'.length = np ∧
      (∀ w, wt np w e' = wt np w e + (ides.map (fun x => w (slot table np x.trackID) * x.q)).sum) ∧
      (∀ w, wt np w r' = wt np w r + (ides.map (fun x => w (slot table np x.trackID) * x.q)).sum) := by
  induction ides generalizing e r with
  | nil => exact ⟨e, r, rfl, he, hr, by simp, by simp⟩
  | cons x xs ih =>
    have hx := h0 x (by simp)
    have hlook : lookupTrack table x.trackID = .ok (table.getD x.trackID.toNat none) := by
      unfold lookupTrack
      split
      · rw [if_neg (by omega)]
      · rename_i h
        rw [List.getD, List.getElem?_eq_none (by omega)]; rfl
    have hlt := slot_lt table np x.trackID hn
    obtain ⟨e', r', a1, a2, a3, a4, a5⟩ := ih (fun y hy => h0 y (by simp [hy]))
      (e.set (slot table np x.trackID) (e.getD (slot table np x.trackID) 0 + x.q))
      (r.set (slot table np x.trackID) (r.getD (slot table np x.trackID) 0 + x.q)) (by simp [he]) (by simp [hr])
    refine ⟨e', r', ?_, a2, a3, ?_, ?_⟩
    · unfold ideLoop
      rw [hlook]
      dsimp only
      generalize hsl : slot table np x.trackID = sl at a1 hlt
      unfold slot at hsl
      cases hcase : table.getD x.trackID.toNat none with
      | none =>
        rw [hcase] at hsl
        dsimp only at hsl
        subst hsl
        simp only [Option.getD_none, addAt, he, hr, hlt, if_true]
        exact a1
      | some i =>
        rw [hcase] at hsl
        dsimp only at hsl ⊢
        by_cases hi : np ≤ i
        · rw [if_pos hi] at hsl
          subst hsl
          simp only [hi, Option.getD_none, addAt, he, hr, hlt, if_true]
          exact a1
        · rw [if_neg hi] at hsl
          subst hsl
          simp only [hi, Option.getD_some, addAt, he, hr, hlt, if_true, if_false]
          exact a1
    · intro w
      rw [a4, wt_set _ _ _ _ _ he hlt, List.map_cons, List.sum_cons]; ring
    · intro w
      rw [a5, wt_set _ _ _ _ _ hr hlt, List.map_cons, List.sum_cons]; ring

/-- weighted total of a channel's entries at the times satisfying `P` -/
def cw (np : Nat) (w : Nat → ℚ) (P : Nat → Bool) (c : ChInfo) : ℚ := (c.map (fun p => if P p.1 then wt np w p.2 else 0)).sum

/-- well-formed channel info: keys increasing, vectors of the right length -/
def ChOk (np : Nat) (c : ChInfo) : Prop := c.Pairwise (fun a b => a.1 < b.1) ∧ ∀ p ∈ c, p.2.length = np

theorem getTime_cons (t : Nat) (k : Nat) (x : List ℚ) (c : ChInfo) :
    getTime t ((k, x) :: c) = if k = t then x else getTime t c := by
  unfold getTime
  rw [List.find?_cons]
  by_cases h : k = t
  · simp [h]
  · have : (k == t) = false := by simpa using h
    simp [h, this]

theorem getTime_small (t : Nat) (c : ChInfo) (h : ∀ p ∈ c, t < p.1) : getTime t c = [] := by
  unfold getTime
  rw [List.find?_eq_none.2 (by intro p hp; have := h p hp; simp; omega)]
  rfl

theorem getTime_length {np : Nat} (t : Nat) (c : ChInfo) (h : ChOk np c) : (getTime t c).length = 0 ∨ (getTime t c).length = np := by
  unfold getTime
  cases hf : c.find? (fun p => p.1 == t) with
  | none => left; rfl
  | some p => right; exact h.2 p (List.mem_of_find?_eq_some hf)

theorem putTime_spec {np : Nat} (t : Nat) (e : List ℚ) (c : ChInfo) (hc : ChOk np c) (he : e.length = np) :
    ChOk np (putTime t e c) ∧ (∀ p ∈ putTime t e c, p.1 = t ∨ ∃ p' ∈ c, p'.1 = p.1) ∧
    ∀ w P, cw np w P (putTime t e c) = cw np w P c + (if P t then wt np w e - wt np w (getTime t c) else 0) := by
  induction c with
  | nil =>
    refine ⟨⟨by simp [putTime], by simp [putTime, he]⟩, by simp [putTime], fun w P => ?_⟩
    simp only [putTime, cw, List.map_cons, List.map_nil, List.sum_cons, List.sum_nil]
    have : getTime t [] = [] := rfl
    rw [this, wt_nil]
    split <;> ring
  | cons a c ih =>
    obtain ⟨k, x⟩ := a
    obtain ⟨h1, h2⟩ := hc
    obtain ⟨h3, h4⟩ := List.pairwise_cons.1 h1
    obtain ⟨ia, ib, ic⟩ := ih ⟨h4, fun p hp => h2 p (by simp [hp])⟩
    unfold putTime
    split
    · rename_i htk
      refine ⟨⟨List.pairwise_cons.2 ⟨?_, h1⟩, ?_⟩, ?_, fun w P => ?_⟩
      · intro p hp
        rcases List.mem_cons.1 hp with e' | e'
        · subst e'; exact htk
        · exact lt_trans htk (h3 p e')
      · intro p hp
        rcases List.mem_cons.1 hp with e' | e'
        · subst e'; exact he
        · exact h2 p e'
      · intro p hp
        rcases List.mem_cons.1 hp with e' | e'
        · subst e'; left; rfl
        · right; exact ⟨p, e', rfl⟩
      · rw [getTime_cons, if_neg (show ¬ k = t by omega), getTime_small t c (fun p hp => lt_trans htk (h3 p hp)), wt_nil]
        simp only [cw, List.map_cons, List.sum_cons]
        split <;> ring
    · split
      · rename_i _ htk
        subst htk
        refine ⟨⟨List.pairwise_cons.2 ⟨h3, h4⟩, ?_⟩, ?_, fun w P => ?_⟩
        · intro p hp
          rcases List.mem_cons.1 hp with e' | e'
          · subst e'; exact he
          · exact h2 p (by simp [e'])
        · intro p hp
          rcases List.mem_cons.1 hp with e' | e'
          · subst e'; left; rfl
          · right; exact ⟨p, by simp [e'], rfl⟩
        · rw [getTime_cons, if_pos rfl]
          simp only [cw, List.map_cons, List.sum_cons]
          split <;> ring
      · rename_i htk1 htk2
        refine ⟨⟨List.pairwise_cons.2 ⟨?_, ia.1⟩, ?_⟩, ?_, fun w P => ?_⟩
        · intro p hp
          rcases ib p hp with e' | ⟨p', hp', e'⟩
          · rw [e']; show k < t; omega
          · rw [← e']; exact h3 p' hp'
        · intro p hp
          rcases List.mem_cons.1 hp with e' | e'
          · subst e'; exact h2 _ (by simp)
          · exact ia.2 p e'
        · intro p hp
          rcases List.mem_cons.1 hp with e' | e'
          · subst e'; right; exact ⟨_, by simp, rfl⟩
          · rcases ib p e' with q | ⟨p', hp', q⟩
            · left; exact q
            · right; exact ⟨p', by simp [hp'], q⟩
        · rw [getTime_cons, if_neg (show ¬ k = t by omega)]
          have := ic w P
          simp only [cw, List.map_cons, List.sum_cons] at this ⊢
          rw [this]; ring

/-- weighted electrons of a list of TDC entries at the times satisfying `P` -/
def tq (table : List (Option Nat)) (np : Nat) (w : Nat → ℚ) (P : Nat → Bool) (l : List (Nat × List Ide)) : ℚ :=
  (l.map (fun p => if P p.1 then (p.2.map (fun x => w (slot table np x.trackID) * x.q)).sum else 0)).sum

theorem tdcLoop_spec (table : List (Option Nat)) (np : Nat) (hn : 0 < np) (l : List (Nat × List Ide))
    (h0 : ∀ p ∈ l, ∀ x ∈ p.2, 0 ≤ x.trackID) (c : ChInfo) (r : List ℚ) (hc : ChOk np c) (hr : r.length = np) :
    ∃ c' r', tdcLoop table np l c r = .ok (c', r') ∧ ChOk np c' ∧ r'.length = np ∧
      (∀ w P, cw np w P c' = cw np w P c + tq table np w P l) ∧
      (∀ w, wt np w r' = wt np w r + tq table np w (fun _ => true) l) := by
  induction l generalizing c r with
  | nil => exact ⟨c, r, rfl, hc, hr, by simp [tq], by simp [tq]⟩
  | cons a l ih =>
    obtain ⟨t, ides⟩ := a
    have hl0 : (if (getTime t c).length = 0 then resize (getTime t c) np 0 else getTime t c).length = np ∧
        ∀ w, wt np w (if (getTime t c).length = 0 then resize (getTime t c) np 0 else getTime t c) = wt np w (getTime t c) := by
      by_cases h : (getTime t c).length = 0
      · have hnil := List.length_eq_zero_iff.1 h
        rw [if_pos h, hnil]
        refine ⟨resize_length _ _ _ (by simp), fun w => ?_⟩
        have : resize ([] : List ℚ) np 0 = List.replicate np 0 := by simp [resize]
        rw [this, wt_zero, wt_nil]
      · rw [if_neg h]
        exact ⟨(getTime_length t c hc).resolve_left h, fun _ => rfl⟩
    obtain ⟨e', r1, a1, a2, a3, a4, a5⟩ := ideLoop_spec table np hn ides (h0 (t, ides) (by simp)) _ r hl0.1 hr
    obtain ⟨p1, _, p3⟩ := putTime_spec t e' c hc a2
    obtain ⟨c', r', b1, b2, b3, b4, b5⟩ := ih (fun p hp => h0 p (by simp [hp])) (putTime t e' c) r1 p1 a3
    refine ⟨c', r', ?_, b2, b3, ?_, ?_⟩
    · unfold tdcLoop
      dsimp only
      rw [a1]
      exact b1
    · intro w P
      rw [b4, p3, a4, hl0.2]
      simp only [tq, List.map_cons, List.sum_cons]
      split <;> ring
    · intro w
      rw [b5, a5]
      simp only [tq, List.map_cons, List.sum_cons, if_true]
      ring

/-- weighted electrons on the channels satisfying `C`, at the times satisfying `P` -/
def sq (table : List (Option Nat)) (np : Nat) (w : Nat → ℚ) (C P : Nat → Bool) (sim : List SimCh) : ℚ :=
  (sim.map (fun x => if C x.ch then tq table np w P x.tdcs else 0)).sum

/-- acceptable simulation input -/
def SimOk (g : Geo) (sim : List SimCh) : Prop :=
  ∀ x ∈ sim, x.ch + 1 < U32 ∧ g.planeOf x.ch < g.nplanes ∧ ∀ p ∈ x.tdcs, ∀ i ∈ p.2, 0 ≤ i.trackID

structure StOk (g : Geo) (s : BT) : Prop where
  pos : 0 < s.nparts
  rows : s.sumq.length = g.nplanes
  row : ∀ r ∈ s.sumq, r.length = s.nparts
  chan : ∀ c ∈ s.event, ChOk s.nparts c

theorem mem_resize {α : Type} {l : List α} {n : Nat} {v x : α} (h : x ∈ resize l n v) : x ∈ l ∨ x = v := by
  unfold resize at h
  rcases List.mem_append.1 h with h | h
  · exact Or.inl (List.mem_of_mem_take h)
  · exact Or.inr (List.mem_replicate.1 h).2

/-- weighted content of a channel -/
def BT.chw (s : BT) (ch : Nat) (w : Nat → ℚ) (P : Nat → Bool) : ℚ := cw s.nparts w P (s.event.getD ch [])

theorem chLoop_spec (g : Geo) (sim : List SimCh) (hsim : SimOk g sim) (s : BT) (hs : StOk g s) :
    ∃ s', chLoop g sim s = .ok s' ∧ StOk g s' ∧ s'.table = s.table ∧ s'.nparts = s.nparts ∧
      (∀ p w, p < g.nplanes → wt s.nparts w (s'.sumq.getD p []) = wt s.nparts w (s.sumq.getD p []) +
        sq s.table s.nparts w (fun c => decide (g.planeOf c = p)) (fun _ => true) sim) ∧
      (∀ ch w P, s'.chw ch w P = s.chw ch w P + sq s.table s.nparts w (fun c => decide (c = ch)) P sim) := by
  induction sim generalizing s with
  | nil => exact ⟨s, rfl, hs, rfl, rfl, by simp [sq], by simp [sq]⟩
  | cons x xs ih =>
    obtain ⟨hx1, hx2, hx3⟩ := hsim x (by simp)
    have hmod : (x.ch + 1) % U32 = x.ch + 1 := Nat.mod_eq_of_lt hx1
    unfold chLoop
    generalize hev : (if s.event.length ≤ x.ch then resize s.event ((x.ch + 1) % U32) [] else s.event) = event
    have hlen : x.ch < event.length := by
      rw [← hev]
      split
      · rw [hmod, resize_length _ _ _ (by omega)]; omega
      · omega
    have hget : ∀ j, event.getD j [] = s.event.getD j [] := by
      intro j
      rw [← hev]
      split
      · rw [hmod, resize_getD _ _ _ (by omega)]
      · rfl
    have hmem : ∀ c ∈ event, ChOk s.nparts c := by
      intro c hc
      rw [← hev] at hc
      split at hc
      · rcases mem_resize hc with h | h
        · exact hs.chan c h
        · subst h; exact ⟨List.Pairwise.nil, by simp⟩
      · exact hs.chan c hc
    have hplane : g.planeOf x.ch < s.sumq.length := by rw [hs.rows]; exact hx2
    have e1 : event[x.ch]? = some (event[x.ch]) := List.getElem?_eq_getElem hlen
    have e2 : s.sumq[g.planeOf x.ch]? = some (s.sumq[g.planeOf x.ch]) := List.getElem?_eq_getElem hplane
    dsimp only
    rw [e1, e2]
    dsimp only
    obtain ⟨c', r', a1, a2, a3, a4, a5⟩ := tdcLoop_spec s.table s.nparts hs.pos x.tdcs hx3 event[x.ch]
      s.sumq[g.planeOf x.ch] (hmem _ (List.getElem_mem hlen)) (hs.row _ (List.getElem_mem hplane))
    rw [a1]
    dsimp only
    obtain ⟨s', b1, b2, b3, b4, b5, b6⟩ := ih (fun y hy => hsim y (by simp [hy]))
      { s with event := event.set x.ch c', sumq := s.sumq.set (g.planeOf x.ch) r' }
      { pos := hs.pos, rows := by simp [hs.rows],
        row := by
          intro r hr
          rcases List.mem_or_eq_of_mem_set hr with h | h
          · exact hs.row r h
          · subst h; exact a3
        chan := by
          intro c hc
          rcases List.mem_or_eq_of_mem_set hc with h | h
          · exact hmem c h
          · subst h; exact a2 }
    refine ⟨s', b1, b2, b3, b4, ?_, ?_⟩
    · intro p w hp
      rw [b5 p w hp]
      dsimp only
      rw [getD_set _ _ _ _ _ hplane]
      simp only [sq, List.map_cons, List.sum_cons, decide_eq_true_eq]
      by_cases h : p = g.planeOf x.ch
      · subst h
        rw [if_pos rfl, if_pos rfl, a5]
        have : s.sumq.getD (g.planeOf x.ch) [] = s.sumq[g.planeOf x.ch] := by simp [List.getD, e2]
        rw [this]; ring
      · rw [if_neg h, if_neg (fun e => h e.symm)]; ring
    · intro ch w P
      rw [b6 ch w P]
      unfold BT.chw
      dsimp only
      rw [getD_set _ _ _ _ _ hlen]
      simp only [sq, List.map_cons, List.sum_cons, decide_eq_true_eq]
      by_cases h : ch = x.ch
      · subst h
        rw [if_pos rfl, if_pos rfl, a4, ← hget x.ch]
        have : event.getD x.ch [] = event[x.ch] := by simp [List.getD, e1]
        rw [this]; ring
      · rw [if_neg h, if_neg (fun e => h e.symm), hget]; ring

theorem processSim_spec (g : Geo) (sim : List SimCh) (hsim : SimOk g sim) (s : BT) (he : s.event = []) (hq : s.sumq = [])
    (hn : 0 < s.nparts) :
    ∃ s', processSim g sim s = .ok s' ∧ StOk g s' ∧ s'.table = s.table ∧ s'.nparts = s.nparts ∧
      (∀ p w, p < g.nplanes → wt s.nparts w (s'.sumq.getD p []) =
        sq s.table s.nparts w (fun c => decide (g.planeOf c = p)) (fun _ => true) sim) ∧
      (∀ ch w P, s'.chw ch w P = sq s.table s.nparts w (fun c => decide (c = ch)) P sim) := by
  unfold processSim
  rw [hq]
  have hr : resize ([] : List (List ℚ)) g.nplanes (List.replicate s.nparts 0) =
      List.replicate g.nplanes (List.replicate s.nparts 0) := by simp [resize]
  rw [hr]
  obtain ⟨s', h1, h2, h3, h4, h5, h6⟩ := chLoop_spec g sim hsim
    { s with sumq := List.replicate g.nplanes (List.replicate s.nparts 0) }
    { pos := hn, rows := by simp, row := by intro r hr; rw [(List.mem_replicate.1 hr).2]; simp,
      chan := by intro c hc; rw [show _ = _ from he] at hc; simp at hc }
  refine ⟨s', h1, h2, h3, h4, ?_, ?_⟩
  · intro p w hp
    rw [h5 p w hp]
    have : (List.replicate g.nplanes (List.replicate s.nparts (0 : ℚ))).getD p [] = List.replicate s.nparts 0 := by
      simp [List.getD, List.getElem?_replicate, hp]
    dsimp only
    rw [this, wt_zero, zero_add]
  · intro ch w P
    rw [h6 ch w P]
    have : (({ s with sumq := List.replicate g.nplanes (List.replicate s.nparts 0) } : BT).chw ch w P) = 0 := by
      simp [BT.chw, he, cw]
    rw [this, zero_add]

/-! ### Windows -/

theorem addVec_length (np : Nat) (a b : List ℚ) : (addVec np a b).length = np := by simp [addVec]
theorem addVec_getD (np : Nat) (a b : List ℚ) (k : Nat) (hk : k < np) :
    (addVec np a b).getD k 0 = a.getD k 0 + b.getD k 0 := by
  simp [addVec, List.getD, hk]

theorem winLoop_spec (np : Nat) (c : ChInfo) (up : Nat) (hup : up ≤ c.length) (fuel i : Nat) (hi : i ≤ up)
    (hf : up - i < fuel) (res : List ℚ) (hr : res.length = np) :
    (winLoop np c up fuel i res).length = np ∧ ∀ k, k < np →
      (winLoop np c up fuel i res).getD k 0 = res.getD k 0 + (((c.take up).drop i).map (fun p => p.2.getD k 0)).sum := by
  induction fuel generalizing i res with
  | zero => omega
  | succ fuel ih =>
    unfold winLoop
    by_cases h : i = up
    · subst h
      rw [if_pos rfl]
      refine ⟨hr, fun k _ => ?_⟩
      rw [List.drop_of_length_le (by rw [List.length_take]; omega)]
      simp
    · rw [if_neg h]
      have hlt : i < c.length := by omega
      rw [List.getElem?_eq_getElem hlt]
      obtain ⟨h1, h2⟩ := ih (i + 1) (by omega) (by omega) (addVec np res c[i].2) (addVec_length _ _ _)
      refine ⟨h1, fun k hk => ?_⟩
      show (winLoop np c up fuel (i + 1) (addVec np res c[i].2)).getD k 0 = _
      rw [h2 k hk, addVec_getD _ _ _ _ hk]
      have : (c.take up).drop i = c[i] :: (c.take up).drop (i + 1) := by
        rw [List.drop_eq_getElem_cons (by rw [List.length_take]; omega)]
        simp
      rw [this, List.map_cons, List.sum_cons]; ring

theorem takeWhile_sorted (c : ChInfo) (hc : c.Pairwise (fun a b => a.1 < b.1)) (p : Nat → Bool)
    (hp : ∀ a b, a ≤ b → p b = true → p a = true) :
    c.takeWhile (fun x => p x.1) = c.filter (fun x => p x.1) ∧
    c.dropWhile (fun x => p x.1) = c.filter (fun x => ! p x.1) := by
  induction c with
  | nil => simp
  | cons a c ih =>
    obtain ⟨h1, h2⟩ := List.pairwise_cons.1 hc
    obtain ⟨i1, i2⟩ := ih h2
    by_cases h : p a.1 = true
    · simp [List.takeWhile_cons, List.dropWhile_cons, h, i1, i2]
    · have hn : ∀ b ∈ c, p b.1 = false := by
        intro b hb
        by_contra hc'
        exact h (hp a.1 b.1 (le_of_lt (h1 b hb)) (by simpa using hc'))
      have hf : c.filter (fun x => p x.1) = [] := by
        rw [List.filter_eq_nil_iff]; intro b hb; simp [hn b hb]
      have hf2 : c.filter (fun x => ! p x.1) = c := by
        rw [List.filter_eq_self]; intro b hb; simp [hn b hb]
      simp [List.takeWhile_cons, List.dropWhile_cons, h, hf, hf2]

theorem window_filter (c : ChInfo) (hc : c.Pairwise (fun a b => a.1 < b.1)) (lo hi : Nat) (h : lo ≤ hi + 1) :
    lowerBound c lo ≤ upperBound c hi ∧ upperBound c hi ≤ c.length ∧
    (c.take (upperBound c hi)).drop (lowerBound c lo) = c.filter (fun p => decide (lo ≤ p.1 ∧ p.1 ≤ hi)) := by
  unfold lowerBound upperBound
  have h1 := takeWhile_sorted c hc (fun t => decide (t < lo)) (by intro a b; simp; omega)
  have h2 := takeWhile_sorted c hc (fun t => decide (t ≤ hi)) (by intro a b; simp; omega)
  have htk : c.take (c.takeWhile (fun p => decide (p.1 ≤ hi))).length = c.takeWhile (fun p => decide (p.1 ≤ hi)) := by
    conv_lhs => rw [← List.takeWhile_append_dropWhile (p := fun p : Nat × List ℚ => decide (p.1 ≤ hi)) (l := c)]
    rw [List.take_append_of_le_length (by simp)]
    simp
  rw [htk]
  have hs : (c.filter (fun p => decide (p.1 ≤ hi))).Pairwise (fun a b => a.1 < b.1) := hc.filter _
  have h3 := takeWhile_sorted _ hs (fun t => decide (t < lo)) (by intro a b; simp; omega)
  have hEq : c.takeWhile (fun p => decide (p.1 < lo)) =
      (c.takeWhile (fun p => decide (p.1 ≤ hi))).takeWhile (fun p => decide (p.1 < lo)) := by
    rw [h2.1, h3.1, h1.1, List.filter_filter]
    apply List.filter_congr
    intro p _
    by_cases hp : p.1 < lo
    · have : p.1 ≤ hi := by omega
      simp [hp, this]
    · simp [hp]
  refine ⟨?_, ?_, ?_⟩
  · rw [hEq]
    exact (List.takeWhile_sublist _).length_le
  · exact (List.takeWhile_sublist _).length_le
  · rw [hEq]
    have : ∀ l : ChInfo, l.drop (l.takeWhile (fun p => decide (p.1 < lo))).length = l.dropWhile (fun p => decide (p.1 < lo)) := by
      intro l
      conv_lhs => rw [← List.takeWhile_append_dropWhile (p := fun p : Nat × List ℚ => decide (p.1 < lo)) (l := l)]
      rw [List.drop_append_of_le_length (by simp)]
      simp
    rw [this, h2.1, h3.2, List.filter_filter]
    apply List.filter_congr
    intro p _
    by_cases hp : p.1 < lo
    · simp [hp]
    · have : lo ≤ p.1 := by omega
      simp [hp, this]

theorem wt_single (np : Nat) (v : List ℚ) (k : Nat) (hk : k < np) :
    wt np (fun i => if i = k then 1 else 0) v = v.getD k 0 := by
  unfold wt
  simp only [ite_mul, one_mul, zero_mul]
  rw [Finset.sum_ite_eq']
  simp [hk]

theorem wt_one (v : List ℚ) : wt v.length (fun _ => 1) v = v.sum := by
  unfold wt
  simp only [one_mul]
  induction v with
  | nil => simp
  | cons a v ih =>
    rw [List.length_cons, Finset.sum_range_succ', List.sum_cons, ← ih]
    simp only [List.getD_cons_succ, List.getD_cons_zero]
    ring

theorem sum_filter_ite (c : ChInfo) (P : Nat → Bool) (f : List ℚ → ℚ) :
    ((c.filter (fun p => P p.1)).map (fun p => f p.2)).sum = (c.map (fun p => if P p.1 then f p.2 else 0)).sum := by
  induction c with
  | nil => simp
  | cons a c ih =>
    by_cases h : P a.1 = true
    · simp [List.filter_cons, h, ih]
    · simp [List.filter_cons, h, ih]

theorem mcq_spec {g : Geo} {s : BT} (hs : StOk g s) (h : Win) (hw : h.lo ≤ h.hi + 2) (hhi : h.hi + 1 < U32) :
    (s.mcq h).length = s.nparts ∧ ∀ k, k < s.nparts → (s.mcq h).getD k 0 =
      s.chw h.ch (fun i => if i = k then 1 else 0) (fun t => decide (h.lo ≤ t ∧ t ≤ h.hi + 1)) := by
  unfold BT.mcq
  cases hc : s.event[h.ch]? with
  | none =>
    refine ⟨by simp, fun k hk => ?_⟩
    have : s.event.getD h.ch [] = [] := by simp [List.getD, hc]
    simp only [BT.chw, this, cw, List.map_nil, List.sum_nil]
    simp [List.getD, List.getElem?_replicate, hk]
  | some c =>
    have hcok := hs.chan c (List.mem_of_getElem? hc)
    have hmod : (h.hi + 1) % U32 = h.hi + 1 := Nat.mod_eq_of_lt hhi
    rw [hmod]
    obtain ⟨w1, w2, w3⟩ := window_filter c hcok.1 h.lo (h.hi + 1) (by omega)
    obtain ⟨a, b⟩ := winLoop_spec s.nparts c _ w2 (c.length + 1) _ w1 (by omega) (List.replicate s.nparts 0) (by simp)
    refine ⟨a, fun k hk => ?_⟩
    show (winLoop _ _ _ _ _ _).getD k 0 = _
    rw [b k hk, w3]
    have hz : (List.replicate s.nparts (0 : ℚ)).getD k 0 = 0 := by simp [List.getD, List.getElem?_replicate, hk]
    have he : s.event.getD h.ch [] = c := by simp [List.getD, hc]
    rw [hz, zero_add, BT.chw, he, cw]
    have := sum_filter_ite c (fun t => decide (h.lo ≤ t ∧ t ≤ h.hi + 1)) (fun v => v.getD k 0)
    rw [this]
    congr 1
    apply List.map_congr_left
    intro p _
    rw [wt_single _ _ _ hk]

theorem mcqList_spec {g : Geo} {s : BT} (_hs : StOk g s) (hs : List Win) :
    (s.mcqList hs).length = s.nparts ∧ ∀ k, k < s.nparts → (s.mcqList hs).getD k 0 =
      (hs.map (fun h => (s.mcq h).getD k 0)).sum := by
  unfold BT.mcqList
  have gen : ∀ (l : List Win) (res : List ℚ), res.length = s.nparts →
      (l.foldl (fun res h => addVec s.nparts res (s.mcq h)) res).length = s.nparts ∧ ∀ k, k < s.nparts →
        (l.foldl (fun res h => addVec s.nparts res (s.mcq h)) res).getD k 0 =
          res.getD k 0 + (l.map (fun h => (s.mcq h).getD k 0)).sum := by
    intro l
    induction l with
    | nil => intro res hr; exact ⟨hr, fun k _ => by simp⟩
    | cons h l ih =>
      intro res hr
      obtain ⟨a, b⟩ := ih (addVec s.nparts res (s.mcq h)) (addVec_length _ _ _)
      refine ⟨a, fun k hk => ?_⟩
      rw [List.foldl_cons, b k hk, addVec_getD _ _ _ _ hk, List.map_cons, List.sum_cons]; ring
  obtain ⟨a, b⟩ := gen hs (List.replicate s.nparts 0) (by simp)
  refine ⟨a, fun k hk => ?_⟩
  rw [b k hk]
  simp [List.getD, List.getElem?_replicate, hk]

end Verif.MCComp

import Verif.CMTool.CombProps
import Verif.CMTool.MatchBKProps
/-! # Property C11: the match manager's combinations -/
namespace Verif.CMTool
open Verif

section
variable {κ : Type} [LinearOrder κ] [Zero κ] {η : Type}

/-! ## Specification -/

/-- plane of input cluster `i` -/
def planeOf (cs : List (Cluster η)) (i : Nat) : Nat := (cs[i]?.map (·.plane)).getD 0

/-- A candidate match: at least two input clusters of positive priority, on pairwise different planes (listed
in ascending plane order, which makes the list a canonical representation of the set). -/
def IsCandidate (cs : List (Cluster η)) (prio : Nat → κ) (s : List Nat) : Prop :=
  2 ≤ s.length ∧ (s.map (planeOf cs)).Pairwise (· < ·) ∧ ∀ i ∈ s, i < cs.length ∧ prio i > 0

/-! ## Lemmas -/

theorem planeOf_eq {cs : List (Cluster η)} {i : Nat} {c : Cluster η} (h : cs[i]? = some c) :
    planeOf cs i = c.plane := by simp [planeOf, h]

theorem mem_planesBelow {cs : List (Cluster η)} {order : List Nat} {b p : Nat}
    (ho : ∀ i ∈ order, i < cs.length) :
    p ∈ planesBelow cs order b ↔ p < b ∧ ∃ i ∈ order, planeOf cs i = p := by
  unfold planesBelow
  simp only [List.mem_filter, List.mem_range, List.any_eq_true, beq_iff_eq]
  constructor
  · rintro ⟨h, i, hi, e⟩
    exact ⟨h, i, hi, by simp [planeOf, e]⟩
  · rintro ⟨h, i, hi, e⟩
    refine ⟨h, i, hi, ?_⟩
    have hlt := ho i hi
    simp only [planeOf, List.getElem?_eq_getElem hlt, Option.map_some, Option.getD_some] at e
    rw [List.getElem?_eq_getElem hlt, Option.map_some, e]

theorem planesBelow_sorted (cs : List (Cluster η)) (order : List Nat) (b : Nat) :
    (planesBelow cs order b).Pairwise (· < ·) :=
  List.Pairwise.filter _ List.pairwise_lt_range

/-- array content: clusters of plane `planes[k]` in visiting order -/
def arrOf (cs : List (Cluster η)) (planes order : List Nat) : List (List Nat) :=
  planes.map (fun p => order.filter (fun i => planeOf cs i = p))

theorem fillArray_ok (cs : List (Cluster η)) (planes : List Nat) (hp : planes.Nodup) (order done : List Nat)
    (ho : ∀ i ∈ order, i < cs.length) (hm : ∀ i ∈ order, planeOf cs i ∈ planes) :
    fillArray cs planes order (arrOf cs planes done) = .ok (arrOf cs planes (done ++ order)) := by
  induction order generalizing done with
  | nil => simp [fillArray]
  | cons i is ih =>
    have hi := ho i (by simp)
    have hpi := hm i (by simp)
    rw [show planeOf cs i = cs[i].plane from planeOf_eq (List.getElem?_eq_getElem hi)] at hpi
    unfold fillArray
    rw [List.getElem?_eq_getElem hi]
    simp only []
    have hk : planes.idxOf cs[i].plane < planes.length := List.idxOf_lt_length_iff.2 hpi
    have e1 : planes.idxOf? cs[i].plane = some (planes.idxOf cs[i].plane) := by
      cases h : planes.idxOf? cs[i].plane with
      | none => exact absurd hpi (by simpa using h)
      | some k => rw [List.idxOf_eq_getD_idxOf?, h]; rfl
    rw [e1]
    simp only []
    have e2 : (arrOf cs planes done)[planes.idxOf cs[i].plane]? =
        some (done.filter (fun j => planeOf cs j = cs[i].plane)) := by
      unfold arrOf
      rw [List.getElem?_map, List.getElem?_eq_getElem hk]
      simp
    rw [e2]
    simp only []
    have e3 : (arrOf cs planes done).set (planes.idxOf cs[i].plane)
        (done.filter (fun j => planeOf cs j = cs[i].plane) ++ [i]) = arrOf cs planes (done ++ [i]) := by
      apply List.ext_getElem
      · simp [arrOf]
      · intro k h1 h2
        simp only [arrOf, List.length_set, List.length_map] at h1
        rw [List.getElem_set]
        have hpl : planeOf cs i = cs[i].plane := planeOf_eq (List.getElem?_eq_getElem hi)
        split
        · rename_i he
          subst he
          simp [arrOf, List.filter_append, hpl]
        · rename_i he
          have hne : cs[i].plane ≠ planes[k] := by
            intro h
            apply he
            rw [h]
            exact hp.idxOf_getElem k h1
          simp [arrOf, List.filter_append, hpl, hne]
    rw [e3, ih (done ++ [i]) (fun j hj => ho j (by simp [hj])) (fun j hj => hm j (by simp [hj]))]
    simp

/-- the cluster picked by one (plane, position) pair -/
def pick (arr : List (List Nat)) (p : Nat × Nat) : Nat := ((arr[p.1]?.getD [])[p.2]?).getD 0

theorem pickComb_ok (arr : List (List Nat)) (c : List (Nat × Nat))
    (h : ∀ p ∈ c, ∃ n, (arr.map List.length)[p.1]? = some n ∧ p.2 < n) :
    pickComb arr c = .ok (c.map (pick arr)) := by
  induction c with
  | nil => rfl
  | cons p c ih =>
    obtain ⟨a, b⟩ := p
    obtain ⟨n, h1, h2⟩ := h (a, b) (by simp)
    rw [List.getElem?_map, Option.map_eq_some_iff] at h1
    obtain ⟨l, hl, rfl⟩ := h1
    dsimp only at hl h2
    simp only [pickComb, hl, List.getElem?_eq_getElem h2]
    rw [ih (fun q hq => h q (by simp [hq]))]
    simp [pick, hl, List.getElem?_eq_getElem h2]

theorem offerLoop_ok (arr : List (List Nat)) (score : List Nat → κ) (combs : List (List (Nat × Nat)))
    (h : ∀ c ∈ combs, ∀ p ∈ c, ∃ n, (arr.map List.length)[p.1]? = some n ∧ p.2 < n)
    (off : List (List Nat)) (reg : MatchBK.Register κ) :
    offerLoop arr score combs off reg = .ok (off ++ combs.map (fun c => c.map (pick arr)),
      ((combs.map (fun c => c.map (pick arr))).filter (fun s => score s > 0)).foldl
        (fun r s => MatchBK.register r s (score s)) reg) := by
  induction combs generalizing off reg with
  | nil => simp [offerLoop]
  | cons c cs ih =>
    unfold offerLoop
    rw [pickComb_ok arr c (h c (by simp))]
    simp only [Res.bind_ok]
    rw [ih (fun d hd => h d (by simp [hd]))]
    simp only [List.map_cons, List.filter_cons, List.append_assoc, List.singleton_append]
    by_cases hs : score (c.map (pick arr)) > 0
    · simp [hs]
    · simp [hs]

end

/-! ## Property theorems -/
section
variable {κ : Type} [LinearOrder κ] [Zero κ] {η : Type}

theorem order_facts (cs : List (Cluster η)) (prio : Nat → κ) :
    (∀ i, i ∈ prioOrder prio cs.length ↔ i < cs.length ∧ prio i > 0) ∧ (prioOrder prio cs.length).Nodup := by
  obtain ⟨h1, h2⟩ := C15_priority_order prio cs.length
  refine ⟨fun i => by simpa using h2 i, ?_⟩
  refine List.Pairwise.imp ?_ h1
  intro a b h e
  subst e
  rcases h with h | h
  · exact lt_irrefl _ h
  · omega

/-- **C11 (partial)** One pass of the match manager. If the planes of the clusters with positive priority are
below the configured number of planes (at most 33 of them), the pass ends normally and the sets offered to the
matching algorithm are exactly the candidate sets: at least two clusters of positive priority from pairwise
different planes, each set exactly once. The sets registered are those with a positive score, in the order of
offering. Missing: 34 or more planes (C10: division by zero). -/
theorem C11_offered_sets_partial (nplanes : Nat) (cs : List (Cluster η)) (prio : Nat → κ)
    (score : List Nat → κ) (reg : MatchBK.Register κ) (hn : nplanes ≤ 33)
    (hplane : ∀ i, i < cs.length → prio i > 0 → planeOf cs i < nplanes) :
    ∃ off : List (List Nat), off.Nodup ∧ (∀ s, s ∈ off ↔ IsCandidate cs prio s) ∧
      ∃ steps, ∀ fuel, steps ≤ fuel → matchIteration fuel nplanes cs prio score reg =
        .ok (some (off, (off.filter (fun s => score s > 0)).foldl
          (fun r s => MatchBK.register r s (score s)) reg)) := by
  obtain ⟨hord, hnd⟩ := order_facts cs prio
  have ho : ∀ i ∈ prioOrder prio cs.length, i < cs.length := fun i hi => ((hord i).1 hi).1
  have hpl : ∀ i ∈ prioOrder prio cs.length, planeOf cs i < nplanes :=
    fun i hi => hplane i ((hord i).1 hi).1 ((hord i).1 hi).2
  have hsame : planesBelow cs (prioOrder prio cs.length) 256 =
      planesBelow cs (prioOrder prio cs.length) nplanes := by
    have hp : (planesBelow cs (prioOrder prio cs.length) 256).Perm
        (planesBelow cs (prioOrder prio cs.length) nplanes) := by
      rw [List.perm_ext_iff_of_nodup
        (List.Pairwise.imp (fun h => Nat.ne_of_lt h) (planesBelow_sorted _ _ _))
        (List.Pairwise.imp (fun h => Nat.ne_of_lt h) (planesBelow_sorted _ _ _))]
      intro p
      rw [mem_planesBelow ho, mem_planesBelow ho]
      constructor
      · rintro ⟨_, i, hi, rfl⟩; exact ⟨hpl i hi, i, hi, rfl⟩
      · rintro ⟨h, i, hi, rfl⟩; exact ⟨by omega, i, hi, rfl⟩
    exact hp.eq_of_pairwise (le := (· < ·))
      (fun a b _ _ h1 h2 => absurd (Nat.lt_trans h1 h2) (Nat.lt_irrefl _))
      (planesBelow_sorted _ _ _) (planesBelow_sorted _ _ _)
  set order := prioOrder prio cs.length with horder
  set planes := planesBelow cs order nplanes with hplanes
  have hsort : planes.Pairwise (· < ·) := planesBelow_sorted _ _ _
  have hpnd : planes.Nodup := hsort.imp (fun h => Nat.ne_of_lt h)
  have hmemp : ∀ p, p ∈ planes ↔ ∃ i ∈ order, planeOf cs i = p := by
    intro p
    rw [hplanes, mem_planesBelow ho]
    constructor
    · rintro ⟨_, h⟩; exact h
    · rintro ⟨i, hi, rfl⟩; exact ⟨hpl i hi, i, hi, rfl⟩
  have hlenp : planes.length ≤ nplanes := by
    have : planes.Subperm (List.range nplanes) :=
      List.subperm_of_subset hpnd (fun p hp => by
        obtain ⟨i, hi, rfl⟩ := (hmemp p).1 hp
        exact List.mem_range.2 (hpl i hi))
    simpa using this.length_le
  by_cases h2 : planes.length < 2
  · refine ⟨[], by simp, ?_, 0, fun fuel _ => ?_⟩
    · intro s
      simp only [List.not_mem_nil, false_iff]
      rintro ⟨a1, a2, a3⟩
      have : (s.map (planeOf cs)).Subperm planes :=
        List.subperm_of_subset (a2.imp (fun h => Nat.ne_of_lt h)) (fun p hp => by
          obtain ⟨i, hi, rfl⟩ := List.mem_map.1 hp
          exact (hmemp _).2 ⟨i, (hord i).2 (a3 i hi), rfl⟩)
      have := this.length_le
      simp only [List.length_map] at this
      omega
    · unfold matchIteration
      simp only [← horder, hsame, h2, if_true]
      rfl
  · -- the general case
    have harr : fillArray cs planes order (List.replicate planes.length []) =
        .ok (arrOf cs planes order) := by
      have := fillArray_ok cs planes hpnd order [] ho (fun i hi => (hmemp _).2 ⟨i, hi, rfl⟩)
      rw [List.nil_append] at this
      rw [← this]
      congr 1
      unfold arrOf
      simp [List.map_const']
    set arr := arrOf cs planes order with harrdef
    have hseedlen : (arr.map List.length).length = planes.length := by simp [harrdef, arrOf]
    have hget : ∀ k (hk : k < planes.length), arr[k]? = some (order.filter (fun i => planeOf cs i = planes[k])) := by
      intro k hk
      rw [harrdef, arrOf, List.getElem?_map, List.getElem?_eq_getElem hk]
      rfl
    have hpos : ∀ n ∈ arr.map List.length, 0 < n := by
      intro n hn'
      obtain ⟨l, hl, rfl⟩ := List.mem_map.1 hn'
      obtain ⟨p, hp, rfl⟩ := List.mem_map.1 hl
      obtain ⟨i, hi, he⟩ := (hmemp p).1 hp
      exact List.length_pos_of_mem (List.mem_filter.2 ⟨hi, by simpa using he⟩)
    -- facts about single picks
    have hpick : ∀ p : Nat × Nat, (∃ n, (arr.map List.length)[p.1]? = some n ∧ p.2 < n) →
        ∃ (hk : p.1 < planes.length), ∃ (hj : p.2 < (order.filter (fun i => planeOf cs i = planes[p.1])).length),
          pick arr p = (order.filter (fun i => planeOf cs i = planes[p.1]))[p.2] := by
      rintro ⟨a, b⟩ ⟨n, e1, e2⟩
      rw [List.getElem?_map, Option.map_eq_some_iff] at e1
      obtain ⟨l, hl, rfl⟩ := e1
      have hk : a < planes.length := by
        have := (List.getElem?_eq_some_iff.1 hl).1
        simpa [harrdef, arrOf] using this
      have := hget a hk
      rw [hl] at this
      simp only [Option.some.injEq] at this
      subst this
      exact ⟨hk, e2, by simp [pick, hl, List.getElem?_eq_getElem e2]⟩
    have hpick_plane : ∀ p : Nat × Nat, (∃ n, (arr.map List.length)[p.1]? = some n ∧ p.2 < n) →
        ∃ (hk : p.1 < planes.length), planeOf cs (pick arr p) = planes[p.1] ∧ pick arr p ∈ order := by
      intro p hp
      obtain ⟨hk, hj, e⟩ := hpick p hp
      have := List.mem_filter.1 (List.getElem_mem hj)
      rw [← e] at this
      exact ⟨hk, by simpa using this.2, this.1⟩
    obtain ⟨steps, hsteps⟩ := Comb.planeClusterCombinations_ok (arr.map List.length) hpos (by omega)
    refine ⟨(Comb.allChoices (arr.map List.length)).map (fun c => c.map (pick arr)), ?_, ?_, steps, ?_⟩
    · -- each set once
      refine List.Nodup.map_on ?_ (Comb.allChoices_nodup _)
      intro c hc d hd hcd
      have hc := (Comb.mem_allChoices.1 hc).2.2
      have hd := (Comb.mem_allChoices.1 hd).2.2
      have hlen : c.length = d.length := by simpa using congrArg List.length hcd
      apply List.ext_getElem hlen
      intro i h1 h2'
      have e : pick arr c[i] = pick arr d[i] := by
        have := congrArg (fun l => l[i]?) hcd
        simpa [h1, h2'] using this
      have q1 := hc c[i] (List.getElem_mem h1)
      have q2 := hd d[i] (List.getElem_mem h2')
      obtain ⟨k1, p1, _⟩ := hpick_plane _ q1
      obtain ⟨k2, p2, _⟩ := hpick_plane _ q2
      rw [e] at p1
      have hk : c[i].1 = d[i].1 := (List.Nodup.getElem_inj_iff hpnd).1 (p1.symm.trans p2)
      obtain ⟨_, j1, r1⟩ := hpick _ q1
      obtain ⟨_, j2, r2⟩ := hpick _ q2
      have hj : c[i].2 = d[i].2 := by
        have hfn : (order.filter (fun m => planeOf cs m = planes[d[i].1]'k2)).Nodup := hnd.filter _
        simp only [hk] at r1 j1
        exact (List.Nodup.getElem_inj_iff hfn).1 (r1.symm.trans (e.trans r2))
      exact Prod.ext hk hj
    · intro s
      simp only [List.mem_map]
      constructor
      · rintro ⟨c, hc, rfl⟩
        obtain ⟨a1, a2, a3⟩ := Comb.mem_allChoices.1 hc
        refine ⟨by simpa using a1, ?_, ?_⟩
        · rw [List.map_map, List.pairwise_map]
          rw [List.pairwise_map] at a2
          refine List.Pairwise.imp_of_mem ?_ a2
          intro x y hx hy hxy
          obtain ⟨k1, p1, _⟩ := hpick_plane x (a3 x hx)
          obtain ⟨k2, p2, _⟩ := hpick_plane y (a3 y hy)
          simp only [Function.comp, p1, p2]
          exact List.pairwise_iff_getElem.1 hsort _ _ k1 k2 hxy
        · intro i hi
          obtain ⟨p, hp, rfl⟩ := List.mem_map.1 hi
          obtain ⟨_, _, h⟩ := hpick_plane p (a3 p hp)
          exact (hord _).1 h
      · rintro ⟨a1, a2, a3⟩
        let mk : Nat → Nat × Nat := fun i =>
          (planes.idxOf (planeOf cs i), (order.filter (fun j => planeOf cs j = planeOf cs i)).idxOf i)
        have hmk : ∀ i ∈ s, (∃ n, (arr.map List.length)[(mk i).1]? = some n ∧ (mk i).2 < n) ∧ pick arr (mk i) = i := by
          intro i hi
          have hio : i ∈ order := (hord i).2 (a3 i hi)
          have hip : planeOf cs i ∈ planes := (hmemp _).2 ⟨i, hio, rfl⟩
          have hk : planes.idxOf (planeOf cs i) < planes.length := List.idxOf_lt_length_iff.2 hip
          have hge := hget _ hk
          simp only [List.getElem_idxOf] at hge
          have hif : i ∈ order.filter (fun j => planeOf cs j = planeOf cs i) := List.mem_filter.2 ⟨hio, by simp⟩
          have hj := List.idxOf_lt_length_iff.2 hif
          refine ⟨⟨_, by simp only [mk, List.getElem?_map, hge]; rfl, hj⟩, ?_⟩
          simp only [pick, mk, hge, Option.getD_some]
          rw [List.getElem?_eq_getElem hj]
          simp
        refine ⟨s.map mk, Comb.mem_allChoices.2 ⟨by simpa using a1, ?_, ?_⟩, ?_⟩
        · rw [List.map_map, List.pairwise_map]
          rw [List.pairwise_map] at a2
          refine List.Pairwise.imp_of_mem ?_ a2
          intro x y hx hy hxy
          obtain ⟨k1, p1, _⟩ := hpick_plane _ (hmk x hx).1
          obtain ⟨k2, p2, _⟩ := hpick_plane _ (hmk y hy).1
          rw [(hmk x hx).2] at p1
          rw [(hmk y hy).2] at p2
          simp only [Function.comp]
          by_contra hge
          rw [p1, p2] at hxy
          rcases Nat.lt_or_eq_of_le (Nat.le_of_not_lt hge) with h | h
          · have := List.pairwise_iff_getElem.1 hsort _ _ k2 k1 h
            omega
          · simp only [h] at hxy
            omega
        · intro p hp
          obtain ⟨i, hi, rfl⟩ := List.mem_map.1 hp
          exact (hmk i hi).1
        · rw [List.map_map]
          conv_rhs => rw [← List.map_id s]
          exact List.map_congr_left (fun i hi => (hmk i hi).2)
    · intro fuel hf
      unfold matchIteration
      simp only [← horder, hsame, h2, if_false]
      rw [if_neg (by omega), ← hplanes, harr]
      simp only [hsteps fuel hf, Comb.run]
      rw [offerLoop_ok _ _ _ (fun c hc => (Comb.mem_allChoices.1 hc).2.2)]
      simp

/-- **C11 (partial)** Every set the manager finally reports (`GetResult()` of its book keeper, which was empty
before the pass) is a candidate set with positive score. Missing: 34 or more planes. -/
theorem C11_reported_sets_partial (nplanes : Nat) (cs : List (Cluster η)) (prio : Nat → κ)
    (score : List Nat → κ) (hn : nplanes ≤ 33)
    (hplane : ∀ i, i < cs.length → prio i > 0 → planeOf cs i < nplanes) :
    ∃ off reg res, (∃ steps, ∀ fuel, steps ≤ fuel →
        matchIteration fuel nplanes cs prio score [] = .ok (some (off, reg))) ∧
      MatchBK.getResult reg = .ok res ∧
      (∀ s ∈ res, IsCandidate cs prio s ∧ score s > 0) ∧ res.Pairwise (fun a b => ¬ Shares a b) := by
  obtain ⟨off, h1, h2, h3⟩ := C11_offered_sets_partial nplanes cs prio score [] hn hplane
  obtain ⟨res, g1, g2, g3⟩ := C07_results_disjoint ((off.filter (fun s => score s > 0)).map (fun s => (s, score s)))
  have e : registered ((off.filter (fun s => score s > 0)).map (fun s => (s, score s))) =
      (off.filter (fun s => score s > 0)).foldl (fun r s => MatchBK.register r s (score s)) [] := by
    unfold registered
    rw [List.foldl_map]
  rw [e] at g1
  refine ⟨off, _, res, h3, g1, ?_, g3⟩
  intro s hs
  obtain ⟨x, hx⟩ := g2 s hs
  obtain ⟨t, ht, e⟩ := List.mem_map.1 hx
  simp only [Prod.mk.injEq] at e
  obtain ⟨rfl, _⟩ := e
  have := List.mem_filter.1 ht
  exact ⟨(h2 t).1 this.1, by simpa using this.2⟩

/-- Three planes, five clusters (one without hits): the hypotheses hold and the pass offers seven sets. -/
example :
    let cs : List (Cluster Nat) := [⟨0, [1]⟩, ⟨2, [2, 3]⟩, ⟨1, [4]⟩, ⟨0, [5, 6]⟩, ⟨1, []⟩]
    let prio : Nat → Int := fun i => ((cs[i]?.map (·.hits.length)).getD 0 : Nat)
    (∀ i, i < cs.length → prio i > 0 → planeOf cs i < 3) ∧
    (matchIteration 20 3 cs prio (fun s => (s.length : Int) - 2) [] =
      .ok (some ([[3, 2, 1], [0, 2, 1], [2, 1], [3, 1], [0, 1], [3, 2], [0, 2]],
        [(1, [3, 2, 1]), (1, [0, 2, 1])]))) := by decide
end
end Verif.CMTool

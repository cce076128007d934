import Verif.CCrawl.StoreModel
import Mathlib.Tactic.Linarith
import Mathlib.Data.List.Nodup

/-! Properties of the bookkeeping of ClusterCrawler: C263 - C268. -/

namespace Verif.CCrawl

/-! ### The marks -/

/-- the wires fall along the hits -/
def Falling (H : Nat → Hit) (hits : List Nat) : Prop := hits.Pairwise fun a b => (H b).wire < (H a).wire

/-- what `TmpStore` asks of the hits: none is used, none comes twice, all are in one plane, and their wires fall unless the
processor code is at least 900 -/
def Storable (H : Nat → Hit) (m : Nat → Int) (proc : Int) (hits : List Nat) : Prop :=
  (∀ h ∈ hits, m h = 0) ∧ hits.Nodup ∧ (∀ a ∈ hits, ∀ b ∈ hits, (H a).plane = (H b).plane) ∧
    (proc < 900 → Falling H hits)

theorem mark_touch (H : Nat → Hit) (plane : Nat) (proc id : Int) (l : List Nat) (last : Option Nat) (m : Nat → Int) (h : Nat) :
    (mark H plane proc id l last m).2 h = m h ∨
      (m h = 0 ∧ h ∈ l ∧ (mark H plane proc id l last m).2 h = id) := by
  induction l generalizing last m with
  | nil => left; rfl
  | cons a t ih =>
    unfold mark
    split
    · left; rfl
    · rename_i ha
      split
      · left; rfl
      · split
        · left; rfl
        · rcases ih (some (H a).wire) (Function.update m a id) with e | ⟨e1, e2, e3⟩
          · by_cases hh : h = a
            · subst hh
              right
              refine ⟨by simpa using ha, by simp, ?_⟩
              rw [e, Function.update_self]
            · left
              rw [e, Function.update_of_ne hh]
          · by_cases hh : h = a
            · subst hh
              right
              exact ⟨by simpa using ha, by simp, e3⟩
            · right
              rw [Function.update_of_ne hh] at e1
              exact ⟨e1, by simp [e2], e3⟩

theorem mark_ok (H : Nat → Hit) (plane : Nat) (proc id : Int) (hid : id ≠ 0) (l : List Nat) (last : Option Nat)
    (m : Nat → Int) : (mark H plane proc id l last m).1 = true ↔
      (∀ h ∈ l, m h = 0) ∧ l.Nodup ∧ (∀ h ∈ l, (H h).plane = plane) ∧
        (proc < 900 → Falling H l ∧ ∀ w, last = some w → ∀ h, l.head? = some h → (H h).wire < w) := by
  induction l generalizing last m with
  | nil => simp [mark, Falling]
  | cons a t ih =>
    unfold mark
    by_cases h1 : m a ≠ 0
    · rw [if_pos h1]
      simp only [Bool.false_eq_true, false_iff]
      rintro ⟨h, _⟩
      exact h1 (h a (by simp))
    · rw [if_neg h1]
      by_cases h2 : (H a).plane ≠ plane
      · rw [if_pos h2]
        simp only [Bool.false_eq_true, false_iff]
        rintro ⟨_, _, h, _⟩
        exact h2 (h a (by simp))
      · rw [if_neg h2]
        by_cases h3 : proc < 900 ∧ last.any (fun w => decide (w ≤ (H a).wire)) = true
        · rw [if_pos h3]
          simp only [Bool.false_eq_true, false_iff]
          rintro ⟨_, _, _, h⟩
          obtain ⟨hp, hl⟩ := h3
          cases last with
          | none => simp at hl
          | some w =>
            have := (h hp).2 w rfl a rfl
            simp at hl
            omega
        · rw [if_neg h3, ih]
          push Not at h1 h2
          have hlast : proc < 900 → ∀ w, last = some w → (H a).wire < w := by
            intro hp w hw
            subst hw
            by_contra hc
            exact h3 ⟨hp, by simp; omega⟩
          constructor
          · rintro ⟨k1, k2, k3, k4⟩
            have ha : a ∉ t := by
              intro hat
              have := k1 a hat
              rw [Function.update_self] at this
              exact hid this
            refine ⟨?_, List.nodup_cons.mpr ⟨ha, k2⟩, ?_, ?_⟩
            · intro h hh
              rcases List.mem_cons.mp hh with e | hh2
              · rw [e]; exact h1
              · have := k1 h hh2
                rwa [Function.update_of_ne (by intro e; rw [e] at hh2; exact ha hh2)] at this
            · intro h hh
              rcases List.mem_cons.mp hh with rfl | hh
              · exact h2
              · exact k3 h hh
            · intro hp
              obtain ⟨k5, k6⟩ := k4 hp
              refine ⟨?_, ?_⟩
              · refine List.pairwise_cons.mpr ⟨?_, k5⟩
                intro b hb
                cases t with
                | nil => cases hb
                | cons c u =>
                  have h6 := k6 _ rfl c rfl
                  rcases List.mem_cons.mp hb with rfl | hb
                  · exact h6
                  · have := (List.pairwise_cons.mp k5).1 b hb
                    omega
              · intro w hw h hh
                simp at hh
                subst hh
                exact hlast hp w hw
          · rintro ⟨k1, k2, k3, k4⟩
            have hn := List.nodup_cons.mp k2
            refine ⟨?_, hn.2, fun h hh => k3 h (by simp [hh]), ?_⟩
            · intro h hh
              rw [Function.update_of_ne (by rintro rfl; exact hn.1 hh)]
              exact k1 h (by simp [hh])
            · intro hp
              obtain ⟨k5, k6⟩ := k4 hp
              have := List.pairwise_cons.mp k5
              refine ⟨this.2, ?_⟩
              intro w hw h hh
              cases hw
              exact this.1 h (List.mem_of_mem_head? hh)

theorem mark_marks (H : Nat → Hit) (plane : Nat) (proc id : Int) (l : List Nat) (last : Option Nat) (m : Nat → Int)
    (h : (mark H plane proc id l last m).1 = true) : ∀ x ∈ l, (mark H plane proc id l last m).2 x = id := by
  induction l generalizing last m with
  | nil => simp
  | cons a t ih =>
    unfold mark at h ⊢
    split at h
    · cases h
    · rename_i c1
      split at h
      · cases h
      · rename_i c2
        split at h
        · cases h
        · rename_i c3
          rw [if_neg c1, if_neg c2, if_neg c3]
          intro x hx
          rcases List.mem_cons.mp hx with rfl | hx
          · rcases mark_touch H plane proc id t (some (H x).wire) (Function.update m x id) x with e | ⟨_, _, e⟩
            · rw [e, Function.update_self]
            · exact e
          · exact ih _ _ h x hx

/-! ### C263 storing -/

/-- C263: a cluster is stored exactly if it has at least two hits (not more than there are), none of them used or twice,
all in one plane, on falling wires unless the processor code is at least 900, and there are fewer than 32767 clusters. -/
theorem C263_stored_iff (s : St) (hits : List Nat) (proc : Int) :
    (tmpStore s hits proc).1 = true ↔
      2 ≤ hits.length ∧ hits.length ≤ s.n ∧ s.num ≠ 32767 ∧ Storable s.hit s.inClus proc hits := by
  match hits with
  | [] => simp [tmpStore]
  | [a] => simp [tmpStore]
  | a :: b :: t =>
    unfold tmpStore
    dsimp only
    by_cases h1 : (a :: b :: t).length > s.n
    · rw [if_pos h1]
      simp only [Bool.false_eq_true, false_iff]
      rintro ⟨_, h, _⟩
      omega
    · rw [if_neg h1]
      by_cases h2 : s.num = 32767
      · rw [if_pos h2]
        simp only [Bool.false_eq_true, false_iff]
        rintro ⟨_, _, h, _⟩
        exact h h2
      · rw [if_neg h2]
        have hm := mark_ok s.hit (s.hit a).plane proc ((s.num : Int) + 1) (by omega) (a :: b :: t) none s.inClus
        have hs : Storable s.hit s.inClus proc (a :: b :: t) ↔
            (mark s.hit (s.hit a).plane proc ((s.num : Int) + 1) (a :: b :: t) none s.inClus).1 = true := by
          rw [hm]
          unfold Storable
          constructor
          · rintro ⟨k1, k2, k3, k4⟩
            exact ⟨k1, k2, fun h hh => k3 h hh a (by simp), fun hp => ⟨k4 hp, by simp⟩⟩
          · rintro ⟨k1, k2, k3, k4⟩
            exact ⟨k1, k2, fun x hx y hy => (k3 x hx).trans (k3 y hy).symm, fun hp => (k4 hp).1⟩
        rw [hs]
        split
        · rename_i hr
          simp only [true_iff]
          exact ⟨by simp, by omega, h2, hr⟩
        · rename_i hr
          constructor
          · intro h; cases h
          · rintro ⟨_, _, _, h⟩; exact absurd h hr

/-- the state after a store that succeeds -/
theorem store_eq (s : St) (hits : List Nat) (proc : Int) (h : (tmpStore s hits proc).1 = true) :
    ∃ f l, hits.head? = some f ∧ hits.getLast? = some l ∧
      (tmpStore s hits proc).2.tcl = s.tcl ++ [⟨(s.num : Int) + 1, proc, (s.hit f).plane, (s.hit f).wire, (s.hit f).time, -99,
        (s.hit l).wire, (s.hit l).time, -99, hits⟩] ∧
      (tmpStore s hits proc).2.num = s.num + 1 ∧ (tmpStore s hits proc).2.hit = s.hit ∧ (tmpStore s hits proc).2.n = s.n ∧
      (∀ x ∈ hits, (tmpStore s hits proc).2.inClus x = (s.num : Int) + 1) ∧
      ∀ x, x ∉ hits → (tmpStore s hits proc).2.inClus x = s.inClus x := by
  match hits, h with
  | a :: b :: t, h =>
    have h' := h
    unfold tmpStore at h ⊢
    dsimp only at h ⊢
    split at h
    · cases h
    · rename_i c1
      split at h
      · cases h
      · rename_i c2
        split at h
        · rename_i c3
          rw [if_neg c1, if_neg c2, if_pos c3]
          refine ⟨a, (b :: t).getLastD b, rfl, ?_, rfl, rfl, rfl, rfl, ?_, ?_⟩
          · cases t with
            | nil => rfl
            | cons c u => simp [List.getLast?_cons]
          · exact mark_marks _ _ _ _ _ _ _ c3
          · intro x hx
            rcases mark_touch s.hit (s.hit a).plane proc ((s.num : Int) + 1) (a :: b :: t) none s.inClus x with e | ⟨_, e, _⟩
            · exact e
            · exact absurd e hx
        · cases h

/-- C263: a stored cluster comes last, has the next number, exactly the hits given, and the wire and time of its first and
its last hit; its hits, and no others, are marked with its number; the other clusters stay as they are. -/
theorem C263_stored (s : St) (hits : List Nat) (proc : Int) (h : (tmpStore s hits proc).1 = true) :
    let s' := (tmpStore s hits proc).2
    (∃ c, s'.tcl = s.tcl ++ [c] ∧ c.id = (s.num : Int) + 1 ∧ c.hits = hits ∧ c.proc = proc ∧
      (∀ f, hits.head? = some f → c.plane = (s.hit f).plane ∧ c.beginWir = (s.hit f).wire ∧ c.beginTim = (s.hit f).time) ∧
      (∀ l, hits.getLast? = some l → c.endWir = (s.hit l).wire ∧ c.endTim = (s.hit l).time)) ∧
    s'.num = s.num + 1 ∧ s'.hit = s.hit ∧
    (∀ x ∈ hits, s'.inClus x = (s.num : Int) + 1) ∧ ∀ x, x ∉ hits → s'.inClus x = s.inClus x := by
  obtain ⟨f, l, e1, e2, e3, e4, e5, _, e6, e7⟩ := store_eq s hits proc h
  refine ⟨⟨_, e3, rfl, rfl, rfl, ?_, ?_⟩, e4, e5, e6, e7⟩
  · intro f' hf
    rw [e1] at hf
    cases hf
    exact ⟨rfl, rfl, rfl⟩
  · intro l' hl
    rw [e2] at hl
    cases hl
    exact ⟨rfl, rfl⟩

/-- hits on wires 9, 8, 7, ... of plane 0 -/
def exHit : Nat → Hit := fun i => ⟨0, 20 - i, 100 + i⟩

example : (tmpStore (start exHit 10) [0, 1, 2] 0).1 = true ∧ (tmpStore (start exHit 10) [1, 0] 0).1 = false ∧
    (tmpStore (start exHit 10) [1, 0] 1000).1 = true ∧ (tmpStore (start exHit 10) [1] 0).1 = false := by decide +kernel
example : (tmpStore (start exHit 10) [0, 1, 2] 0).2.tcl = [⟨1, 0, 0, 20, 100, -99, 18, 102, -99, [0, 1, 2]⟩] := by decide +kernel

/-! ### C264 a store that fails -/

theorem store_fail (s : St) (hits : List Nat) (proc : Int) (h : (tmpStore s hits proc).1 = false) :
    (tmpStore s hits proc).2.tcl = s.tcl ∧ (tmpStore s hits proc).2.num = s.num ∧ (tmpStore s hits proc).2.hit = s.hit ∧
      (tmpStore s hits proc).2.n = s.n ∧
      ∀ x, (tmpStore s hits proc).2.inClus x = s.inClus x ∨
        (s.inClus x = 0 ∧ x ∈ hits ∧ (tmpStore s hits proc).2.inClus x = (s.num : Int) + 1) := by
  match hits with
  | [] => exact ⟨rfl, rfl, rfl, rfl, fun x => Or.inl rfl⟩
  | [a] => exact ⟨rfl, rfl, rfl, rfl, fun x => Or.inl rfl⟩
  | a :: b :: t =>
    unfold tmpStore at h ⊢
    dsimp only at h ⊢
    split at h
    · rename_i c1
      rw [if_pos c1]
      exact ⟨rfl, rfl, rfl, rfl, fun x => Or.inl rfl⟩
    · rename_i c1
      split at h
      · rename_i c2
        rw [if_neg c1, if_pos c2]
        exact ⟨rfl, rfl, rfl, rfl, fun x => Or.inl rfl⟩
      · rename_i c2
        split at h
        · cases h
        · rename_i c3
          rw [if_neg c1, if_neg c2, if_neg c3]
          refine ⟨rfl, rfl, rfl, rfl, ?_⟩
          intro x
          exact mark_touch s.hit (s.hit a).plane proc ((s.num : Int) + 1) (a :: b :: t) none s.inClus x

/-- C264 (part): a store that fails changes neither the clusters nor their number, nor the mark of a hit that is not free. -/
theorem C264_failed_partial (s : St) (hits : List Nat) (proc : Int) (h : (tmpStore s hits proc).1 = false) :
    (tmpStore s hits proc).2.tcl = s.tcl ∧ (tmpStore s hits proc).2.num = s.num ∧
      ∀ x, s.inClus x ≠ 0 ∨ x ∉ hits → (tmpStore s hits proc).2.inClus x = s.inClus x := by
  obtain ⟨h1, h2, _, _, h3⟩ := store_fail s hits proc h
  refine ⟨h1, h2, ?_⟩
  intro x hx
  rcases h3 x with e | ⟨e1, e2, _⟩
  · exact e
  · rcases hx with hx | hx
    · exact absurd e1 hx
    · exact absurd e2 hx

/-- C264 (refuted): a store that fails leaves the hits before the bad one marked with the number of a cluster that does not
exist: they are not free any more and in no cluster. -/
theorem C264_refuted : ¬ ∀ (H : Nat → Hit) (n : Nat) (hits : List Nat) (proc : Int),
    (tmpStore (start H n) hits proc).1 = false → ∀ x, (tmpStore (start H n) hits proc).2.inClus x = 0 := by
  intro h
  have := h exHit 10 [1, 0] 0 (by decide +kernel) 1
  revert this
  decide +kernel

/-! ### C265 the charges of the ends -/

/-- C265 (part): with at least three hits only hits of the cluster are read for the charges of its ends. -/
theorem C265_reads_partial (k : Nat) (h : 3 ≤ k) (hk : k < 2 ^ 32) (e b : Bool) : ∀ i ∈ chargeReads k e b, i < k := by
  intro i hi
  unfold chargeReads at hi
  have h1 : (k - 2 + (2 ^ 32 - 1)) % 2 ^ 32 = k - 3 := by omega
  rw [h1] at hi
  cases e <;> cases b <;> simp at hi <;> omega

/-- C265 (refuted): a cluster of two hits can be stored, and both charges are read outside of it. -/
theorem C265_refuted : ¬ ∀ (k : Nat), 2 ≤ k → ∀ (e b : Bool), ∀ i ∈ chargeReads k e b, i < k := by
  intro h
  have := h 2 (by decide) true false 2 (by decide)
  omega

example : chargeReads 2 false false = [0, 4294967295, 1, 2] := by decide +kernel

/-! ### The invariant -/

/-- what the module relies on: the clusters are numbered in order (negative for deleted ones), and the hits of a live
cluster are in its plane, marked with its number, and none comes twice -/
structure Inv (s : St) : Prop where
  num : s.num = s.tcl.length
  ids : ∀ (i : Nat) c, s.tcl[i]? = some c → c.id = (i : Int) + 1 ∨ c.id = -((i : Int) + 1)
  nodup : ∀ c ∈ s.tcl, c.hits.Nodup
  plane : ∀ c ∈ s.tcl, ∀ h ∈ c.hits, (s.hit h).plane = c.plane
  live : ∀ c ∈ s.tcl, 0 < c.id → ∀ h ∈ c.hits, s.inClus h = c.id

theorem inv_start (H : Nat → Hit) (n : Nat) : Inv (start H n) :=
  ⟨rfl, by intro i c h; simp [start] at h, by simp [start], by simp [start], by simp [start]⟩

theorem setAll_mem (hits : List Nat) (v : Int) : ∀ (m : Nat → Int) (x : Nat),
    setAll m hits v x = if x ∈ hits then v else m x := by
  unfold setAll
  induction hits with
  | nil => intro m x; simp
  | cons a t ih =>
    intro m x
    rw [List.foldl_cons, ih]
    by_cases h1 : x ∈ t
    · simp [h1]
    · by_cases h2 : x = a
      · subst h2; simp [h1]
      · simp [h1, h2, Function.update_of_ne h2]

/-- live clusters share no hit -/
theorem live_disjoint {s : St} (I : Inv s) {i j : Nat} {c d : Cl} (hc : s.tcl[i]? = some c) (hd : s.tcl[j]? = some d)
    (hij : i ≠ j) (h1 : 0 < c.id) (h2 : 0 < d.id) : ∀ h ∈ c.hits, h ∉ d.hits := by
  intro h hh hh'
  have e1 := I.live c (List.mem_of_getElem? hc) h1 h hh
  have e2 := I.live d (List.mem_of_getElem? hd) h2 h hh'
  rcases I.ids i c hc with e | e <;> rcases I.ids j d hd with e' | e' <;> omega

theorem obsolete_dead {s : St} {i : Nat} {c : Cl} (h : s.tcl[i]? = some c) (hc : c.id ≤ 0) : obsolete s i = s := by
  unfold obsolete; rw [h]; exact if_pos hc

theorem obsolete_live {s : St} {i : Nat} {c : Cl} (h : s.tcl[i]? = some c) (hc : 0 < c.id) :
    obsolete s i = { s with tcl := s.tcl.set i { c with id := -c.id }, inClus := setAll s.inClus c.hits 0 } := by
  unfold obsolete; rw [h]; exact if_neg (by omega)

theorem inv_obsolete {s : St} (I : Inv s) (i : Nat) : Inv (obsolete s i) := by
  cases hc : s.tcl[i]? with
  | none =>
    have : obsolete s i = s := by unfold obsolete; rw [hc]
    rw [this]; exact I
  | some c =>
    by_cases hp : c.id ≤ 0
    · rw [obsolete_dead hc hp]; exact I
    · push Not at hp
      rw [obsolete_live hc hp]
      have hmem : ∀ d ∈ s.tcl.set i { c with id := -c.id }, d = { c with id := -c.id } ∨ ∃ j, j ≠ i ∧ s.tcl[j]? = some d := by
        intro d hd
        obtain ⟨j, hj⟩ := List.getElem?_of_mem hd
        rw [List.getElem?_set] at hj
        split at hj
        · split at hj
          · left; exact (Option.some.inj hj).symm
          · cases hj
        · rename_i hne
          right; exact ⟨j, fun e => hne e.symm, hj⟩
      refine ⟨by simpa using I.num, ?_, ?_, ?_, ?_⟩
      · intro j d hd
        dsimp only at hd
        rw [List.getElem?_set] at hd
        split at hd
        · rename_i e
          subst e
          split at hd
          · cases hd
            have := I.ids i c hc
            dsimp only
            omega
          · cases hd
        · exact I.ids j d hd
      · intro d hd
        rcases hmem d hd with rfl | ⟨j, _, hj⟩
        · exact I.nodup c (List.mem_of_getElem? hc)
        · exact I.nodup d (List.mem_of_getElem? hj)
      · intro d hd
        rcases hmem d hd with rfl | ⟨j, _, hj⟩
        · exact I.plane c (List.mem_of_getElem? hc)
        · exact I.plane d (List.mem_of_getElem? hj)
      · intro d hd hdl h hh
        rcases hmem d hd with rfl | ⟨j, hji, hj⟩
        · dsimp only at hdl; omega
        · dsimp only
          rw [setAll_mem, if_neg (live_disjoint I hj hc hji hdl hp h hh)]
          exact I.live d (List.mem_of_getElem? hj) hdl h hh

/-- none of these hits is in a live cluster -/
def Loose (s : St) (hits : List Nat) : Prop := ∀ c ∈ s.tcl, 0 < c.id → ∀ h ∈ hits, h ∉ c.hits

theorem restore_dead {s : St} {i : Nat} {c : Cl} (h : s.tcl[i]? = some c) (hc : ¬ c.id > 0) :
    restore s i = { s with tcl := s.tcl.set i { c with id := -c.id }, inClus := setAll s.inClus c.hits (-c.id) } := by
  unfold restore; rw [h]; exact if_neg hc

theorem inv_restore {s : St} (I : Inv s) {i : Nat} {c : Cl} (hc : s.tcl[i]? = some c) (hl : c.id < 0 → Loose s c.hits) :
    Inv (restore s i) := by
  by_cases hp : c.id > 0
  · have : restore s i = s := by unfold restore; rw [hc]; exact if_pos hp
    rw [this]; exact I
  · rw [restore_dead hc hp]
    have hneg : c.id < 0 := by rcases I.ids i c hc with e | e <;> omega
    have hmem : ∀ d ∈ s.tcl.set i { c with id := -c.id }, d = { c with id := -c.id } ∨ ∃ j, j ≠ i ∧ s.tcl[j]? = some d := by
      intro d hd
      obtain ⟨j, hj⟩ := List.getElem?_of_mem hd
      rw [List.getElem?_set] at hj
      split at hj
      · split at hj
        · left; exact (Option.some.inj hj).symm
        · cases hj
      · rename_i hne
        right; exact ⟨j, fun e => hne e.symm, hj⟩
    refine ⟨by simpa using I.num, ?_, ?_, ?_, ?_⟩
    · intro j d hd
      dsimp only at hd
      rw [List.getElem?_set] at hd
      split at hd
      · rename_i e
        subst e
        split at hd
        · cases hd
          have := I.ids i c hc
          dsimp only
          omega
        · cases hd
      · exact I.ids j d hd
    · intro d hd
      rcases hmem d hd with rfl | ⟨j, _, hj⟩
      · exact I.nodup c (List.mem_of_getElem? hc)
      · exact I.nodup d (List.mem_of_getElem? hj)
    · intro d hd
      rcases hmem d hd with rfl | ⟨j, _, hj⟩
      · exact I.plane c (List.mem_of_getElem? hc)
      · exact I.plane d (List.mem_of_getElem? hj)
    · intro d hd hdl h hh
      rcases hmem d hd with rfl | ⟨j, hji, hj⟩
      · dsimp only at hh ⊢
        rw [setAll_mem, if_pos hh]
      · dsimp only
        have hd' := List.mem_of_getElem? hj
        rw [setAll_mem, if_neg (fun hx => hl hneg d hd' hdl h hx hh)]
        exact I.live d hd' hdl h hh

theorem inv_store {s : St} (I : Inv s) (hits : List Nat) (proc : Int) : Inv (tmpStore s hits proc).2 := by
  by_cases h : (tmpStore s hits proc).1 = true
  · obtain ⟨f, l, e1, _, e3, e4, e5, _, e6, e7⟩ := store_eq s hits proc h
    have hst := ((C263_stored_iff s hits proc).mp h).2.2.2
    obtain ⟨hfree, hnd, hpl, _⟩ := hst
    refine ⟨?_, ?_, ?_, ?_, ?_⟩
    · rw [e4, e3, I.num]; simp
    · intro i c hc
      rw [e3] at hc
      rcases Nat.lt_or_ge i s.tcl.length with hi | hi
      · rw [List.getElem?_append_left hi] at hc
        exact I.ids i c hc
      · rw [List.getElem?_append_right hi] at hc
        have : i = s.tcl.length := by
          by_contra hne
          rw [List.getElem?_eq_none (by simp; omega)] at hc
          cases hc
        subst this
        simp at hc
        subst hc
        left
        simp [I.num]
    · rw [e3]
      intro c hc
      rcases List.mem_append.mp hc with hc | hc
      · exact I.nodup c hc
      · rw [List.mem_singleton.mp hc]; exact hnd
    · rw [e3, e5]
      intro c hc x hx
      rcases List.mem_append.mp hc with hc | hc
      · exact I.plane c hc x hx
      · rw [List.mem_singleton.mp hc] at hx ⊢
        exact hpl x hx f (List.mem_of_mem_head? e1)
    · rw [e3]
      intro c hc hcl x hx
      rcases List.mem_append.mp hc with hc | hc
      · have := I.live c hc hcl x hx
        rw [e7 x (fun hx' => by rw [hfree x hx'] at this; omega)]
        exact this
      · rw [List.mem_singleton.mp hc] at hx ⊢
        exact e6 x hx
  · obtain ⟨h1, h2, h3, _, h4⟩ := store_fail s hits proc (by simpa using h)
    refine ⟨by rw [h2, h1]; exact I.num, by rw [h1]; exact I.ids, by rw [h1]; exact I.nodup,
      by rw [h1, h3]; exact I.plane, ?_⟩
    rw [h1]
    intro c hc hcl x hx
    have := I.live c hc hcl x hx
    rcases h4 x with e | ⟨e, _, _⟩
    · rw [e]; exact this
    · omega

/-- the clusters may change in what the invariant does not speak of -/
theorem inv_modify {s : St} (I : Inv s) (k : Nat) (f : Cl → Cl)
    (hf : ∀ c, (f c).id = c.id ∧ (f c).hits = c.hits ∧ (f c).plane = c.plane) :
    Inv { s with tcl := s.tcl.modify k f } := by
  have hmem : ∀ d ∈ s.tcl.modify k f, ∃ c ∈ s.tcl, d.id = c.id ∧ d.hits = c.hits ∧ d.plane = c.plane := by
    intro d hd
    obtain ⟨j, hj⟩ := List.getElem?_of_mem hd
    rw [List.getElem?_modify] at hj
    cases hc : s.tcl[j]? with
    | none => rw [hc] at hj; cases hj
    | some c =>
      rw [hc] at hj
      refine ⟨c, List.mem_of_getElem? hc, ?_⟩
      simp only [Option.map_eq_map, Option.map_some, Option.some.injEq] at hj
      split at hj
      · rw [← hj]; exact hf c
      · rw [← hj]; exact ⟨rfl, rfl, rfl⟩
  refine ⟨by simpa using I.num, ?_, ?_, ?_, ?_⟩
  · intro j d hj
    dsimp only at hj
    rw [List.getElem?_modify] at hj
    cases hc : s.tcl[j]? with
    | none => rw [hc] at hj; cases hj
    | some c =>
      rw [hc] at hj
      simp only [Option.map_eq_map, Option.map_some, Option.some.injEq] at hj
      have := I.ids j c hc
      split at hj
      · rw [← hj, (hf c).1]; exact this
      · rw [← hj]; exact this
  · intro d hd
    obtain ⟨c, hc, e1, e2, e3⟩ := hmem d hd
    rw [e2]; exact I.nodup c hc
  · intro d hd
    obtain ⟨c, hc, e1, e2, e3⟩ := hmem d hd
    rw [e2, e3]; exact I.plane c hc
  · intro d hd
    obtain ⟨c, hc, e1, e2, e3⟩ := hmem d hd
    rw [e2, e1]; exact I.live c hc

theorem inv_setVtx {s : St} (I : Inv s) (k : Nat) (b e : Int) : Inv (setVtx s k b e) :=
  inv_modify I k _ fun _ => ⟨rfl, rfl, rfl⟩

/-- a cluster that is deleted leaves its hits loose -/
theorem loose_obsolete {s : St} (I : Inv s) {i : Nat} {c : Cl} (hc : s.tcl[i]? = some c) (hp : 0 < c.id) :
    Loose (obsolete s i) c.hits := by
  rw [obsolete_live hc hp]
  intro d hd hdl h hh
  obtain ⟨j, hj⟩ := List.getElem?_of_mem hd
  dsimp only at hj
  rw [List.getElem?_set] at hj
  split at hj
  · split at hj
    · cases hj; dsimp only at hdl; omega
    · cases hj
  · rename_i hne
    exact live_disjoint I hc hj hne hp hdl h hh

/-- deleting another cluster keeps hits loose -/
theorem loose_keep {s : St} {hits : List Nat} (L : Loose s hits) (i : Nat) : Loose (obsolete s i) hits := by
  cases hc : s.tcl[i]? with
  | none => unfold obsolete; rw [hc]; exact L
  | some c =>
    by_cases hp : c.id ≤ 0
    · rw [obsolete_dead hc hp]; exact L
    · push Not at hp
      rw [obsolete_live hc hp]
      intro d hd hdl h hh
      obtain ⟨j, hj⟩ := List.getElem?_of_mem hd
      dsimp only at hj
      rw [List.getElem?_set] at hj
      split at hj
      · split at hj
        · cases hj; dsimp only at hdl; omega
        · cases hj
      · exact L d (List.mem_of_getElem? hj) hdl h hh

theorem obsolete_get {s : St} {i : Nat} {c : Cl} (hc : s.tcl[i]? = some c) (hp : 0 < c.id) :
    (obsolete s i).tcl[i]? = some { c with id := -c.id } ∧ (∀ j, j ≠ i → (obsolete s i).tcl[j]? = s.tcl[j]?) ∧
      (obsolete s i).tcl.length = s.tcl.length := by
  rw [obsolete_live hc hp]
  have hi : i < s.tcl.length := (List.getElem?_eq_some_iff.mp hc).1
  refine ⟨by simp [hi], ?_, by simp⟩
  intro j hj
  exact List.getElem?_set_ne (Ne.symm hj)

theorem obsolete_other {s : St} {i : Nat} (j : Nat) (hj : j ≠ i) :
    (obsolete s i).tcl[j]? = s.tcl[j]? := by
  cases hc : s.tcl[i]? with
  | none => unfold obsolete; rw [hc]
  | some c =>
    by_cases hp : c.id ≤ 0
    · rw [obsolete_dead hc hp]
    · push Not at hp
      exact (obsolete_get hc hp).2.1 j hj

theorem obsolete_len (s : St) (i : Nat) : (obsolete s i).tcl.length = s.tcl.length := by
  unfold obsolete
  split
  · split <;> simp
  · rfl

theorem restore_other {s : St} {i : Nat} (j : Nat) (hj : j ≠ i) : (restore s i).tcl[j]? = s.tcl[j]? := by
  unfold restore
  split
  · split
    · rfl
    · exact List.getElem?_set_ne (Ne.symm hj)
  · rfl

/-! ### C266 deleting and restoring -/

/-- C266: deleting a live cluster frees its hits and changes neither another hit nor another cluster; if it is then restored,
everything is as before. -/
theorem C266_kill_restore {s : St} (I : Inv s) {i : Nat} {c : Cl} (hc : s.tcl[i]? = some c) (hp : 0 < c.id) :
    (∀ h ∈ c.hits, (obsolete s i).inClus h = 0) ∧ (∀ h, h ∉ c.hits → (obsolete s i).inClus h = s.inClus h) ∧
    (∀ j, j ≠ i → (obsolete s i).tcl[j]? = s.tcl[j]?) ∧
    (restore (obsolete s i) i).tcl = s.tcl ∧ (restore (obsolete s i) i).inClus = s.inClus := by
  have g := obsolete_get hc hp
  refine ⟨?_, ?_, g.2.1, ?_, ?_⟩
  · intro h hh
    rw [obsolete_live hc hp]
    dsimp only
    rw [setAll_mem, if_pos hh]
  · intro h hh
    rw [obsolete_live hc hp]
    dsimp only
    rw [setAll_mem, if_neg hh]
  · rw [restore_dead g.1 (by dsimp only; omega)]
    dsimp only
    rw [obsolete_live hc hp]
    dsimp only
    rw [List.set_set]
    have : ({ ({ c with id := -c.id } : Cl) with id := - -c.id } : Cl) = c := by rw [neg_neg]
    rw [this]
    apply List.ext_getElem?
    intro j
    rw [List.getElem?_set]
    split
    · rename_i e
      subst e
      have hi := (List.getElem?_eq_some_iff.mp hc).1
      rw [if_pos hi, hc]
    · rfl
  · rw [restore_dead g.1 (by dsimp only; omega)]
    dsimp only
    funext h
    rw [setAll_mem]
    split
    · rename_i hh
      rw [neg_neg]
      exact (I.live c (List.mem_of_getElem? hc) hp h hh).symm
    · rename_i hh
      rw [obsolete_live hc hp]
      dsimp only
      rw [setAll_mem, if_neg hh]

/-- C266 (refuted): a cluster can only be restored as long as its hits are not used again: otherwise two live clusters
share them. -/
theorem C266_refuted : ∃ (s : St), Inv s ∧ ¬ Inv (restore s 0) ∧
    ∃ ops : List Op, s = ops.foldl step (start exHit 10) := by
  refine ⟨[Op.store [0, 1, 2] 0, Op.kill 0, Op.store [0, 1, 2, 3] 0].foldl step (start exHit 10), ?_, ?_, _, rfl⟩
  · simp only [List.foldl, step]
    exact inv_store (inv_obsolete (inv_store (inv_start _ _) _ _) 0) _ _
  · intro I
    have := I.live _ (List.mem_of_getElem? (i := 1) (a := ⟨2, 0, 0, 20, 100, -99, 17, 103, -99, [0, 1, 2, 3]⟩) (by decide +kernel))
      (by decide) 0 (by decide)
    revert this
    decide +kernel

end Verif.CCrawl

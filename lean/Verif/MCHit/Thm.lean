import Verif.MCHit.Model
import Mathlib.Data.List.Basic
import Mathlib.Data.List.Induction
import Mathlib.Algebra.BigOperators.Group.List.Basic
import Mathlib.Algebra.Order.BigOperators.Group.List
import Mathlib.Tactic.Linarith
import Mathlib.Tactic.Push
import Mathlib.Tactic.Ring
import Mathlib.Tactic.NormNum

namespace Verif.MCHit

variable {K : Type} [LinearOrder K]

/-- Specification: the time counts and charges stored for a deposit, in the order of the data. -/
def occ (items : List (Item K)) (d : K) : List (ℕ × ℚ) :=
  (items.filter (fun i => i.dep = d)).map (fun i => (i.tdc, i.q))

/-- The wire that a list of counts and charges gives. -/
def build : List (ℕ × ℚ) → Option Wire := fun l =>
  l.foldl (fun o x => match o with
    | none => some ⟨x.1, [x.2]⟩
    | some w => some (push w x.1 x.2)) none

def Asc (m : List (K × Wire)) : Prop := m.Pairwise (fun a b => a.1 < b.1)

def get (m : List (K × Wire)) (d : K) : Option Wire := (m.find? (fun e => e.1 = d)).map (·.2)

omit [LinearOrder K] in
theorem get_none [LinearOrder K] {m : List (K × Wire)} {d : K} (h : ∀ e ∈ m, d < e.1) : get m d = none := by
  unfold get
  rw [List.find?_eq_none.2]
  · rfl
  · intro e he
    have := h e he
    simpa using ne_of_gt this

theorem mem_get {m : List (K × Wire)} (h : Asc m) (d : K) (w : Wire) :
    (d, w) ∈ m ↔ get m d = some w := by
  induction m with
  | nil => simp [get]
  | cons e r ih =>
    have hr : Asc r := (List.pairwise_cons.1 h).2
    have h1 := (List.pairwise_cons.1 h).1
    by_cases hd : e.1 = d
    · subst hd
      have : get (e :: r) e.1 = some e.2 := by simp [get]
      rw [this]
      constructor
      · intro hm
        rcases List.mem_cons.1 hm with hm | hm
        · rw [← hm]
        · exact absurd (h1 _ hm) (lt_irrefl _)
      · intro hw
        have : e.2 = w := by simpa using hw
        subst this
        exact List.mem_cons_self
    · have : get (e :: r) d = get r d := by simp [get, hd]
      rw [this, ← ih hr]
      constructor
      · intro hm
        rcases List.mem_cons.1 hm with hm | hm
        · exact absurd (by rw [← hm]) hd
        · exact hm
      · exact List.mem_cons_of_mem _

theorem addItem_keys (i : Item K) (m : List (K × Wire)) (e : K × Wire) (he : e ∈ addItem i m) :
    e.1 = i.dep ∨ ∃ e' ∈ m, e'.1 = e.1 := by
  induction m with
  | nil =>
    simp only [addItem, List.mem_singleton] at he
    subst he; left; rfl
  | cons a r ih =>
    obtain ⟨k, w⟩ := a
    simp only [addItem] at he
    split at he
    · rcases List.mem_cons.1 he with he | he
      · subst he; left; rfl
      · right; exact ⟨e, he, rfl⟩
    · split at he
      · rcases List.mem_cons.1 he with he | he
        · right; exact ⟨e, by simp [he], rfl⟩
        · rcases ih he with h | ⟨e', h, h'⟩
          · left; exact h
          · right; exact ⟨e', List.mem_cons_of_mem _ h, h'⟩
      · rcases List.mem_cons.1 he with he | he
        · right; exact ⟨(k, w), by simp, by rw [he]⟩
        · right; exact ⟨e, List.mem_cons_of_mem _ he, rfl⟩

theorem addItem_asc (i : Item K) (m : List (K × Wire)) (h : Asc m) : Asc (addItem i m) := by
  induction m with
  | nil => simp [addItem, Asc]
  | cons a r ih =>
    obtain ⟨k, w⟩ := a
    have hr : Asc r := (List.pairwise_cons.1 h).2
    have h1 := (List.pairwise_cons.1 h).1
    simp only [addItem]
    split
    · rename_i hlt
      refine List.pairwise_cons.2 ⟨?_, h⟩
      intro e he
      rcases List.mem_cons.1 he with he | he
      · rw [he]; exact hlt
      · exact lt_trans hlt (h1 e he)
    · split
      · rename_i hlt
        refine List.pairwise_cons.2 ⟨?_, ih hr⟩
        intro e he
        rcases addItem_keys i r e he with h' | ⟨e', h', h''⟩
        · rw [h']; exact hlt
        · rw [← h'']; exact h1 e' h'
      · exact List.pairwise_cons.2 ⟨fun e he => h1 e he, hr⟩

theorem addItem_get (i : Item K) (m : List (K × Wire)) (h : Asc m) (d : K) :
    get (addItem i m) d = if i.dep = d then
      (match get m d with
        | none => some ⟨i.tdc, [i.q]⟩
        | some w => some (push w i.tdc i.q)) else get m d := by
  induction m with
  | nil =>
    by_cases hd : i.dep = d <;> simp [addItem, get, hd]
  | cons a r ih =>
    obtain ⟨k, w⟩ := a
    have hr : Asc r := (List.pairwise_cons.1 h).2
    have h1 := (List.pairwise_cons.1 h).1
    simp only [addItem]
    split
    · rename_i hlt
      by_cases hd : i.dep = d
      · subst hd
        have : get ((k, w) :: r) i.dep = none := by
          apply get_none
          intro e he
          rcases List.mem_cons.1 he with he | he
          · rw [he]; exact hlt
          · exact lt_trans hlt (h1 e he)
        rw [this]
        simp [get]
      · simp [get, hd]
    · split
      · rename_i hlt
        by_cases hk : k = d
        · have hd : ¬ i.dep = d := by rw [← hk]; exact ne_of_gt hlt
          simp [get, hk, hd]
        · have e1 : ∀ r' : List (K × Wire), get ((k, w) :: r') d = get r' d := by
            intro r'; simp [get, hk]
          rw [e1, e1, ih hr]
      · rename_i hn1 hn2
        have hk : k = i.dep := le_antisymm (not_lt.1 hn1) (not_lt.1 hn2)
        by_cases hd : i.dep = d
        · subst hd
          simp [get, hk]
        · simp [get, hk, hd]

theorem fill_inv (items : List (Item K)) :
    Asc (fill items) ∧ ∀ d, get (fill items) d = build (occ items d) := by
  unfold fill
  induction items using List.reverseRecOn with
  | nil => exact ⟨List.Pairwise.nil, fun d => rfl⟩
  | append_singleton l i ih =>
    rw [List.foldl_append]
    simp only [List.foldl_cons, List.foldl_nil]
    refine ⟨addItem_asc i _ ih.1, fun d => ?_⟩
    rw [addItem_get i _ ih.1 d, ih.2 d]
    unfold occ
    rw [List.filter_append, List.map_append]
    by_cases hd : i.dep = d
    · simp only [hd, if_true, List.filter_cons, decide_true, List.filter_nil, List.map_cons,
        List.map_nil]
      unfold build
      rw [List.foldl_append]
      rfl
    · simp [hd]

theorem build_ne {l : List (ℕ × ℚ)} : build l = none ↔ l = [] := by
  constructor
  · intro h
    by_contra hne
    obtain ⟨l', a, rfl⟩ : ∃ l' a, l = l' ++ [a] := ⟨l.dropLast, l.getLast hne, (List.dropLast_append_getLast hne).symm⟩
    unfold build at h
    rw [List.foldl_append] at h
    simp only [List.foldl_cons, List.foldl_nil] at h
    split at h <;> simp at h
  · rintro rfl; rfl

/-- **C422**: a channel gets exactly one wire, and with it one hit, for each different deposit stored
for it, in the order of the deposits. -/
theorem C422_deposits (items : List (Item K)) :
    ((fill items).map hitOf).Pairwise (fun a b => a.dep < b.dep) ∧
    ∀ d, (∃ h ∈ (fill items).map hitOf, h.dep = d) ↔ ∃ i ∈ items, i.dep = d := by
  obtain ⟨h1, h2⟩ := fill_inv items
  refine ⟨?_, fun d => ?_⟩
  · rw [List.pairwise_map]
    exact h1
  · have e1 : (∃ h ∈ (fill items).map hitOf, h.dep = d) ↔ get (fill items) d ≠ none := by
      constructor
      · rintro ⟨h, hh, hd⟩
        obtain ⟨⟨k, w⟩, he, rfl⟩ := List.mem_map.1 hh
        change k = d at hd
        subst hd
        rw [(mem_get h1 k w).1 he]
        simp
      · intro hne
        obtain ⟨w, hw⟩ := Option.ne_none_iff_exists'.1 hne
        exact ⟨hitOf (d, w), List.mem_map.2 ⟨_, (mem_get h1 d w).2 hw, rfl⟩, rfl⟩
    rw [e1, h2, Ne, build_ne]
    unfold occ
    rw [List.map_eq_nil_iff, List.filter_eq_nil_iff]
    push Not
    simp

/-- Two deposits in three counts. -/
example : ((fill [⟨2, 5, 1⟩, ⟨1, 5, 3⟩, ⟨2, 6, 4⟩] : List (ℕ × Wire)) =
    [(1, ⟨5, [3]⟩), (2, ⟨5, [1, 4]⟩)]) := by decide +kernel

/-- Specification: the longest initial run of consecutive counts. -/
structure FirstRun (l : List (ℕ × ℚ)) (w : Wire) : Prop where
  pos : 0 < w.qs.length
  len : w.qs.length ≤ l.length
  at' : ∀ j (h : j < w.qs.length), l[j]? = some (w.start + j, w.qs[j])
  stop : ∀ x, l[w.qs.length]? = some x → x.1 ≠ w.start + w.qs.length

theorem build_run {l : List (ℕ × ℚ)} (hs : l.Pairwise (fun a b => a.1 < b.1)) {w : Wire}
    (hw : build l = some w) : FirstRun l w := by
  induction l using List.reverseRecOn generalizing w with
  | nil => simp [build] at hw
  | append_singleton l a ih =>
    have hs' := (List.pairwise_append.1 hs).1
    have hlt : ∀ x ∈ l, x.1 < a.1 := fun x hx => (List.pairwise_append.1 hs).2.2 x hx a (by simp)
    have hb : build (l ++ [a]) = (match build l with
        | none => some ⟨a.1, [a.2]⟩
        | some w => some (push w a.1 a.2)) := by
      unfold build; rw [List.foldl_append]; rfl
    rw [hb] at hw
    cases hl : build l with
    | none =>
      rw [hl] at hw
      have := build_ne.1 hl
      subst this
      simp only [Option.some.injEq] at hw
      subst hw
      refine ⟨by simp, by simp, ?_, ?_⟩
      · intro j hj
        have : j = 0 := by simpa using hj
        subst this
        simp
      · intro x hx
        simp at hx
    | some v =>
      rw [hl] at hw
      simp only [Option.some.injEq] at hw
      have hv := ih hs' hl
      unfold push at hw
      split at hw
      · rename_i hne
        subst hw
        refine ⟨hv.pos, le_trans hv.len (by simp), ?_, ?_⟩
        · intro j hj
          rw [List.getElem?_append_left (lt_of_lt_of_le hj hv.len)]
          exact hv.at' j hj
        · intro x hx
          rcases lt_or_eq_of_le hv.len with h | h
          · rw [List.getElem?_append_left h] at hx
            exact hv.stop x hx
          · rw [h] at hx
            simp at hx
            subst hx
            exact fun hc => hne hc.symm
      · rename_i heq
        push Not at heq
        have hlen : v.qs.length = l.length := by
          rcases lt_or_eq_of_le hv.len with h | h
          · exfalso
            have hx : l[v.qs.length]? = some l[v.qs.length] := List.getElem?_eq_getElem h
            have h1 := hv.stop _ hx
            have h2 := hlt _ (List.getElem_mem h)
            have h0 := hv.at' (v.qs.length - 1) (by have := hv.pos; omega)
            have hp : v.qs.length - 1 < l.length := by omega
            rw [List.getElem?_eq_getElem hp] at h0
            have h0' : (l[v.qs.length - 1]).1 = v.start + (v.qs.length - 1) := by
              simp only [Option.some.injEq] at h0
              rw [h0]
            have h3 := List.pairwise_iff_getElem.1 hs' (v.qs.length - 1) v.qs.length hp h
              (by have := hv.pos; omega)
            have := hv.pos
            omega
          · exact h
        subst hw
        refine ⟨by simp, by simp [hlen], ?_, ?_⟩
        · intro j hj
          simp only [List.length_append, List.length_singleton] at hj
          rcases Nat.lt_or_ge j v.qs.length with h | h
          · rw [List.getElem?_append_left (by omega)]
            rw [hv.at' j h]
            simp [List.getElem_append_left h]
          · have : j = l.length := by omega
            subst this
            simp [← hlen, heq]
        · intro x hx
          simp [hlen] at hx

/-- **C423**: when the counts stored for a deposit ascend, its wire starts at the first of them and
holds the charges of the longest run of consecutive counts from there; the rest is not in the wire. -/
theorem C423_wire (items : List (Item K)) (d : K) (w : Wire) (hm : (d, w) ∈ fill items)
    (hs : (occ items d).Pairwise (fun a b => a.1 < b.1)) : FirstRun (occ items d) w := by
  obtain ⟨h1, h2⟩ := fill_inv items
  have := (mem_get h1 d w).1 hm
  rw [h2] at this
  exact build_run hs this

/-- A gap ends the wire; a later run is not taken up. -/
example : ((fill [⟨1, 5, 1⟩, ⟨1, 6, 3⟩, ⟨1, 8, 4⟩, ⟨1, 9, 7⟩] : List (ℕ × Wire)) =
    [(1, ⟨5, [1, 3]⟩)]) ∧
    ((occ [⟨1, 5, 1⟩, ⟨1, 6, 3⟩, ⟨1, 8, 4⟩, ⟨1, 9, 7⟩] 1 : List (ℕ × ℚ)).Pairwise
      (fun a b => a.1 < b.1)) := by decide +kernel

/-! ### The charges of a hit -/

theorem peak_fold (s0 : ℕ) (qs : List ℚ) :
    let s := qs.foldl (peakStep s0) (0, 0, 0, 0)
    s.1 = qs.length ∧ s.2.1 = qs.sum ∧
    ((∀ q ∈ qs, q ≤ 0) ∧ s.2.2.1 = 0 ∧ s.2.2.2 = 0 ∨
     ∃ j, ∃ h : j < qs.length, s.2.2.1 = qs[j] ∧ s.2.2.2 = s0 + j ∧ 0 < qs[j] ∧
      (∀ k (hk : k < qs.length), qs[k] ≤ qs[j]) ∧ ∀ k (hk : k < j), qs[k] < qs[j]) := by
  induction qs using List.reverseRecOn with
  | nil => simp
  | append_singleton l a ih =>
    simp only [List.foldl_append, List.foldl_cons, List.foldl_nil] at ih ⊢
    generalize l.foldl (peakStep s0) (0, 0, 0, 0) = s at *
    obtain ⟨h1, h2, h3⟩ := ih
    refine ⟨by simp [peakStep, h1], by simp [peakStep, h2], ?_⟩
    simp only [peakStep]
    rcases h3 with ⟨h0, h3, h4⟩ | ⟨j, hj, h3, h4, h5, h6, h7⟩
    · rw [h3]
      by_cases ha : a > 0
      · right
        refine ⟨l.length, by simp, ?_⟩
        simp only [ha, if_true, h1]
        refine ⟨by simp, trivial, by simpa using ha, ?_, ?_⟩
        · intro k hk
          rcases Nat.lt_or_ge k l.length with h | h
          · rw [List.getElem_append_left h]
            have := h0 _ (List.getElem_mem h)
            simp; linarith
          · have : k = l.length := by simp at hk; omega
            subst this; simp
        · intro k hk
          rw [List.getElem_append_left hk]
          have := h0 _ (List.getElem_mem hk)
          simp; linarith
      · left
        simp only [ha, if_false]
        refine ⟨?_, h3, h4⟩
        intro q hq
        rcases List.mem_append.1 hq with h | h
        · exact h0 q h
        · simp at h; subst h; exact not_lt.1 ha
    · right
      by_cases ha : a > s.2.2.1
      · refine ⟨l.length, by simp, ?_⟩
        simp only [ha, if_true, h1]
        rw [h3] at ha
        refine ⟨by simp, trivial, by simp; linarith, ?_, ?_⟩
        · intro k hk
          rcases Nat.lt_or_ge k l.length with h | h
          · rw [List.getElem_append_left h]
            have := h6 k h
            simp; linarith
          · have : k = l.length := by simp at hk; omega
            subst this; simp
        · intro k hk
          rw [List.getElem_append_left hk]
          have := h6 k hk
          simp; linarith
      · refine ⟨j, by simp; omega, ?_⟩
        simp only [ha, if_false]
        rw [List.getElem_append_left hj]
        refine ⟨h3, h4, h5, ?_, ?_⟩
        · intro k hk
          rcases Nat.lt_or_ge k l.length with h | h
          · rw [List.getElem_append_left h]
            exact h6 k h
          · have : k = l.length := by simp at hk; omega
            subst this
            rw [h3] at ha
            simpa using ha
        · intro k hk
          rw [List.getElem_append_left (by omega)]
          exact h7 k hk

omit [LinearOrder K] in
/-- **C424**: the charge of a hit is the sum of its wire; if a charge is positive the amplitude is the
largest charge and the time the first count that has it, otherwise both are 0. -/
theorem C424_peak (e : K × Wire) :
    (hitOf e).dep = e.1 ∧ (hitOf e).qsum = e.2.qs.sum ∧
    ((∀ q ∈ e.2.qs, q ≤ 0) ∧ (hitOf e).qmax = 0 ∧ (hitOf e).time = 0 ∨
     ∃ j, ∃ h : j < e.2.qs.length, (hitOf e).qmax = e.2.qs[j] ∧ (hitOf e).time = e.2.start + j ∧
      0 < e.2.qs[j] ∧ (∀ k (hk : k < e.2.qs.length), e.2.qs[k] ≤ e.2.qs[j]) ∧
      ∀ k (hk : k < j), e.2.qs[k] < e.2.qs[j]) := by
  have := peak_fold e.2.start e.2.qs
  exact ⟨rfl, this.2.1, this.2.2⟩

/-- The second count has the largest charge. -/
example : (hitOf ((1 : ℕ), ⟨5, [1, 7, 7]⟩)).time = 6 ∧ (hitOf ((1 : ℕ), ⟨5, [1, 7, 7]⟩)).qmax = 7 ∧
    (hitOf ((1 : ℕ), ⟨5, [1, 7, 7]⟩)).qsum = 15 := by decide +kernel

/-- **C424**, counterexample: charges that are not positive give time 0, before the wire begins. -/
theorem C424_refuted_negative : (hitOf ((1 : ℕ), ⟨5, [-3]⟩)).time = 0 ∧
    (hitOf ((1 : ℕ), ⟨5, [-3]⟩)).qsum = -3 := by decide +kernel

/-! ### The charge of a channel -/

/-- The charge in the wires. -/
def total (m : List (K × Wire)) : ℚ := (m.map (fun e => e.2.qs.sum)).sum

theorem addItem_total (i : Item K) (m : List (K × Wire)) (h : Asc m) :
    total (addItem i m) = total m + (if ∀ w, get m i.dep = some w → w.start + w.qs.length = i.tdc
      then i.q else 0) := by
  induction m with
  | nil => simp [addItem, total, get]
  | cons a r ih =>
    obtain ⟨k, w⟩ := a
    have hr : Asc r := (List.pairwise_cons.1 h).2
    have h1 := (List.pairwise_cons.1 h).1
    simp only [addItem]
    split
    · rename_i hlt
      have : get ((k, w) :: r) i.dep = none := by
        apply get_none
        intro e he
        rcases List.mem_cons.1 he with he | he
        · rw [he]; exact hlt
        · exact lt_trans hlt (h1 e he)
      rw [this]
      simp [total]
      ring
    · split
      · rename_i hlt
        have : get ((k, w) :: r) i.dep = get r i.dep := by simp [get, ne_of_lt hlt]
        rw [this]
        have h2 := ih hr
        simp only [total, List.map_cons, List.sum_cons] at h2 ⊢
        rw [h2]; ring
      · rename_i hn1 hn2
        have hk : k = i.dep := le_antisymm (not_lt.1 hn1) (not_lt.1 hn2)
        have : get ((k, w) :: r) i.dep = some w := by simp [get, hk]
        rw [this]
        simp only [total, List.map_cons, List.sum_cons, Option.some.injEq, forall_eq']
        unfold push
        by_cases hc : w.start + w.qs.length = i.tdc
        · simp [hc]; ring
        · simp [hc]

omit [LinearOrder K] in
theorem hits_total (m : List (K × Wire)) : ((m.map hitOf).map (·.qsum)).sum = total m := by
  unfold total
  rw [List.map_map]
  congr 1
  apply List.map_congr_left
  intro e _
  exact (C424_peak e).2.1

/-- **C425**: with charges that are not negative, the hits of a channel never have more charge than was
stored for it. -/
theorem C425_no_gain_partial (items : List (Item K)) (hq : ∀ i ∈ items, 0 ≤ i.q) :
    (((fill items).map hitOf).map (·.qsum)).sum ≤ (items.map (·.q)).sum := by
  rw [hits_total]
  induction items using List.reverseRecOn with
  | nil => simp [fill, total]
  | append_singleton l i ih =>
    have h1 := (fill_inv l).1
    have e : fill (l ++ [i]) = addItem i (fill l) := by simp [fill]
    rw [e, addItem_total i _ h1, List.map_append, List.sum_append]
    have := ih (fun j hj => hq j (by simp [hj]))
    have h0 := hq i (by simp)
    simp only [List.map_cons, List.map_nil, List.sum_cons, List.sum_nil, add_zero]
    split <;> linarith

/-- The counts are consecutive. -/
def Consec (l : List (ℕ × ℚ)) : Prop := ∃ t, ∀ (j : ℕ) (x : ℕ × ℚ), l[j]? = some x → x.1 = t + j

theorem build_consec {l : List (ℕ × ℚ)} {t : ℕ} (h : ∀ (j : ℕ) (x : ℕ × ℚ), l[j]? = some x → x.1 = t + j)
    (hne : l ≠ []) : build l = some ⟨t, l.map (·.2)⟩ := by
  induction l using List.reverseRecOn with
  | nil => exact absurd rfl hne
  | append_singleton l a ih =>
    have hb : build (l ++ [a]) = (match build l with
        | none => some ⟨a.1, [a.2]⟩
        | some w => some (push w a.1 a.2)) := by
      unfold build; rw [List.foldl_append]; rfl
    have ha : a.1 = t + l.length := h l.length a (by simp)
    rw [hb]
    by_cases hl : l = []
    · subst hl
      simp only [List.length_nil, add_zero] at ha
      simp [build, ha]
    · rw [ih (fun j x hx => h j x (by
        rw [List.getElem?_append_left]
        · exact hx
        · exact (List.getElem?_eq_some_iff.1 hx).1)) hl]
      simp [push, ha]

/-- **C425**: when the counts of every deposit are consecutive, the hits of a channel have exactly the
charge that was stored for it. -/
theorem C425_conserved_partial (items : List (Item K)) (hc : ∀ d, Consec (occ items d)) :
    (((fill items).map hitOf).map (·.qsum)).sum = (items.map (·.q)).sum := by
  rw [hits_total]
  induction items using List.reverseRecOn with
  | nil => simp [fill, total]
  | append_singleton l i ih =>
    obtain ⟨h1, h2⟩ := fill_inv l
    have e : fill (l ++ [i]) = addItem i (fill l) := by simp [fill]
    have ho : ∀ d, occ (l ++ [i]) d = occ l d ++ (if i.dep = d then [(i.tdc, i.q)] else []) := by
      intro d
      unfold occ
      rw [List.filter_append, List.map_append]
      by_cases hd : i.dep = d <;> simp [hd]
    have hpre : ∀ d, Consec (occ l d) := by
      intro d
      obtain ⟨t, ht⟩ := hc d
      refine ⟨t, fun j x hx => ht j x ?_⟩
      rw [ho, List.getElem?_append_left]
      · exact hx
      · exact (List.getElem?_eq_some_iff.1 hx).1
    have hacc : ∀ w, get (fill l) i.dep = some w → w.start + w.qs.length = i.tdc := by
      intro w hw
      rw [h2] at hw
      obtain ⟨t, ht⟩ := hc i.dep
      rw [ho] at ht
      simp only [if_true] at ht
      have hne : occ l i.dep ≠ [] := by
        intro h
        rw [build_ne.2 h] at hw
        simp at hw
      rw [build_consec (t := t) (fun j x hx => ht j x (by
        rw [List.getElem?_append_left]
        · exact hx
        · exact (List.getElem?_eq_some_iff.1 hx).1)) hne] at hw
      simp only [Option.some.injEq] at hw
      subst hw
      have := ht (occ l i.dep).length (i.tdc, i.q) (by simp)
      simp only [List.length_map]
      exact this.symm
    rw [e, addItem_total i _ h1, if_pos hacc, ih hpre, List.map_append, List.sum_append]
    simp

/-- Two deposits, both with consecutive counts. -/
example : (((fill [⟨2, 5, 1⟩, ⟨1, 5, 3⟩, ⟨2, 6, 4⟩] : List (ℕ × Wire)).map hitOf).map (·.qsum)).sum = 8 ∧
    Consec (occ ([⟨2, 5, 1⟩, ⟨1, 5, 3⟩, ⟨2, 6, 4⟩] : List (Item ℕ)) 2) := by
  refine ⟨by decide +kernel, 5, ?_⟩
  intro j x hx
  have : occ ([⟨2, 5, 1⟩, ⟨1, 5, 3⟩, ⟨2, 6, 4⟩] : List (Item ℕ)) 2 = [(5, 1), (6, 4)] := by
    decide +kernel
  rw [this] at hx
  rcases j with _ | _ | j
  · simp at hx; subst hx; rfl
  · simp at hx; subst hx; rfl
  · simp at hx

/-- **C425**, counterexample: charge of a deposit after an empty count is lost. -/
theorem C425_refuted_gap :
    (((fill [⟨1, 5, 1⟩, ⟨1, 7, 10⟩] : List (ℕ × Wire)).map hitOf).map (·.qsum)).sum = 1 := by
  decide +kernel

/-- **C425**, counterexample: the second entry of the same deposit in the same count is lost. -/
theorem C425_refuted_twice :
    (((fill [⟨1, 5, 1⟩, ⟨1, 5, 10⟩] : List (ℕ × Wire)).map hitOf).map (·.qsum)).sum = 1 := by
  decide +kernel

/-! ### The module -/

theorem addSims (sims : List (Sim K)) (h0 : List (List (Hit K))) :
    ((∃ s ∈ sims, h0.length ≤ s.ch) → sims.foldlM addSim h0 = none) ∧
    ((∀ s ∈ sims, s.ch < h0.length) → ∃ out, sims.foldlM addSim h0 = some out ∧
      out.length = h0.length ∧ ∀ c < h0.length, out.getD c [] = h0.getD c [] ++
        ((sims.filter (fun s => s.ch = c)).flatMap (fun s => (fill s.items).map hitOf))) := by
  induction sims generalizing h0 with
  | nil => simp
  | cons s r ih =>
    rw [List.foldlM_cons]
    by_cases hs : s.ch ≥ h0.length
    · have : addSim h0 s = none := by simp [addSim, hs]
      rw [this]
      refine ⟨fun _ => rfl, fun h => ?_⟩
      have := h s (by simp)
      omega
    · have : addSim h0 s = some (h0.set s.ch (h0.getD s.ch [] ++ (fill s.items).map hitOf)) := by
        simp [addSim, hs]
      rw [this]
      have hlen : (h0.set s.ch (h0.getD s.ch [] ++ (fill s.items).map hitOf)).length = h0.length := by
        simp
      obtain ⟨i1, i2⟩ := ih (h0.set s.ch (h0.getD s.ch [] ++ (fill s.items).map hitOf))
      rw [hlen] at i1 i2
      refine ⟨?_, ?_⟩
      · rintro ⟨x, hx, hc⟩
        rcases List.mem_cons.1 hx with hx | hx
        · subst hx; exact absurd hc hs
        · exact i1 ⟨x, hx, hc⟩
      · intro h
        obtain ⟨out, o1, o2, o3⟩ := i2 (fun x hx => h x (by simp [hx]))
        refine ⟨out, o1, o2, fun c hc => ?_⟩
        rw [o3 c hc]
        by_cases hsc : s.ch = c
        · subst hsc
          rw [List.filter_cons_of_pos (by simp), List.flatMap_cons, ← List.append_assoc]
          congr 1
          simp [List.getD_eq_getElem?_getD, hc]
        · rw [List.filter_cons_of_neg (by simpa using hsc)]
          congr 1
          simp [List.getD_eq_getElem?_getD, hsc]

/-- **C426**: the module makes one collection for each channel of the detector, and the collection of a
channel has the hits of the input channels with this number, in their order; it fails exactly when the
input is missing or has a channel the detector does not have. -/
theorem C426_produce (nch : ℕ) (sims : Option (List (Sim K))) :
    (produce nch sims = none ↔ ∀ l, sims = some l → ∃ s ∈ l, nch ≤ s.ch) ∧
    ∀ l out, sims = some l → produce nch sims = some out →
      out.length = nch ∧ ∀ c < nch, out.getD c [] =
        (l.filter (fun s => s.ch = c)).flatMap (fun s => (fill s.items).map hitOf) := by
  cases sims with
  | none => simp [produce]
  | some l =>
    obtain ⟨i1, i2⟩ := addSims l (List.replicate nch ([] : List (Hit K)))
    simp only [List.length_replicate] at i1 i2
    have hp : produce nch (some l) = l.foldlM addSim (List.replicate nch []) := rfl
    rw [hp]
    refine ⟨⟨?_, ?_⟩, ?_⟩
    · intro h l' hl
      obtain rfl : l = l' := by simpa using hl
      by_contra hc
      push Not at hc
      obtain ⟨out, o1, _⟩ := i2 hc
      rw [h] at o1
      simp at o1
    · intro h
      exact i1 (h l rfl)
    · intro l' out hl ho
      obtain rfl : l = l' := by simpa using hl
      by_cases hc : ∃ s ∈ l, nch ≤ s.ch
      · rw [i1 hc] at ho; simp at ho
      · push Not at hc
        obtain ⟨out', o1, o2, o3⟩ := i2 hc
        rw [o1] at ho
        simp only [Option.some.injEq] at ho
        subst ho
        refine ⟨o2, fun c h => ?_⟩
        rw [o3 c h]
        simp [List.getD_eq_getElem?_getD, h]

/-- Two entries of the same channel: a deposit in both gives two hits. -/
example : ((produce 2 (some [⟨1, [⟨1, 5, 2⟩]⟩, ⟨1, [⟨1, 6, 3⟩]⟩]) : Option (List (List (Hit ℕ)))).map
    (fun o => o.map (fun h => h.map (fun x => (x.dep, x.qsum, x.time))))) =
    some [[], [(1, 2, 5), (1, 3, 6)]] := by decide +kernel

end Verif.MCHit

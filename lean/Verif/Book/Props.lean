import Verif.Book.Model
import Mathlib.Data.List.Nodup
import Mathlib.Tactic.Linarith

/-! Properties C291 - C297: `GFBookkeeping`. -/

namespace Verif.Book

variable {M P α : Type}

/-! ### Maps -/

theorem look_append (s t : Store α) (k : String) :
    look (s ++ t) k = if (look s k).isSome then look s k else look t k := by
  induction s with
  | nil => simp [look]
  | cons e s ih =>
    obtain ⟨a, v⟩ := e
    by_cases h : a = k
    · simp [look, h]
    · simp only [List.cons_append, look, if_neg h]
      exact ih

theorem look_touch (s : Store α) (k k' : String) :
    look (touch s k) k' = if k' = k then some ((look s k).getD none) else look s k' := by
  unfold touch
  by_cases h : (look s k).isSome = true
  · rw [if_pos h]
    by_cases hk : k' = k
    · subst hk
      rw [if_pos rfl]
      obtain ⟨v, hv⟩ := Option.isSome_iff_exists.1 h
      rw [hv]; rfl
    · rw [if_neg hk]
  · rw [if_neg h, look_append]
    have hn : look s k = none := by simpa using h
    by_cases hk : k' = k
    · subst hk
      rw [hn]
      simp [look]
    · rw [if_neg hk]
      by_cases h' : (look s k').isSome = true
      · rw [if_pos h']
      · rw [if_neg h']
        have hn' : look s k' = none := by simpa using h'
        rw [hn']
        simp only [look]
        rw [if_neg (fun e => hk e.symm)]

theorem look_map_put (s : Store α) (k k' : String) (v : List α) :
    look (s.map fun e => if e.1 = k then (k, some v) else e) k' =
      if k' = k then (look s k).map (fun _ => some v) else look s k' := by
  induction s with
  | nil => simp [look]
  | cons e s ih =>
    obtain ⟨a, w⟩ := e
    simp only [List.map_cons]
    by_cases ha : a = k
    · subst ha
      simp only [if_true, look]
      by_cases hk : k' = a
      · subst hk; simp
      · rw [if_neg (fun e => hk e.symm), ih, if_neg hk, if_neg hk, if_neg (fun e => hk e.symm)]
    · rw [if_neg ha]
      simp only [look]
      by_cases hk : k' = k
      · subst hk
        rw [if_neg ha, ih, if_pos rfl, if_pos rfl, if_neg ha]
      · rw [ih, if_neg hk, if_neg hk]

theorem look_put (s : Store α) (k k' : String) (v : List α) :
    look (put s k v) k' = if k' = k then some (some v) else look s k' := by
  unfold put
  rw [look_map_put, look_touch, look_touch]
  by_cases h : k' = k
  · simp [h]
  · simp [h]

theorem look_some_mem (s : Store α) (k : String) (v : Option (List α)) (h : look s k = some v) :
    (k, v) ∈ s := by
  induction s with
  | nil => simp [look] at h
  | cons e s ih =>
    obtain ⟨a, w⟩ := e
    simp only [look] at h
    split at h
    · rename_i ha
      simp only [Option.some.injEq] at h
      subst h; subst ha; simp
    · exact List.mem_cons_of_mem _ (ih h)

theorem mem_look (s : Store α) (hn : (s.map Prod.fst).Nodup) (k : String) (v : Option (List α))
    (h : (k, v) ∈ s) : look s k = some v := by
  induction s with
  | nil => simp at h
  | cons e s ih =>
    obtain ⟨a, w⟩ := e
    rw [List.map_cons, List.nodup_cons] at hn
    simp only [look]
    rcases List.mem_cons.1 h with h | h
    · simp only [Prod.mk.injEq] at h
      rw [if_pos h.1.symm, h.2]
    · have : k ∈ s.map Prod.fst := List.mem_map.2 ⟨_, h, rfl⟩
      rw [if_neg (fun e => hn.1 (by simpa [e] using this))]
      exact ih hn.2 h

theorem booked_iff (s : Store α) (k : String) : booked s k = true ↔ ∃ l, look s k = some (some l) := by
  unfold booked
  rcases look s k with _ | _ | l <;> simp

theorem booked_false_iff (s : Store α) (k : String) : booked s k = false ↔ ∀ l, look s k ≠ some (some l) := by
  rw [← Bool.not_eq_true, booked_iff]
  push Not
  rfl

/-- What holds of each map in every history: no key twice, arrays have one entry for each hit, and there are
none as long as the number of hits is not known. -/
def Good (n : Int) (s : Store α) : Prop :=
  (s.map Prod.fst).Nodup ∧ ∀ k l, (k, some l) ∈ s → 0 ≤ n ∧ l.length = n.toNat

theorem good_nil (n : Int) : Good n ([] : Store α) := ⟨by simp, by simp⟩

theorem look_none_iff (s : Store α) (k : String) : look s k = none ↔ k ∉ s.map Prod.fst := by
  induction s with
  | nil => simp [look]
  | cons e s ih =>
    obtain ⟨a, w⟩ := e
    simp only [look, List.map_cons, List.mem_cons, not_or]
    by_cases h : a = k
    · simp [h]
    · rw [if_neg h, ih]
      constructor
      · exact fun h' => ⟨fun e => h e.symm, h'⟩
      · exact fun h' => h'.2

theorem good_touch (n : Int) (s : Store α) (k : String) (h : Good n s) : Good n (touch s k) := by
  unfold touch
  split
  · exact h
  · rename_i hn
    have hn' : look s k = none := by simpa using hn
    rw [look_none_iff] at hn'
    refine ⟨?_, ?_⟩
    · rw [List.map_append, List.nodup_append]
      refine ⟨h.1, by simp, ?_⟩
      intro a ha b hb hab
      simp only [List.map_cons, List.map_nil, List.mem_singleton] at hb
      subst hb; subst hab
      exact hn' ha
    · intro k' l hm
      rcases List.mem_append.1 hm with hm | hm
      · exact h.2 k' l hm
      · simp at hm

theorem good_put (n : Int) (s : Store α) (k : String) (v : List α) (h : Good n s) (h0 : 0 ≤ n)
    (hv : v.length = n.toNat) : Good n (put s k v) := by
  have ht := good_touch n s k h
  unfold put
  refine ⟨?_, ?_⟩
  · rw [List.map_map]
    have : (touch s k).map (Prod.fst ∘ fun e => if e.1 = k then (k, some v) else e) =
        (touch s k).map Prod.fst := by
      apply List.map_congr_left
      intro e _
      simp only [Function.comp_apply]
      split
      · rename_i he; exact he.symm
      · rfl
    rw [this]
    exact ht.1
  · intro k' l hm
    obtain ⟨e, he, hee⟩ := List.mem_map.1 hm
    split at hee
    · simp only [Prod.mk.injEq, Option.some.injEq] at hee
      rw [← hee.2]
      exact ⟨h0, hv⟩
    · subst hee
      exact ht.2 k' l he

theorem good_look (n : Int) (s : Store α) (h : Good n s) (k : String) (l : List α)
    (hl : look s k = some (some l)) : 0 ≤ n ∧ l.length = n.toNat :=
  h.2 k l (look_some_mem s k _ hl)

theorem out_iff (n : Int) (h0 : 0 ≤ n) (i : Nat) : outOfRange n i = false ↔ (i : Int) < n := by
  unfold outOfRange
  rw [if_neg (by omega)]
  simp

theorem mem_keys (n : Int) (s : Store α) (h : Good n s) (k : String) :
    k ∈ keys s ↔ ∃ l, look s k = some (some l) := by
  unfold keys
  simp only [List.mem_filterMap, Option.map_eq_some_iff]
  constructor
  · rintro ⟨⟨a, v⟩, he, l, hv, rfl⟩
    simp only at hv
    subst hv
    exact ⟨l, mem_look s h.1 _ _ he⟩
  · rintro ⟨l, hl⟩
    exact ⟨(k, some l), look_some_mem s k _ hl, l, rfl, rfl⟩

theorem mem_dump (n : Int) (s : Store α) (h : Good n s) (k : String) (l : List α) :
    (k, l) ∈ dump s ↔ look s k = some (some l) := by
  unfold dump
  simp only [List.mem_filterMap, Option.map_eq_some_iff]
  constructor
  · rintro ⟨⟨a, v⟩, he, l', hv, hee⟩
    simp only [Prod.mk.injEq] at hee hv
    subst hv
    rw [← hee.1, ← hee.2]
    exact mem_look s h.1 _ _ he
  · intro hl
    exact ⟨(k, some l), look_some_mem s k _ hl, l, rfl, rfl⟩

theorem nodup_keys (s : Store α) (h : (s.map Prod.fst).Nodup) : (keys s).Nodup := by
  have : (keys s).Sublist (s.map Prod.fst) := by
    unfold keys
    induction s with
    | nil => simp
    | cons e s ih =>
      rw [List.map_cons, List.nodup_cons] at h
      rw [List.filterMap_cons]
      rcases e with ⟨a, _ | l⟩
      · exact (ih h.2).cons _
      · exact (ih h.2).cons_cons _
  exact h.sublist this

theorem nodup_dump (s : Store α) (h : (s.map Prod.fst).Nodup) : ((dump s).map Prod.fst).Nodup := by
  have : (dump s).map Prod.fst = keys s := by
    unfold dump keys
    rw [List.map_filterMap]
    congr 1
    funext e
    rcases e with ⟨a, _ | l⟩ <;> rfl
  rw [this]
  exact nodup_keys s h

/-! ### What holds in every history -/

/-- the three maps -/
structure WF (s : BK M P) : Prop where
  mats : Good s.nhits s.mats
  planes : Good s.nhits s.planes
  nums : Good s.nhits s.nums

theorem bookM_wf (dM : M) (s : BK M P) (k : String) (h : WF s) : WF (bookM dM s k).2 := by
  unfold bookM
  split
  · exact h
  · rename_i hn
    split
    · exact ⟨good_touch _ _ _ h.mats, h.planes, h.nums⟩
    · exact ⟨good_put _ _ _ _ h.mats (by simpa using hn) (by simp), h.planes, h.nums⟩

theorem bookP_wf (dP : P) (s : BK M P) (k : String) (h : WF s) : WF (bookP dP s k).2 := by
  unfold bookP
  split
  · exact h
  · rename_i hn
    split
    · exact ⟨h.mats, good_touch _ _ _ h.planes, h.nums⟩
    · exact ⟨h.mats, good_put _ _ _ _ h.planes (by simpa using hn) (by simp), h.nums⟩

theorem bookN_wf (s : BK M P) (k : String) (v : ℚ) (h : WF s) : WF (bookN s k v).2 := by
  unfold bookN
  split
  · exact h
  · rename_i hn
    dsimp only
    split
    · exact ⟨h.mats, good_touch _ _ _ h.planes, h.nums⟩
    · exact ⟨h.mats, good_touch _ _ _ h.planes, good_put _ _ _ _ h.nums (by simpa using hn) (by simp)⟩

theorem setIn_good (n : Int) (s : Store α) (k : String) (i : Nat) (v : α) (h : Good n s) :
    Good n (setIn n s k i v).2 := by
  unfold setIn
  split
  · rename_i l hl
    split
    · exact h
    · obtain ⟨h0, hlen⟩ := good_look n s h k l hl
      exact good_put _ _ _ _ h h0 (by simpa using hlen)
  · exact good_touch _ _ _ h

theorem each_wf {β : Type} (f : BK M P → β → Outcome × BK M P) (hf : ∀ s b, WF s → WF (f s b).2) :
    ∀ (l : List β) (s : BK M P), WF s → WF (each f s l).2 := by
  intro l
  induction l with
  | nil => intro s h; exact h
  | cons b l ih =>
    intro s h
    simp only [each]
    have := hf s b h
    split
    · rename_i s' hs'
      rw [hs'] at this
      exact ih s' this
    · exact this

theorem andThen_wf (r : Outcome × BK M P) (f : BK M P → Outcome × BK M P) (h : WF r.2)
    (hf : ∀ s, WF s → WF (f s).2) : WF (andThen r f).2 := by
  unfold andThen
  split
  · exact hf _ h
  · exact h

theorem reset_wf (dM : M) (dP : P) (s : BK M P) : WF (reset dM dP s).2 := by
  unfold reset
  apply andThen_wf
  · apply each_wf
    · exact fun s b h => bookM_wf dM s b h
    · exact ⟨good_nil _, good_nil _, good_nil _⟩
  · intro s1 h1
    apply andThen_wf
    · exact each_wf _ (fun s b h => bookP_wf dP s b h) _ _ h1
    · intro s2 h2
      exact each_wf _ (fun s b h => bookN_wf s b 0 h) _ _ h2

theorem step_wf (dM : M) (dP : P) (s : BK M P) (op : Op M P) (h : WF s) : WF (step dM dP s op) := by
  cases op with
  | setNhits n => exact reset_wf _ _ _
  | bookM k => exact bookM_wf _ _ _ h
  | bookP k => exact bookP_wf _ _ _ h
  | bookN k v => exact bookN_wf _ _ _ h
  | setM k i v => exact ⟨setIn_good _ _ _ _ _ h.mats, h.planes, h.nums⟩
  | setP k i v => exact ⟨h.mats, setIn_good _ _ _ _ _ h.planes, h.nums⟩
  | setN k i v => exact ⟨h.mats, h.planes, setIn_good _ _ _ _ _ h.nums⟩
  | addFailed x => exact ⟨h.mats, h.planes, h.nums⟩
  | clearFailed => exact ⟨h.mats, h.planes, h.nums⟩
  | clearAll => exact ⟨good_nil _, good_nil _, good_nil _⟩
  | reset => exact reset_wf _ _ _

theorem run_wf (dM : M) (dP : P) (ops : List (Op M P)) : WF (run dM dP ops) := by
  have : ∀ (ops : List (Op M P)) (s : BK M P), WF s → WF (ops.foldl (step dM dP) s) := by
    intro ops
    induction ops with
    | nil => intro s h; exact h
    | cons op ops ih => intro s h; exact ih _ (step_wf dM dP s op h)
  exact this ops _ ⟨good_nil _, good_nil _, good_nil _⟩

/-! ### C291 what is set is what is got -/

theorem getIn_ok (n : Int) (s : Store α) (h : Good n s) (k : String) (i : Nat) (a : Option α) :
    getIn n s k i = (.ok, a) ↔ ∃ l, look s k = some (some l) ∧ (i : Int) < n ∧ a = l[i]? := by
  unfold getIn
  rcases hl : look s k with _ | _ | l
  · simp
  · simp only [Option.some.injEq]
    split <;> simp
  · obtain ⟨h0, -⟩ := good_look n s h k l hl
    by_cases ho : outOfRange n i = true
    · have : ¬ (i : Int) < n := by
        rw [← out_iff n h0]; simp [ho]
      simp [ho, this]
    · have ho : outOfRange n i = false := by simpa using ho
      have : (i : Int) < n := (out_iff n h0 i).1 ho
      simp [ho, this, eq_comm]

theorem setIn_spec (n : Int) (s : Store α) (h : Good n s) (k : String) (i : Nat) (v : α) :
    ((setIn n s k i v).1 = .ok ↔ k ∈ keys s ∧ (i : Int) < n) ∧
    ((setIn n s k i v).1 = .ok → getIn n (setIn n s k i v).2 k i = (.ok, some v) ∧
      ∀ k' i', (k', i') ≠ (k, i) → getIn n (setIn n s k i v).2 k' i' = getIn n s k' i') ∧
    ((setIn n s k i v).1 ≠ .ok → (setIn n s k i v).1 = .thrown ∧
      ∀ k' i' a, getIn n (setIn n s k i v).2 k' i' = (.ok, a) ↔ getIn n s k' i' = (.ok, a)) := by
  have hg := setIn_good n s k i v h
  rw [mem_keys n s h k]
  unfold setIn at hg ⊢
  rcases hl : look s k with _ | _ | l
  · rw [hl] at hg
    refine ⟨by simp, by simp, fun _ => ⟨rfl, ?_⟩⟩
    intro k' i' a
    rw [getIn_ok n _ hg, getIn_ok n s h]
    dsimp only
    rw [look_touch, hl]
    by_cases hk : k' = k
    · subst hk; simp [hl]
    · simp [hk]
  · rw [hl] at hg
    refine ⟨by simp, by simp, fun _ => ⟨rfl, ?_⟩⟩
    intro k' i' a
    rw [getIn_ok n _ hg, getIn_ok n s h]
    dsimp only
    rw [look_touch, hl]
    by_cases hk : k' = k
    · subst hk; simp [hl]
    · simp [hk]
  · obtain ⟨h0, hlen⟩ := good_look n s h k l hl
    rw [hl] at hg
    dsimp only at hg ⊢
    by_cases ho : outOfRange n i = true
    · have : ¬ (i : Int) < n := by rw [← out_iff n h0]; simp [ho]
      rw [if_pos ho]
      simp [this]
    · have ho : outOfRange n i = false := by simpa using ho
      have hi : (i : Int) < n := (out_iff n h0 i).1 ho
      rw [if_neg (by simp [ho])] at hg ⊢
      refine ⟨by simp [hi], fun _ => ⟨?_, ?_⟩, by simp⟩
      · rw [getIn_ok n _ hg]
        refine ⟨l.set i v, by simp [look_put], hi, ?_⟩
        rw [List.getElem?_set_self (by omega)]
      · intro k' i' hne
        unfold getIn
        rw [look_put]
        by_cases hk : k' = k
        · subst hk
          have hii : i ≠ i' := fun e => hne (by rw [e])
          rw [if_pos rfl, hl]
          dsimp only
          rw [List.getElem?_set_ne hii]
        · rw [if_neg hk]

/-- C291: in every history, setting a matrix works exactly if the key is booked and the hit exists; then the
matrix is what is read at that place, and what is read elsewhere, and the planes, numbers and failed hits
stay the same; otherwise an exception is thrown and nothing that can be read changes. -/
theorem C291_matrix (dM : M) (dP : P) (ops : List (Op M P)) (k : String) (i : Nat) (v : M) :
    let s := run dM dP ops
    let r := setM s k i v
    (r.1 = .ok ↔ k ∈ keys s.mats ∧ (i : Int) < s.nhits) ∧
    (r.1 = .ok → getM r.2 k i = (.ok, some v) ∧
      ∀ k' i', (k', i') ≠ (k, i) → getM r.2 k' i' = getM s k' i') ∧
    (r.1 ≠ .ok → r.1 = .thrown ∧ ∀ k' i' a, getM r.2 k' i' = (.ok, a) ↔ getM s k' i' = (.ok, a)) ∧
    r.2.planes = s.planes ∧ r.2.nums = s.nums ∧ r.2.failed = s.failed ∧ r.2.nhits = s.nhits := by
  intro s r
  obtain ⟨h1, h2, h3⟩ := setIn_spec s.nhits s.mats (run_wf dM dP ops).mats k i v
  exact ⟨h1, h2, h3, rfl, rfl, rfl, rfl⟩

/-- C291: the same for planes. -/
theorem C291_plane (dM : M) (dP : P) (ops : List (Op M P)) (k : String) (i : Nat) (v : P) :
    let s := run dM dP ops
    let r := setP s k i v
    (r.1 = .ok ↔ k ∈ keys s.planes ∧ (i : Int) < s.nhits) ∧
    (r.1 = .ok → getP r.2 k i = (.ok, some v) ∧
      ∀ k' i', (k', i') ≠ (k, i) → getP r.2 k' i' = getP s k' i') ∧
    (r.1 ≠ .ok → r.1 = .thrown ∧ ∀ k' i' a, getP r.2 k' i' = (.ok, a) ↔ getP s k' i' = (.ok, a)) ∧
    r.2.mats = s.mats ∧ r.2.nums = s.nums ∧ r.2.failed = s.failed ∧ r.2.nhits = s.nhits := by
  intro s r
  obtain ⟨h1, h2, h3⟩ := setIn_spec s.nhits s.planes (run_wf dM dP ops).planes k i v
  exact ⟨h1, h2, h3, rfl, rfl, rfl, rfl⟩

/-- C291: the same for numbers. -/
theorem C291_number (dM : M) (dP : P) (ops : List (Op M P)) (k : String) (i : Nat) (v : ℚ) :
    let s := run dM dP ops
    let r := setN s k i v
    (r.1 = .ok ↔ k ∈ keys s.nums ∧ (i : Int) < s.nhits) ∧
    (r.1 = .ok → getN r.2 k i = (.ok, some v) ∧
      ∀ k' i', (k', i') ≠ (k, i) → getN r.2 k' i' = getN s k' i') ∧
    (r.1 ≠ .ok → r.1 = .thrown ∧ ∀ k' i' a, getN r.2 k' i' = (.ok, a) ↔ getN s k' i' = (.ok, a)) ∧
    r.2.mats = s.mats ∧ r.2.planes = s.planes ∧ r.2.failed = s.failed ∧ r.2.nhits = s.nhits := by
  intro s r
  obtain ⟨h1, h2, h3⟩ := setIn_spec s.nhits s.nums (run_wf dM dP ops).nums k i v
  exact ⟨h1, h2, h3, rfl, rfl, rfl, rfl⟩

example : getN (run (0 : Nat) (0 : Nat) [.setNhits 3, .bookN "fChi2" 7, .setN "fChi2" 1 5]) "fChi2" 1 = (.ok, some 5) ∧
    getN (run (0 : Nat) (0 : Nat) [.setNhits 3, .bookN "fChi2" 7, .setN "fChi2" 1 5]) "fChi2" 2 = (.ok, some 7) ∧
    (getN (run (0 : Nat) (0 : Nat) [.setNhits 3, .bookN "fChi2" 7]) "fChi2" 3).1 = .thrown := by decide +kernel

/-! ### C292 reading -/

theorem getIn_known (n : Int) (s : Store α) (h : Good n s) (k : String) (i : Nat) :
    (k ∈ keys s → (i : Int) < n → ∃ a, getIn n s k i = (.ok, some a)) ∧
    (k ∈ keys s → ¬ (i : Int) < n → getIn n s k i = (.thrown, none)) ∧
    (look s k = none → getIn n s k i = (.thrown, none)) := by
  refine ⟨?_, ?_, ?_⟩
  · intro hk hi
    obtain ⟨l, hl⟩ := (mem_keys n s h k).1 hk
    obtain ⟨h0, hlen⟩ := good_look n s h k l hl
    refine ⟨l[i]'(by omega), ?_⟩
    rw [getIn_ok n s h]
    exact ⟨l, hl, hi, by simp [show i < l.length by omega]⟩
  · intro hk hi
    obtain ⟨l, hl⟩ := (mem_keys n s h k).1 hk
    obtain ⟨h0, -⟩ := good_look n s h k l hl
    have ho : outOfRange n i = true := by
      by_contra hc
      exact hi ((out_iff n h0 i).1 (by simpa using hc))
    unfold getIn
    rw [hl]
    simp [ho]
  · intro hl
    unfold getIn
    rw [hl]

/-- C292 (part): in every history, reading a booked key gives a value for each hit and an exception beyond the last
hit, and reading a key that was never named to this map gives an exception. -/
theorem C292_read_partial (dM : M) (dP : P) (ops : List (Op M P)) (k : String) (i : Nat) :
    let s := run dM dP ops
    ((k ∈ keys s.mats → (i : Int) < s.nhits → ∃ a, getM s k i = (.ok, some a)) ∧
      (k ∈ keys s.mats → ¬ (i : Int) < s.nhits → getM s k i = (.thrown, none)) ∧
      (look s.mats k = none → getM s k i = (.thrown, none))) ∧
    ((k ∈ keys s.planes → (i : Int) < s.nhits → ∃ a, getP s k i = (.ok, some a)) ∧
      (k ∈ keys s.planes → ¬ (i : Int) < s.nhits → getP s k i = (.thrown, none)) ∧
      (look s.planes k = none → getP s k i = (.thrown, none))) ∧
    ((k ∈ keys s.nums → (i : Int) < s.nhits → ∃ a, getN s k i = (.ok, some a)) ∧
      (k ∈ keys s.nums → ¬ (i : Int) < s.nhits → getN s k i = (.thrown, none)) ∧
      (look s.nums k = none → getN s k i = (.thrown, none))) := by
  intro s
  have h := run_wf dM dP ops
  exact ⟨getIn_known _ _ h.mats k i, getIn_known _ _ h.planes k i, getIn_known _ _ h.nums k i⟩

/-- C292 (refuted): reading a key that is not booked does not always throw an exception: after a `setMatrix` that was
refused, `getMatrix` uses a null pointer, and after `bookNumbers` so does `getDetPlane` of that key. -/
theorem C292_refuted :
    (¬ ∀ (ops : List (Op Nat Nat)) (k : String) (i : Nat), k ∉ keys (run 0 0 ops).mats →
      (getM (run 0 0 ops) k i).1 = .thrown) ∧
    (¬ ∀ (ops : List (Op Nat Nat)) (k : String) (i : Nat), k ∉ keys (run 0 0 ops).planes →
      (getP (run 0 0 ops) k i).1 = .thrown) := by
  constructor
  · intro h
    have := h [.setNhits 3, .setM "a" 0 5] "a" 0 (by decide +kernel)
    revert this
    decide +kernel
  · intro h
    have := h [.setNhits 3, .bookN "a" 0] "a" 0 (by decide +kernel)
    revert this
    decide +kernel

example : "a" ∈ keys (run (0 : Nat) (0 : Nat) [.setNhits 3, .bookM "a"]).mats := by decide +kernel

/-! ### C293 booking -/

/-- C293: booking matrices under a key that is not booked works once the number of hits is known: every hit gets the
default, and nothing else that can be read changes; with a booked key or without the number of hits an
exception is thrown and nothing that can be read changes. -/
theorem C293_matrices (dM : M) (dP : P) (ops : List (Op M P)) (k : String) :
    let s := run dM dP ops
    let r := bookM dM s k
    (r.1 = .ok ↔ 0 ≤ s.nhits ∧ k ∉ keys s.mats) ∧ r.1 ≠ .crash ∧
    (r.1 = .ok → (∀ i : Nat, (i : Int) < s.nhits → getM r.2 k i = (.ok, some dM)) ∧
      ∀ k' i, k' ≠ k → getM r.2 k' i = getM s k' i) ∧
    (r.1 ≠ .ok → ∀ k' i a, getM r.2 k' i = (.ok, a) ↔ getM s k' i = (.ok, a)) ∧
    r.2.planes = s.planes ∧ r.2.nums = s.nums ∧ r.2.failed = s.failed ∧ r.2.nhits = s.nhits := by
  intro s r
  have hw : WF s := run_wf dM dP ops
  have hw' : WF r.2 := bookM_wf dM s k hw
  rw [mem_keys _ _ hw.mats, ← booked_iff]
  have hr : r = bookM dM s k := rfl
  unfold bookM at hr
  by_cases hn : s.nhits < 0
  · rw [if_pos hn] at hr
    rw [hr]
    refine ⟨by simp; omega, by simp, by simp, by simp, rfl, rfl, rfl, rfl⟩
  · rw [if_neg hn] at hr
    by_cases hb : booked s.mats k = true
    · rw [if_pos hb] at hr
      refine ⟨by rw [hr]; simp [hb], by rw [hr]; simp, by rw [hr]; simp, ?_, by rw [hr], by rw [hr], by rw [hr], by rw [hr]⟩
      intro _ k' i a
      unfold getM
      rw [getIn_ok _ _ hw'.mats, getIn_ok _ _ hw.mats, hr]
      dsimp only
      rw [look_touch]
      by_cases hk : k' = k
      · subst hk
        obtain ⟨l, hl⟩ := (booked_iff _ _).1 hb
        simp [hl]
      · simp [hk]
    · rw [if_neg hb] at hr
      refine ⟨by rw [hr]; simp [hb]; omega, by rw [hr]; simp, ?_, by rw [hr]; simp, by rw [hr], by rw [hr], by rw [hr], by rw [hr]⟩
      intro _
      constructor
      · intro i hi
        unfold getM
        rw [getIn_ok _ _ hw'.mats, hr]
        refine ⟨_, by dsimp only; rw [look_put, if_pos rfl], hi, ?_⟩
        rw [List.getElem?_replicate_of_lt (by omega)]
      · intro k' i hk
        rw [hr]
        unfold getM getIn
        dsimp only
        rw [look_put, if_neg hk]

/-- C293: the same for planes. -/
theorem C293_planes (dM : M) (dP : P) (ops : List (Op M P)) (k : String) :
    let s := run dM dP ops
    let r := bookP dP s k
    (r.1 = .ok ↔ 0 ≤ s.nhits ∧ k ∉ keys s.planes) ∧ r.1 ≠ .crash ∧
    (r.1 = .ok → (∀ i : Nat, (i : Int) < s.nhits → getP r.2 k i = (.ok, some dP)) ∧
      ∀ k' i, k' ≠ k → getP r.2 k' i = getP s k' i) ∧
    (r.1 ≠ .ok → ∀ k' i a, getP r.2 k' i = (.ok, a) ↔ getP s k' i = (.ok, a)) ∧
    r.2.mats = s.mats ∧ r.2.nums = s.nums ∧ r.2.failed = s.failed ∧ r.2.nhits = s.nhits := by
  intro s r
  have hw : WF s := run_wf dM dP ops
  have hw' : WF r.2 := bookP_wf dP s k hw
  rw [mem_keys _ _ hw.planes, ← booked_iff]
  have hr : r = bookP dP s k := rfl
  unfold bookP at hr
  by_cases hn : s.nhits < 0
  · rw [if_pos hn] at hr
    rw [hr]
    refine ⟨by simp; omega, by simp, by simp, by simp, rfl, rfl, rfl, rfl⟩
  · rw [if_neg hn] at hr
    by_cases hb : booked s.planes k = true
    · rw [if_pos hb] at hr
      refine ⟨by rw [hr]; simp [hb], by rw [hr]; simp, by rw [hr]; simp, ?_, by rw [hr], by rw [hr], by rw [hr], by rw [hr]⟩
      intro _ k' i a
      unfold getP
      rw [getIn_ok _ _ hw'.planes, getIn_ok _ _ hw.planes, hr]
      dsimp only
      rw [look_touch]
      by_cases hk : k' = k
      · subst hk
        obtain ⟨l, hl⟩ := (booked_iff _ _).1 hb
        simp [hl]
      · simp [hk]
    · rw [if_neg hb] at hr
      refine ⟨by rw [hr]; simp [hb]; omega, by rw [hr]; simp, ?_, by rw [hr]; simp, by rw [hr], by rw [hr], by rw [hr], by rw [hr]⟩
      intro _
      constructor
      · intro i hi
        unfold getP
        rw [getIn_ok _ _ hw'.planes, hr]
        refine ⟨_, by dsimp only; rw [look_put, if_pos rfl], hi, ?_⟩
        rw [List.getElem?_replicate_of_lt (by omega)]
      · intro k' i hk
        rw [hr]
        unfold getP getIn
        dsimp only
        rw [look_put, if_neg hk]

/-- C293 (part): booking numbers works once the number of hits is known if there are no *planes* of that key; then every
hit gets the value, and no other number, matrix or plane that can be read changes. -/
theorem C293_numbers_partial (dM : M) (dP : P) (ops : List (Op M P)) (k : String) (v : ℚ) :
    let s := run dM dP ops
    let r := bookN s k v
    (r.1 = .ok ↔ 0 ≤ s.nhits ∧ k ∉ keys s.planes) ∧ r.1 ≠ .crash ∧
    (r.1 = .ok → (∀ i : Nat, (i : Int) < s.nhits → getN r.2 k i = (.ok, some v)) ∧
      ∀ k' i, k' ≠ k → getN r.2 k' i = getN s k' i) ∧
    (r.1 ≠ .ok → r.2.nums = s.nums) ∧
    (∀ k' i a, getP r.2 k' i = (.ok, a) ↔ getP s k' i = (.ok, a)) ∧
    r.2.mats = s.mats ∧ r.2.failed = s.failed ∧ r.2.nhits = s.nhits := by
  intro s r
  have hw : WF s := run_wf dM dP ops
  have hw' : WF r.2 := bookN_wf s k v hw
  have hr : r = bookN s k v := rfl
  have hP : r.2.planes = s.planes ∨ r.2.planes = touch s.planes k := by
    rw [hr]; unfold bookN
    split
    · exact Or.inl rfl
    · dsimp only
      split <;> exact Or.inr rfl
  have hnn : r.2.nhits = s.nhits := by
    rw [hr]; unfold bookN
    split
    · rfl
    · dsimp only
      split <;> rfl
  have hplanes : ∀ k' i a, getP r.2 k' i = (.ok, a) ↔ getP s k' i = (.ok, a) := by
    intro k' i a
    unfold getP
    rw [getIn_ok _ _ hw'.planes, getIn_ok _ _ hw.planes, hnn]
    rcases hP with hP | hP
    · rw [hP]
    · rw [hP, look_touch]
      by_cases hk : k' = k
      · subst hk
        rcases look s.planes k' with _ | _ | l <;> simp
      · simp [hk]
  rw [mem_keys _ _ hw.planes, ← booked_iff]
  unfold bookN at hr
  by_cases hn : s.nhits < 0
  · rw [if_pos hn] at hr
    refine ⟨by rw [hr]; simp; omega, by rw [hr]; simp, by rw [hr]; simp, by rw [hr]; simp, hplanes, by rw [hr], by rw [hr], by rw [hr]⟩
  · rw [if_neg hn] at hr
    dsimp only at hr
    by_cases hb : booked s.planes k = true
    · rw [if_pos hb] at hr
      refine ⟨by rw [hr]; simp [hb], by rw [hr]; simp, by rw [hr]; simp, by rw [hr]; simp, hplanes, by rw [hr], by rw [hr], by rw [hr]⟩
    · rw [if_neg hb] at hr
      refine ⟨by rw [hr]; simp [hb]; omega, by rw [hr]; simp, ?_, by rw [hr]; simp, hplanes, by rw [hr], by rw [hr], by rw [hr]⟩
      intro _
      constructor
      · intro i hi
        unfold getN
        rw [getIn_ok _ _ hw'.nums, hr]
        refine ⟨_, by dsimp only; rw [look_put, if_pos rfl], hi, ?_⟩
        rw [List.getElem?_replicate_of_lt (by omega)]
      · intro k' i hk
        rw [hr]
        unfold getN getIn
        dsimp only
        rw [look_put, if_neg hk]

/-- C293 (refuted): booking the numbers of a key a second time is not refused: the numbers are lost.  Booking numbers
under a free key is refused if there are planes of that key. -/
theorem C293_refuted :
    (¬ ∀ (ops : List (Op Nat Nat)) (k : String) (v : ℚ), k ∈ keys (run 0 0 ops).nums →
      (bookN (run 0 0 ops) k v).1 = .thrown ∧
        ∀ i, getN (bookN (run 0 0 ops) k v).2 k i = getN (run 0 0 ops) k i) ∧
    (¬ ∀ (ops : List (Op Nat Nat)) (k : String) (v : ℚ), k ∉ keys (run 0 0 ops).nums → 0 ≤ (run 0 0 ops).nhits →
      (bookN (run 0 0 ops) k v).1 = .ok) := by
  constructor
  · intro h
    have := h [.setNhits 3, .bookN "a" 0, .setN "a" 1 5] "a" 0 (by decide +kernel)
    have h1 := this.2 1
    revert h1
    decide +kernel
  · intro h
    have := h [.setNhits 3, .bookP "f"] "f" 0 (by decide +kernel) (by decide +kernel)
    revert this
    decide +kernel

example : (bookM (0 : Nat) (run (0 : Nat) (0 : Nat) [.setNhits 3, .bookM "a"]) "a").1 = .thrown ∧
    (bookM (0 : Nat) (run (0 : Nat) (0 : Nat) [.setNhits 3, .bookM "a"]) "b").1 = .ok ∧
    (bookM (0 : Nat) (run (0 : Nat) (0 : Nat) []) "b").1 = .thrown := by decide +kernel

/-! ### Filling a map key by key -/

theorem each_fill {β : Type} (f : BK M P → β → Outcome × BK M P) (g : BK M P → Store α)
    (key : β → String) (val : β → List α) (I : BK M P → Prop) (L0 : List β)
    (hf : ∀ s e, I s → e ∈ L0 → booked (g s) (key e) = false →
      ∃ s', f s e = (.ok, s') ∧ I s' ∧ ∀ k a, look (g s') k = some (some a) ↔
        (k = key e ∧ a = val e) ∨ (k ≠ key e ∧ look (g s) k = some (some a))) :
    ∀ (L : List β) (s : BK M P), (∀ e ∈ L, e ∈ L0) → (L.map key).Nodup → I s →
      (∀ e ∈ L, booked (g s) (key e) = false) →
      ∃ s', each f s L = (.ok, s') ∧ I s' ∧ ∀ k a, look (g s') k = some (some a) ↔
        (∃ e ∈ L, k = key e ∧ a = val e) ∨ look (g s) k = some (some a) := by
  intro L
  induction L with
  | nil => intro s _ _ hI _; exact ⟨s, rfl, hI, by simp⟩
  | cons e L ih =>
    intro s hL hn hI hb
    rw [List.map_cons, List.nodup_cons] at hn
    obtain ⟨s1, h1, h2, h3⟩ := hf s e hI (hL e (by simp)) (hb e (by simp))
    have hne : ∀ e' ∈ L, key e' ≠ key e := fun e' he' hk => hn.1 (hk ▸ List.mem_map.2 ⟨e', he', rfl⟩)
    obtain ⟨s2, g1, g2, g3⟩ := ih s1 (fun e' he' => hL e' (by simp [he'])) hn.2 h2 (by
      intro e' he'
      rw [booked_false_iff]
      intro l hl
      rcases (h3 _ _).1 hl with ⟨hk, -⟩ | ⟨-, hl⟩
      · exact hne e' he' hk
      · exact (booked_false_iff _ _).1 (hb e' (by simp [he'])) l hl)
    refine ⟨s2, by simp only [each, h1]; exact g1, g2, ?_⟩
    intro k a
    rw [g3, h3]
    constructor
    · rintro (⟨e', he', hk⟩ | hk | ⟨-, hl⟩)
      · exact Or.inl ⟨e', by simp [he'], hk⟩
      · exact Or.inl ⟨e, by simp, hk⟩
      · exact Or.inr hl
    · rintro (⟨e', he', hk, ha⟩ | hl)
      · rcases List.mem_cons.1 he' with rfl | he'
        · exact Or.inr (Or.inl ⟨hk, ha⟩)
        · exact Or.inl ⟨e', he', hk, ha⟩
      · right; right
        refine ⟨?_, hl⟩
        intro hk
        exact (booked_false_iff _ _).1 (hb e (by simp)) a (hk ▸ hl)

theorem bookM_fill (dM : M) (s : BK M P) (k : String) (h0 : 0 ≤ s.nhits) (hb : booked s.mats k = false) :
    ∃ st, bookM dM s k = (.ok, { s with mats := st }) ∧ ∀ k' a, look st k' = some (some a) ↔
      (k' = k ∧ a = List.replicate s.nhits.toNat dM) ∨ (k' ≠ k ∧ look s.mats k' = some (some a)) := by
  refine ⟨put s.mats k (List.replicate s.nhits.toNat dM), ?_, ?_⟩
  · unfold bookM
    rw [if_neg (by omega), if_neg (by simp [hb])]
  · intro k' a
    rw [look_put]
    by_cases hk : k' = k
    · simp [hk, eq_comm]
    · simp [hk]

theorem bookP_fill (dP : P) (s : BK M P) (k : String) (h0 : 0 ≤ s.nhits) (hb : booked s.planes k = false) :
    ∃ st, bookP dP s k = (.ok, { s with planes := st }) ∧ ∀ k' a, look st k' = some (some a) ↔
      (k' = k ∧ a = List.replicate s.nhits.toNat dP) ∨ (k' ≠ k ∧ look s.planes k' = some (some a)) := by
  refine ⟨put s.planes k (List.replicate s.nhits.toNat dP), ?_, ?_⟩
  · unfold bookP
    rw [if_neg (by omega), if_neg (by simp [hb])]
  · intro k' a
    rw [look_put]
    by_cases hk : k' = k
    · simp [hk, eq_comm]
    · simp [hk]

theorem look_touch_arr (s : Store α) (k k' : String) (a : List α) :
    look (touch s k) k' = some (some a) ↔ look s k' = some (some a) := by
  rw [look_touch]
  by_cases hk : k' = k
  · subst hk
    rcases look s k' with _ | _ | l <;> simp
  · simp [hk]

theorem bookN_fill (s : BK M P) (k : String) (v : ℚ) (h0 : 0 ≤ s.nhits) (hb : booked s.planes k = false) :
    ∃ st, bookN s k v = (.ok, { s with nums := st, planes := touch s.planes k }) ∧
      ∀ k' a, look st k' = some (some a) ↔
      (k' = k ∧ a = List.replicate s.nhits.toNat v) ∨ (k' ≠ k ∧ look s.nums k' = some (some a)) := by
  refine ⟨put s.nums k (List.replicate s.nhits.toNat v), ?_, ?_⟩
  · unfold bookN
    rw [if_neg (by omega)]
    dsimp only
    rw [if_neg (by simp [hb])]
  · intro k' a
    rw [look_put]
    by_cases hk : k' = k
    · simp [hk, eq_comm]
    · simp [hk]

/-! ### C295 reset -/

/-- C295 (part): unless a key is used both for numbers and for planes, a reset works, forgets the failed hits, keeps the
number of hits and the keys, and gives every hit the default (zero for numbers, whatever they were booked
with). -/
theorem C295_reset_partial (dM : M) (dP : P) (ops : List (Op M P))
    (hd : ∀ k ∈ keys (run dM dP ops).nums, k ∉ keys (run dM dP ops).planes) :
    let s := run dM dP ops
    let r := reset dM dP s
    r.1 = .ok ∧ r.2.nhits = s.nhits ∧ r.2.failed = [] ∧
    (∀ k, k ∈ keys r.2.mats ↔ k ∈ keys s.mats) ∧ (∀ k, k ∈ keys r.2.planes ↔ k ∈ keys s.planes) ∧
    (∀ k, k ∈ keys r.2.nums ↔ k ∈ keys s.nums) ∧
    ∀ (k : String) (i : Nat), (i : Int) < s.nhits →
      (k ∈ keys s.mats → getM r.2 k i = (.ok, some dM)) ∧
      (k ∈ keys s.planes → getP r.2 k i = (.ok, some dP)) ∧
      (k ∈ keys s.nums → getN r.2 k i = (.ok, some 0)) := by
  intro s r
  have hw : WF s := run_wf dM dP ops
  have hwr : WF r.2 := reset_wf dM dP s
  by_cases h0 : 0 ≤ s.nhits
  swap
  · have e1 : keys s.mats = [] := by
      apply List.eq_nil_iff_forall_not_mem.2
      intro k hk
      obtain ⟨l, hl⟩ := (mem_keys _ _ hw.mats k).1 hk
      exact h0 (good_look _ _ hw.mats k l hl).1
    have e2 : keys s.planes = [] := by
      apply List.eq_nil_iff_forall_not_mem.2
      intro k hk
      obtain ⟨l, hl⟩ := (mem_keys _ _ hw.planes k).1 hk
      exact h0 (good_look _ _ hw.planes k l hl).1
    have e3 : keys s.nums = [] := by
      apply List.eq_nil_iff_forall_not_mem.2
      intro k hk
      obtain ⟨l, hl⟩ := (mem_keys _ _ hw.nums k).1 hk
      exact h0 (good_look _ _ hw.nums k l hl).1
    have hr : r = (.ok, clearFailed (clearAll s)) := by
      show reset dM dP s = _
      unfold reset
      rw [e1, e2, e3]
      rfl
    rw [hr, e1, e2, e3]
    refine ⟨rfl, rfl, rfl, ?_, ?_, ?_, ?_⟩ <;> simp [clearFailed, clearAll, keys]
  · have hr : r = reset dM dP s := rfl
    unfold reset at hr
    obtain ⟨s1, a1, ⟨b1, c1, d1, f1⟩, g1⟩ := each_fill (bookM dM) (fun s => s.mats) id
      (fun _ => List.replicate s.nhits.toNat dM)
      (fun t => t.nhits = s.nhits ∧ t.planes = [] ∧ t.nums = [] ∧ t.failed = []) (keys s.mats)
      (by
        rintro t e ⟨h1, h2, h3, h4⟩ - hb
        obtain ⟨st, p1, p2⟩ := bookM_fill dM t e (by rw [h1]; exact h0) hb
        rw [h1] at p2
        exact ⟨_, p1, ⟨h1, h2, h3, h4⟩, p2⟩)
      (keys s.mats) (clearFailed (clearAll s)) (fun e he => he)
      (by simpa using nodup_keys _ hw.mats.1) ⟨rfl, rfl, rfl, rfl⟩ (by intro e _; rfl)
    rw [a1] at hr
    simp only [andThen] at hr
    obtain ⟨s2, a2, ⟨b2, c2, d2, f2⟩, g2⟩ := each_fill (bookP dP) (fun s => s.planes) id
      (fun _ => List.replicate s.nhits.toNat dP)
      (fun t => t.nhits = s.nhits ∧ t.mats = s1.mats ∧ t.nums = [] ∧ t.failed = []) (keys s.planes)
      (by
        rintro t e ⟨h1, h2, h3, h4⟩ - hb
        obtain ⟨st, p1, p2⟩ := bookP_fill dP t e (by rw [h1]; exact h0) hb
        rw [h1] at p2
        exact ⟨_, p1, ⟨h1, h2, h3, h4⟩, p2⟩)
      (keys s.planes) s1 (fun e he => he)
      (by simpa using nodup_keys _ hw.planes.1) ⟨b1, rfl, d1, f1⟩ (by intro e _; rw [c1]; rfl)
    rw [a2] at hr
    simp only at hr
    obtain ⟨s3, a3, ⟨b3, c3, d3, f3⟩, g3⟩ := each_fill (fun s k => bookN s k 0) (fun s => s.nums) id
      (fun _ => List.replicate s.nhits.toNat (0 : ℚ))
      (fun t => t.nhits = s.nhits ∧ t.mats = s1.mats ∧
        (∀ k a, look t.planes k = some (some a) ↔ look s2.planes k = some (some a)) ∧ t.failed = []) (keys s.nums)
      (by
        rintro t e ⟨h1, h2, h3, h4⟩ he hb
        have hbp : booked t.planes e = false := by
          rw [booked_false_iff]
          intro l hl
          rw [h3] at hl
          rcases (g2 _ _).1 hl with ⟨e', he', hk, -⟩ | hl
          · exact hd e he (hk ▸ he')
          · rw [c1] at hl; simp [look] at hl
        obtain ⟨st, p1, p2⟩ := bookN_fill t e 0 (by rw [h1]; exact h0) hbp
        rw [h1] at p2
        refine ⟨_, p1, ⟨h1, h2, ?_, h4⟩, p2⟩
        intro k a
        rw [← h3]
        exact look_touch_arr _ _ _ _)
      (keys s.nums) s2 (fun e he => he)
      (by simpa using nodup_keys _ hw.nums.1) ⟨b2, c2, fun _ _ => Iff.rfl, f2⟩ (by intro e _; rw [d2]; rfl)
    rw [a3] at hr
    have hM : ∀ k a, look r.2.mats k = some (some a) ↔ k ∈ keys s.mats ∧ a = List.replicate s.nhits.toNat dM := by
      intro k a
      rw [hr]
      simp only
      rw [c3, g1]
      simp [clearFailed, clearAll, look]
    have hP : ∀ k a, look r.2.planes k = some (some a) ↔ k ∈ keys s.planes ∧ a = List.replicate s.nhits.toNat dP := by
      intro k a
      rw [hr]
      simp only
      rw [d3, g2, c1]
      simp [look]
    have hN : ∀ k a, look r.2.nums k = some (some a) ↔ k ∈ keys s.nums ∧ a = List.replicate s.nhits.toNat 0 := by
      intro k a
      rw [hr]
      simp only
      rw [g3, d2]
      simp [look]
    have hnh : r.2.nhits = s.nhits := by rw [hr]; exact b3
    refine ⟨by rw [hr], hnh, by rw [hr]; exact f3, ?_, ?_, ?_, ?_⟩
    · intro k
      rw [mem_keys _ _ hwr.mats]
      simp only [hM]
      simp
    · intro k
      rw [mem_keys _ _ hwr.planes]
      simp only [hP]
      simp
    · intro k
      rw [mem_keys _ _ hwr.nums]
      simp only [hN]
      simp
    · intro k i hi
      refine ⟨?_, ?_, ?_⟩
      · intro hk
        unfold getM
        rw [getIn_ok _ _ hwr.mats]
        exact ⟨_, (hM k _).2 ⟨hk, rfl⟩, by rw [hnh]; exact hi, by rw [List.getElem?_replicate_of_lt (by omega)]⟩
      · intro hk
        unfold getP
        rw [getIn_ok _ _ hwr.planes]
        exact ⟨_, (hP k _).2 ⟨hk, rfl⟩, by rw [hnh]; exact hi, by rw [List.getElem?_replicate_of_lt (by omega)]⟩
      · intro hk
        unfold getN
        rw [getIn_ok _ _ hwr.nums]
        exact ⟨_, (hN k _).2 ⟨hk, rfl⟩, by rw [hnh]; exact hi, by rw [List.getElem?_replicate_of_lt (by omega)]⟩

/-- C295 (refuted): when a key was booked for numbers and then for planes (which is allowed), a reset throws an exception
and loses the numbers. -/
theorem C295_refuted : ¬ ∀ (ops : List (Op Nat Nat)),
    (reset 0 0 (run 0 0 ops)).1 = .ok ∧
      ∀ k, k ∈ keys (run 0 0 ops).nums → k ∈ keys (reset 0 0 (run 0 0 ops)).2.nums := by
  intro h
  have := (h [.setNhits 2, .bookN "f" 0, .bookP "f"]).1
  revert this
  decide +kernel

example : (reset (0 : Nat) (0 : Nat) (run 0 0 [.setNhits 2, .bookM "m", .bookP "f", .bookN "c" 3, .addFailed 1])).1 = .ok := by
  decide +kernel

/-! ### C296 failed hits -/

/-- the hits that the calls report as failed -/
def added : List (Op M P) → List Nat
  | [] => []
  | .addFailed h :: t => h :: added t
  | _ :: t => added t

/-- the calls that forget the failed hits -/
def forgets : Op M P → Bool
  | .clearFailed => true
  | .reset => true
  | .setNhits _ => true
  | _ => false

theorem each_failed {β : Type} (f : BK M P → β → Outcome × BK M P) (hf : ∀ s b, (f s b).2.failed = s.failed) :
    ∀ (l : List β) (s : BK M P), (each f s l).2.failed = s.failed := by
  intro l
  induction l with
  | nil => intro s; rfl
  | cons b l ih =>
    intro s
    have h := hf s b
    unfold each
    rcases hr : f s b with ⟨o, s'⟩
    rw [hr] at h
    cases o <;> simp only
    · rw [ih]; exact h
    · exact h
    · exact h

theorem bookM_failed (dM : M) (s : BK M P) (k : String) : (bookM dM s k).2.failed = s.failed := by
  unfold bookM; split_ifs <;> rfl

theorem bookP_failed (dP : P) (s : BK M P) (k : String) : (bookP dP s k).2.failed = s.failed := by
  unfold bookP; split_ifs <;> rfl

theorem bookN_failed (s : BK M P) (k : String) (v : ℚ) : (bookN s k v).2.failed = s.failed := by
  unfold bookN; dsimp only; split_ifs <;> rfl

theorem andThen_failed (r : Outcome × BK M P) (f : BK M P → Outcome × BK M P) (l : List Nat)
    (h : r.2.failed = l) (hf : ∀ s, s.failed = l → (f s).2.failed = l) : (andThen r f).2.failed = l := by
  unfold andThen
  split
  · exact hf _ h
  · exact h

theorem reset_failed (dM : M) (dP : P) (s : BK M P) : (reset dM dP s).2.failed = [] := by
  unfold reset
  apply andThen_failed
  · rw [each_failed _ (bookM_failed dM)]; rfl
  · intro s1 h1
    apply andThen_failed
    · rw [each_failed _ (bookP_failed dP)]; exact h1
    · intro s2 h2
      rw [each_failed _ (fun s k => bookN_failed s k 0)]; exact h2

theorem step_failed (dM : M) (dP : P) (s : BK M P) (op : Op M P) :
    (step dM dP s op).failed = if forgets op then [] else s.failed ++ added [op] := by
  cases op <;> simp [step, forgets, added, setM, setP, setN, addFailed, clearFailed, clearAll, reset_failed,
    bookM_failed, bookP_failed, bookN_failed, setNhits]

/-- C296: in every history, a hit counts as failed as often as it was reported since the failed hits were last cleared,
the object reset or the number of hits set (or since the beginning), and the number of failed hits is the number of
those reports; no other call has an influence. -/
theorem C296_failed (dM : M) (dP : P) (before since : List (Op M P)) (h : Nat)
    (hb : before = [] ∨ ∃ t op, before = t ++ [op] ∧ forgets op = true) (hs : ∀ op ∈ since, forgets op = false) :
    hitFailed (run dM dP (before ++ since)) h = (added since).count h ∧
    numFailed (run dM dP (before ++ since)) = (added since).length := by
  have h0 : (run dM dP before).failed = [] := by
    rcases hb with rfl | ⟨t, op, rfl, hop⟩
    · rfl
    · unfold run
      rw [List.foldl_append, List.foldl_cons, List.foldl_nil, step_failed, if_pos hop]
  have hadd : ∀ (op : Op M P) (l : List (Op M P)), added (op :: l) = added [op] ++ added l := by
    intro op l
    cases op <;> simp [added]
  have key : ∀ (l : List (Op M P)) (s : BK M P), (∀ op ∈ l, forgets op = false) →
      (l.foldl (step dM dP) s).failed = s.failed ++ added l := by
    intro l
    induction l with
    | nil => intro s _; simp [added]
    | cons op l ih =>
      intro s hl
      rw [List.foldl_cons, ih _ (fun o ho => hl o (by simp [ho])), step_failed,
        if_neg (by rw [hl op (by simp)]; simp), hadd op l, List.append_assoc]
  have hf : (run dM dP (before ++ since)).failed = added since := by
    have := key since (run dM dP before) hs
    rw [h0, List.nil_append] at this
    rw [← this]
    unfold run
    rw [List.foldl_append]
  have hc : ∀ (l : List Nat) (r : Nat), l.foldl (fun r x => if x = h then r + 1 else r) r = r + l.count h := by
    intro l
    induction l with
    | nil => intro r; simp
    | cons a l ih =>
      intro r
      rw [List.foldl_cons, ih, List.count_cons]
      by_cases ha : a = h
      · simp [ha]; omega
      · simp [ha]
  unfold hitFailed numFailed
  rw [hf, hc]
  simp

example : hitFailed (run (0 : Nat) (0 : Nat) [.setNhits 9, .addFailed 4, .reset, .addFailed 4, .bookM "m", .addFailed 7,
    .addFailed 4]) 4 = 2 := by decide +kernel

/-! ### C294 writing and reading back -/

/-- writing `xs` from position `j` on into an array -/
theorem setFrom_fill (g : BK M P → Store α) (w : BK M P → Store α → BK M P)
    (f : BK M P → Nat → α → Outcome × BK M P) (k : String)
    (hg : ∀ t a, g (w t a) = a) (hn : ∀ t a, (w t a).nhits = t.nhits) (hww : ∀ t a b, w (w t a) b = w t b)
    (hw : ∀ t, w t (g t) = t)
    (hf : ∀ t i x, f t i x = ((setIn t.nhits (g t) k i x).1, w t (setIn t.nhits (g t) k i x).2)) :
    ∀ (xs : List α) (s : BK M P) (j : Nat) (l0 : List α), 0 ≤ s.nhits →
      look (g s) k = some (some l0) → l0.length = s.nhits.toNat → j + xs.length = s.nhits.toNat →
      ∃ st, setFrom f s j xs = (.ok, w s st) ∧
        ∀ k' a, look st k' = some (some a) ↔
          (k' = k ∧ a = l0.take j ++ xs) ∨ (k' ≠ k ∧ look (g s) k' = some (some a)) := by
  intro xs
  induction xs with
  | nil =>
    intro s j l0 h0 hl hlen hj
    refine ⟨g s, by simp only [setFrom]; rw [hw], ?_⟩
    intro k' a
    have : l0.take j = l0 := List.take_of_length_le (by simp at hj; omega)
    rw [this, List.append_nil]
    by_cases hk : k' = k
    · subst hk
      rw [hl]
      simp [eq_comm]
    · simp [hk]
  | cons x xs ih =>
    intro s j l0 h0 hl hlen hj
    simp only [List.length_cons] at hj
    have ho : outOfRange s.nhits j = false := (out_iff _ h0 j).2 (by omega)
    have hs : setIn s.nhits (g s) k j x = (.ok, put (g s) k (l0.set j x)) := by
      unfold setIn
      rw [hl]
      simp [ho]
    obtain ⟨st, a1, a2⟩ := ih (w s (put (g s) k (l0.set j x))) (j + 1) (l0.set j x)
      (by rw [hn]; exact h0) (by rw [hg, look_put, if_pos rfl]) (by rw [hn]; simpa using hlen) (by rw [hn]; omega)
    refine ⟨st, ?_, ?_⟩
    · simp only [setFrom]
      rw [hf, hs]
      simp only [andThen]
      rw [a1, hww]
    · intro k' a
      rw [a2, hg]
      have ht : (l0.set j x).take (j + 1) ++ xs = l0.take j ++ x :: xs := by
        rw [List.take_add_one, List.take_set, List.getElem?_set_self (by omega)]
        rw [List.set_eq_of_length_le (by simp)]
        simp
      rw [ht]
      by_cases hk : k' = k
      · simp [hk]
      · rw [look_put]
        simp [hk]

/-- C294 (part): unless a key is used both for numbers and for planes, what is written and read back into any object
works and has the same number of hits, keys, failed hits, and the same values for all keys and hits. -/
theorem C294_roundtrip_partial (dM : M) (dP : P) (ops : List (Op M P)) (t : BK M P)
    (hd : ∀ k ∈ keys (run dM dP ops).nums, k ∉ keys (run dM dP ops).planes) :
    let s := run dM dP ops
    let r := read dM dP t (write s)
    r.1 = .ok ∧ r.2.nhits = s.nhits ∧ r.2.failed = s.failed ∧
    (∀ k a, look r.2.mats k = some (some a) ↔ look s.mats k = some (some a)) ∧
    (∀ k a, look r.2.planes k = some (some a) ↔ look s.planes k = some (some a)) ∧
    (∀ k a, look r.2.nums k = some (some a) ↔ look s.nums k = some (some a)) := by
  intro s r
  have hw : WF s := run_wf dM dP ops
  have hr : r = read dM dP t (write s) := rfl
  unfold read write at hr
  obtain ⟨s1, a1, ⟨b1, c1, d1⟩, g1⟩ := each_fill
    (fun s e => andThen (bookM dM s e.1) fun s => setFrom (fun s => setM s e.1) s 0 e.2) (fun s => s.mats)
    Prod.fst Prod.snd (fun t => t.nhits = s.nhits ∧ t.planes = [] ∧ t.nums = []) (dump s.mats)
    (by
      rintro t ⟨k, l⟩ ⟨h1, h2, h3⟩ he hb
      obtain ⟨h0, hlen⟩ := good_look _ _ hw.mats k l ((mem_dump _ _ hw.mats k l).1 he)
      obtain ⟨st, p1, p2⟩ := bookM_fill dM t k (by rw [h1]; exact h0) hb
      obtain ⟨st', q1, q2⟩ := setFrom_fill (fun s => s.mats) (fun s a => { s with mats := a })
        (fun s => setM s k) k (fun _ _ => rfl) (fun _ _ => rfl) (fun _ _ _ => rfl) (fun _ => rfl) (fun _ _ _ => rfl)
        l { t with mats := st } 0 (List.replicate t.nhits.toNat dM) (by rw [h1]; exact h0)
        ((p2 k _).2 (Or.inl ⟨rfl, rfl⟩)) (by simp) (by simp [h1, hlen])
      refine ⟨{ t with mats := st' }, by dsimp only; rw [p1]; exact q1, ⟨h1, h2, h3⟩, ?_⟩
      intro k' a
      dsimp only
      rw [q2]
      simp only [List.take_zero, List.nil_append]
      by_cases hk : k' = k
      · simp [hk]
      · simp only [hk, ne_eq, not_false_eq_true, true_and, false_and, false_or]
        rw [p2]
        simp [hk])
    (dump s.mats) { clearAll t with nhits := s.nhits } (fun e he => he) (nodup_dump _ hw.mats.1)
    ⟨rfl, rfl, rfl⟩ (by intro e _; rfl)
  dsimp only at hr a1
  rw [a1] at hr
  simp only [andThen] at hr
  obtain ⟨s2, a2, ⟨b2, c2, d2⟩, g2⟩ := each_fill
    (fun s e => andThen (bookP dP s e.1) fun s => setFrom (fun s => setP s e.1) s 0 e.2) (fun s => s.planes)
    Prod.fst Prod.snd (fun t => t.nhits = s.nhits ∧ t.mats = s1.mats ∧ t.nums = []) (dump s.planes)
    (by
      rintro t ⟨k, l⟩ ⟨h1, h2, h3⟩ he hb
      obtain ⟨h0, hlen⟩ := good_look _ _ hw.planes k l ((mem_dump _ _ hw.planes k l).1 he)
      obtain ⟨st, p1, p2⟩ := bookP_fill dP t k (by rw [h1]; exact h0) hb
      obtain ⟨st', q1, q2⟩ := setFrom_fill (fun s => s.planes) (fun s a => { s with planes := a })
        (fun s => setP s k) k (fun _ _ => rfl) (fun _ _ => rfl) (fun _ _ _ => rfl) (fun _ => rfl) (fun _ _ _ => rfl)
        l { t with planes := st } 0 (List.replicate t.nhits.toNat dP) (by rw [h1]; exact h0)
        ((p2 k _).2 (Or.inl ⟨rfl, rfl⟩)) (by simp) (by simp [h1, hlen])
      refine ⟨{ t with planes := st' }, by dsimp only; rw [p1]; exact q1, ⟨h1, h2, h3⟩, ?_⟩
      intro k' a
      dsimp only
      rw [q2]
      simp only [List.take_zero, List.nil_append]
      by_cases hk : k' = k
      · simp [hk]
      · simp only [hk, ne_eq, not_false_eq_true, true_and, false_and, false_or]
        rw [p2]
        simp [hk])
    (dump s.planes) s1 (fun e he => he) (nodup_dump _ hw.planes.1)
    ⟨b1, rfl, d1⟩ (by intro e _; rw [c1]; rfl)
  simp only [andThen] at a2
  rw [a2] at hr
  simp only at hr
  obtain ⟨s3, a3, ⟨b3, c3, d3⟩, g3⟩ := each_fill
    (fun s e => andThen (bookN s e.1 0) fun s => setFrom (fun s => setN s e.1) s 0 e.2) (fun s => s.nums)
    Prod.fst Prod.snd (fun t => t.nhits = s.nhits ∧ t.mats = s1.mats ∧
      (∀ k a, look t.planes k = some (some a) ↔ look s2.planes k = some (some a))) (dump s.nums)
    (by
      rintro t ⟨k, l⟩ ⟨h1, h2, h3⟩ he hb
      have hlk := (mem_dump _ _ hw.nums k l).1 he
      obtain ⟨h0, hlen⟩ := good_look _ _ hw.nums k l hlk
      have hbp : booked t.planes k = false := by
        rw [booked_false_iff]
        intro l' hl'
        rw [h3] at hl'
        rcases (g2 _ _).1 hl' with ⟨e', he', hk, ha⟩ | hl'
        · apply hd k ((mem_keys _ _ hw.nums k).2 ⟨l, hlk⟩)
          rw [mem_keys _ _ hw.planes]
          exact ⟨e'.2, (mem_dump _ _ hw.planes k e'.2).1 (by rw [hk]; exact he')⟩
        · rw [c1] at hl'; simp [look] at hl'
      obtain ⟨st, p1, p2⟩ := bookN_fill t k 0 (by rw [h1]; exact h0) hbp
      obtain ⟨st', q1, q2⟩ := setFrom_fill (fun s => s.nums) (fun s a => { s with nums := a })
        (fun s => setN s k) k (fun _ _ => rfl) (fun _ _ => rfl) (fun _ _ _ => rfl) (fun _ => rfl) (fun _ _ _ => rfl)
        l { t with nums := st, planes := touch t.planes k } 0 (List.replicate t.nhits.toNat 0) (by rw [h1]; exact h0)
        ((p2 k _).2 (Or.inl ⟨rfl, rfl⟩)) (by simp) (by simp [h1, hlen])
      refine ⟨{ t with nums := st', planes := touch t.planes k }, by dsimp only; rw [p1]; exact q1, ⟨h1, h2, ?_⟩, ?_⟩
      · intro k' a
        rw [← h3]
        exact look_touch_arr _ _ _ _
      intro k' a
      dsimp only
      rw [q2]
      simp only [List.take_zero, List.nil_append]
      by_cases hk : k' = k
      · simp [hk]
      · simp only [hk, ne_eq, not_false_eq_true, true_and, false_and, false_or]
        rw [p2]
        simp [hk])
    (dump s.nums) s2 (fun e he => he) (nodup_dump _ hw.nums.1)
    ⟨b2, c2, fun _ _ => Iff.rfl⟩ (by intro e _; rw [d2]; rfl)
  simp only [andThen] at a3
  rw [a3] at hr
  simp only at hr
  have hdump : ∀ {β : Type} (st : Store β), Good s.nhits st → ∀ (k : String) (a : List β),
      (∃ e ∈ dump st, k = e.1 ∧ a = e.2) ↔ look st k = some (some a) := by
    intro β st hst k a
    rw [← mem_dump _ _ hst]
    constructor
    · rintro ⟨e, he, rfl, rfl⟩; exact he
    · intro h; exact ⟨_, h, rfl, rfl⟩
  rw [hr]
  refine ⟨rfl, b3, rfl, ?_, ?_, ?_⟩
  · intro k a
    dsimp only
    rw [c3, g1, hdump _ hw.mats]
    simp [clearAll, look]
  · intro k a
    dsimp only
    rw [d3, g2, hdump _ hw.planes, c1]
    simp [look]
  · intro k a
    dsimp only
    rw [g3, hdump _ hw.nums, d2]
    simp [look]

/-- C294 (refuted): an object in which a key is used for numbers and for planes is written, but reading it back throws an
exception. -/
theorem C294_refuted : ¬ ∀ (ops : List (Op Nat Nat)),
    (read 0 0 (new Nat Nat) (write (run 0 0 ops))).1 = .ok := by
  intro h
  have := h [.setNhits 2, .bookN "f" 0, .bookP "f"]
  revert this
  decide +kernel

example : getM (read (0 : Nat) (0 : Nat) (new Nat Nat)
    (write (run 0 0 [.setNhits 2, .bookM "m", .setM "m" 1 9, .bookP "f", .bookN "c" 3]))).2 "m" 1 = (.ok, some 9) := by
  decide +kernel

/-! ### C297 copies -/

theorem copyStore_spec (n : Int) (d : α) (s : Store α) (h : Good n s)
    (hs : ∀ k, look s k ≠ some none) : copyStore n d s = (.ok, s) := by
  have hneg : ¬ (n < 0 ∧ s ≠ []) := by
    rintro ⟨hn, hs'⟩
    obtain ⟨⟨k, v⟩, t, rfl⟩ := List.exists_cons_of_ne_nil hs'
    cases v with
    | none => exact hs k (by simp [look])
    | some l => exact absurd (h.2 k l (by simp)).1 (by omega)
  have hany : ∀ e ∈ s, ∃ l, e.2 = some l := by
    rintro ⟨k, v⟩ he
    cases v with
    | none => exact absurd (mem_look s h.1 _ _ he) (hs k)
    | some l => exact ⟨l, rfl⟩
  unfold copyStore
  rw [if_neg hneg, if_neg (by
    rintro ⟨-, ha⟩
    obtain ⟨e, he, hn⟩ := List.any_eq_true.1 ha
    obtain ⟨l, hl⟩ := hany e he
    rw [hl] at hn
    simp at hn)]
  have : s.map (fun e => (e.1, some ((List.range n.toNat).map fun i => ((e.2.getD [])[i]?).getD d))) = s := by
    conv_rhs => rw [← List.map_id s]
    apply List.map_congr_left
    rintro ⟨k, v⟩ he
    obtain ⟨l, hl⟩ := hany _ he
    simp only at hl
    subst hl
    have hlen := (h.2 k l he).2
    simp only [Option.getD_some, id_eq, Prod.mk.injEq, Option.some.injEq, true_and]
    apply List.ext_getElem?
    intro i
    rw [List.getElem?_map]
    by_cases hi : i < n.toNat
    · rw [List.getElem?_range hi]
      simp [List.getElem?_eq_getElem (hlen ▸ hi : i < l.length)]
    · rw [List.getElem?_eq_none (by simpa using hi), List.getElem?_eq_none (by omega)]
      rfl
  rw [this]

/-- C297 (part): when no key has a null pointer (none was asked for without being booked, and no numbers were booked
under a key without planes), copying an object works, and the copy has the same number of hits, failed hits, keys and
values. -/
theorem C297_copy_partial (dM : M) (dP : P) (ops : List (Op M P))
    (hm : ∀ k, look (run dM dP ops).mats k ≠ some none)
    (hp : ∀ k, look (run dM dP ops).planes k ≠ some none)
    (hq : ∀ k, look (run dM dP ops).nums k ≠ some none) :
    copy dM dP (run dM dP ops) = (.ok, run dM dP ops) := by
  have hw : WF (run dM dP ops) := run_wf dM dP ops
  unfold copy
  rw [copyStore_spec _ _ _ hw.mats hm, copyStore_spec _ _ _ hw.planes hp, copyStore_spec _ _ _ hw.nums hq]
  rfl

/-- C297 (refuted): after the calls that `GFDaf::processTrack` makes for two hits (`GFDaf.cxx:60-74`: it books numbers
under a key that has no planes), copying the object, which is done by copying the track (`GFTrack.cxx:69`, `105`),
reads a null pointer. -/
theorem C297_refuted : ¬ ∀ (ops : List (Op Nat Nat)), (copy 0 0 (run 0 0 ops)).1 = .ok := by
  intro h
  have := h [.setNhits 2, .bookM "fPredSt", .bookM "fPredCov", .bookM "bPredSt", .bookM "bPredCov", .bookM "H",
    .bookM "m", .bookM "V", .bookP "pl", .bookM "smooResid", .bookN "p" 1]
  revert this
  decide +kernel

example : (copy (0 : Nat) (0 : Nat) (run 0 0 [.setNhits 2, .bookM "m", .setM "m" 1 9, .bookP "f"])).1 = .ok ∧
    getM (copy (0 : Nat) (0 : Nat) (run 0 0 [.setNhits 2, .bookM "m", .setM "m" 1 9, .bookP "f"])).2 "m" 1 =
      (.ok, some 9) := by
  decide +kernel

end Verif.Book

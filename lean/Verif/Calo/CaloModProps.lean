import Verif.Calo.GnocchiProps

/-! Properties of the calorimetry modules: residual ranges, objects, directions, dead wires, space points. -/

namespace Verif.Gnocchi

/-! ### C253 residual ranges -/

/-- the steps between consecutive points -/
def steps {P : Type} (d : P → P → ℚ) (pts : List P) : List ℚ := pts.zipWith (fun a b => d b a) pts.tail

theorem lengthsOf_eq {P : Type} (d : P → P → ℚ) (pts : List P) (h : pts ≠ []) : lengthsOf d pts = 0 :: steps d pts := by
  match pts, h with
  | p :: t, _ => rfl

theorem steps_length {P : Type} (d : P → P → ℚ) (pts : List P) : (steps d pts).length = pts.length - 1 := by
  simp [steps]

theorem resDown_get : ∀ (l : List ℚ) (a : ℚ) (i : Nat), i < (a :: l).length →
    (resDown (a :: l))[i]? = some ((a :: l).getLast (by simp) / 2 + ((a :: l).drop (i + 1)).sum)
  | [], a, i, h => by
    have : i = 0 := by simpa using h
    subst this
    simp [resDown]
  | b :: t, a, i, h => by
    rw [resDown]
    have el : (a :: b :: t).getLast (by simp) = (b :: t).getLast (by simp) := List.getLast_cons (by simp)
    rw [el]
    match i with
    | 0 =>
      have h0 := resDown_get t b 0 (by simp)
      have hh : (resDown (b :: t)).headD 0 = (b :: t).getLast (by simp) / 2 + t.sum := by
        rw [List.headD_eq_head?_getD, List.head?_eq_getElem?, h0]
        simp
      rw [List.getElem?_cons_zero, hh]
      simp only [Nat.zero_add, List.drop_succ_cons, List.drop_zero, List.sum_cons]
      congr 1
      ring
    | i + 1 =>
      rw [List.getElem?_cons_succ, resDown_get t b i (by simpa using h)]
      simp

theorem scanSum_get : ∀ (l : List ℚ) (r : ℚ) (i : Nat), i < l.length →
    (scanSum r l)[i]? = some (r + (l.take (i + 1)).sum)
  | [], r, i, h => by simp at h
  | a :: t, r, 0, _ => by simp [scanSum]
  | a :: t, r, i + 1, h => by
    rw [scanSum, List.getElem?_cons_succ, scanSum_get t (r + a) i (by simpa using h)]
    simp only [List.take_succ_cons, List.sum_cons]
    congr 1
    ring

theorem scanSum_length : ∀ (l : List ℚ) (r : ℚ), (scanSum r l).length = l.length
  | [], _ => rfl
  | a :: t, r => by simp [scanSum, scanSum_length t]

theorem resDown_length : ∀ l : List ℚ, (resDown l).length = l.length
  | [] => rfl
  | [_] => rfl
  | _ :: b :: t => by
    rw [resDown, List.length_cons, resDown_length (b :: t)]
    rfl

theorem resUp_get (a b : ℚ) (t : List ℚ) (i : Nat) (h : i < (a :: b :: t).length) :
    (resUp (a :: b :: t))[i]? = some (b / 2 + ((b :: t).take i).sum) := by
  unfold resUp
  match i with
  | 0 => simp
  | i + 1 => rw [List.getElem?_cons_succ, scanSum_get _ _ _ (by simpa using h)]

/-- residual ranges from the last point, by steps -/
def fromLast (g : List ℚ) : List ℚ := (List.range (g.length + 1)).map fun i => g.getLastD 0 / 2 + (g.drop i).sum

/-- residual ranges from the first point, by steps -/
def fromFirst (g : List ℚ) : List ℚ := (List.range (g.length + 1)).map fun i => g.headD 0 / 2 + (g.take i).sum

theorem resDown_eq (g : List ℚ) (hg : g ≠ []) : resDown (0 :: g) = fromLast g := by
  apply List.ext_getElem?
  intro i
  by_cases h : i < g.length + 1
  · rw [resDown_get g 0 i (by simpa using h)]
    unfold fromLast
    rw [List.getElem?_map, List.getElem?_range h, Option.map_some, List.getLast_cons hg]
    congr 2
    rw [List.getLastD_eq_getLast?, List.getLast?_eq_some_getLast hg]
    rfl
  · rw [List.getElem?_eq_none (by rw [resDown_length]; simpa using h), List.getElem?_eq_none (by simpa [fromLast] using h)]

theorem resUp_eq (g : List ℚ) (hg : g ≠ []) : resUp (0 :: g) = fromFirst g := by
  match g, hg with
  | b :: t, _ =>
    apply List.ext_getElem?
    intro i
    by_cases h : i < (b :: t).length + 1
    · rw [resUp_get 0 b t i (by simpa using h)]
      unfold fromFirst
      rw [List.getElem?_map, List.getElem?_range h, Option.map_some]
      rfl
    · rw [List.getElem?_eq_none (by unfold resUp; simp [scanSum_length]; simpa using h),
        List.getElem?_eq_none (by simpa [fromFirst] using h)]

theorem resRange_eq {P : Type} (d : P → P → ℚ) (s e : P) (pts : List P) (h : 2 ≤ pts.length) :
    resRange d s e pts = if isDown d s e (pts.head (by rintro rfl; simp at h)) (pts.getLast (by rintro rfl; simp at h))
      then fromLast (steps d pts) else fromFirst (steps d pts) := by
  match pts, h with
  | p :: q :: t, h =>
    have hg : steps d (p :: q :: t) ≠ [] := by simp [steps]
    rw [← resDown_eq _ hg, ← resUp_eq _ hg, ← lengthsOf_eq d _ (by simp)]
    unfold resRange
    dsimp only
    rw [show (q :: t).getLastD q = (p :: q :: t).getLast (by simp) by
      rw [List.getLast_cons (by simp), List.getLastD_eq_getLast?, List.getLast?_eq_some_getLast (by simp)]; rfl]
    rfl

/-- C253: a plane with at least two hits has a residual range for each of them: half of the step at the end of the track
plus the path from the hit to that end, which is the end on the side of the last hit if the hits go downstream. -/
theorem C253_residual {P : Type} (d : P → P → ℚ) (s e p q : P) (pts : List P) (h : 2 ≤ pts.length)
    (hp : pts.head? = some p) (hq : pts.getLast? = some q) :
    (resRange d s e pts).length = pts.length ∧
    (d s p + d e q < d e p + d s q → ∀ i, i < pts.length →
      (resRange d s e pts)[i]? = some ((steps d pts).getLastD 0 / 2 + ((steps d pts).drop i).sum)) ∧
    (¬ d s p + d e q < d e p + d s q → ∀ i, i < pts.length →
      (resRange d s e pts)[i]? = some ((steps d pts).headD 0 / 2 + ((steps d pts).take i).sum)) := by
  have hne : pts ≠ [] := by rintro rfl; simp at h
  rw [List.head?_eq_some_head hne] at hp
  rw [List.getLast?_eq_some_getLast hne] at hq
  cases hp
  cases hq
  have hl := steps_length d pts
  rw [resRange_eq d s e pts h]
  refine ⟨?_, ?_, ?_⟩
  · split
    · simp [fromLast, hl]; omega
    · simp [fromFirst, hl]; omega
  · intro hlt i hi
    rw [if_pos (by simpa [isDown] using hlt)]
    unfold fromLast
    rw [List.getElem?_map, List.getElem?_range (by omega)]
    rfl
  · intro hlt i hi
    rw [if_neg (by simpa [isDown] using hlt)]
    unfold fromFirst
    rw [List.getElem?_map, List.getElem?_range (by omega)]
    rfl

theorem steps_reverse {P : Type} (d : P → P → ℚ) (hd : ∀ a b, d a b = d b a) (pts : List P) :
    steps d pts.reverse = (steps d pts).reverse := by
  apply List.ext_getElem
  · simp [steps]
  · intro i h1 h2
    rw [steps_length, List.length_reverse] at h1
    simp only [steps, List.getElem_zipWith, List.getElem_reverse, List.getElem_tail, List.length_zipWith,
      List.length_tail]
    rw [hd]
    congr 2 <;> omega

theorem fromFirst_reverse (g : List ℚ) : fromFirst g.reverse = (fromLast g).reverse := by
  apply List.ext_getElem
  · simp [fromFirst, fromLast]
  · intro i h1 h2
    simp only [fromFirst, List.length_map, List.length_range, List.length_reverse] at h1
    simp only [fromFirst, fromLast, List.getElem_map, List.getElem_range, List.getElem_reverse, List.length_map,
      List.length_range, List.take_reverse, List.sum_reverse]
    congr 1
    · congr 1
      rw [List.headD_eq_head?_getD, List.head?_reverse, List.getLastD_eq_getLast?]

theorem fromLast_reverse (g : List ℚ) : fromLast g.reverse = (fromFirst g).reverse := by
  have := fromFirst_reverse g.reverse
  rw [List.reverse_reverse] at this
  rw [this, List.reverse_reverse]

/-- C253 (part): the residual range of a hit does not depend on the order in which the hits are given: for the hits in the
opposite order the residual ranges are those in the opposite order, if the two ways to match the ends differ in length. -/
theorem C253_reverse_partial {P : Type} (d : P → P → ℚ) (hd : ∀ a b, d a b = d b a) (s e p q : P) (pts : List P)
    (h : 2 ≤ pts.length) (hp : pts.head? = some p) (hq : pts.getLast? = some q)
    (hne : d s p + d e q ≠ d e p + d s q) :
    resRange d s e pts.reverse = (resRange d s e pts).reverse := by
  have hnil : pts ≠ [] := by rintro rfl; simp at h
  rw [List.head?_eq_some_head hnil] at hp
  rw [List.getLast?_eq_some_getLast hnil] at hq
  cases hp
  cases hq
  rw [resRange_eq d s e pts h, resRange_eq d s e pts.reverse (by simpa using h), steps_reverse d hd, List.head_reverse,
    List.getLast_reverse]
  unfold isDown
  simp only [decide_eq_true_eq]
  rcases lt_or_gt_of_ne hne with hlt | hlt
  · rw [if_neg (by linarith), if_pos hlt, fromFirst_reverse]
  · rw [if_pos (by linarith), if_neg (by linarith), fromLast_reverse]

/-- C253 (refuted): if both ways to match the ends have the same length, the residual ranges are always measured to the
first hit. -/
theorem C253_refuted : ¬ ∀ (d : Int → Int → ℚ) (s e : Int) (pts : List Int), (∀ a b, d a b = d b a) →
    resRange d s e pts.reverse = (resRange d s e pts).reverse := by
  intro h
  have := h (fun a b => ((max a b - min a b : Int) : ℚ)) 0 0 [1, 5, 7] (by intro a b; rw [max_comm, min_comm])
  revert this
  decide +kernel

/-- C253 (part): for distances that are not negative, no residual range is negative and they only fall (or only grow) along
the hits. -/
theorem C253_monotone {P : Type} (d : P → P → ℚ) (hd : ∀ a b, 0 ≤ d a b) (s e : P) (pts : List P) (h : 2 ≤ pts.length) :
    (∀ r ∈ resRange d s e pts, 0 ≤ r) ∧
    ((resRange d s e pts).Pairwise (fun a b => b ≤ a) ∨ (resRange d s e pts).Pairwise (fun a b => a ≤ b)) := by
  have hg : ∀ x ∈ steps d pts, 0 ≤ x := by
    intro x hx
    obtain ⟨i, hi⟩ := List.getElem?_of_mem hx
    unfold steps at hi
    rw [List.getElem?_zipWith_eq_some] at hi
    obtain ⟨a, b, _, _, rfl⟩ := hi
    exact hd b a
  have hlast : 0 ≤ (steps d pts).getLastD 0 := by
    rw [List.getLastD_eq_getLast?]
    cases hc : (steps d pts).getLast? with
    | none => simp
    | some x => exact hg x (List.mem_of_getLast? hc)
  have hhead : 0 ≤ (steps d pts).headD 0 := by
    rw [List.headD_eq_head?_getD]
    cases hc : (steps d pts).head? with
    | none => simp
    | some x => exact hg x (List.mem_of_head? hc)
  rw [resRange_eq d s e pts h]
  generalize steps d pts = g at hg hlast hhead
  split
  · constructor
    · intro r hr
      obtain ⟨i, _, rfl⟩ := List.mem_map.mp hr
      have := List.sum_nonneg (l := g.drop i) (fun x hx => hg x (List.mem_of_mem_drop hx))
      linarith
    · left
      unfold fromLast
      rw [List.pairwise_map]
      apply List.pairwise_lt_range.imp
      intro a b hab
      have := (List.drop_sublist_drop_left g hab.le).sum_le_sum (fun x hx => hg x (List.mem_of_mem_drop hx))
      linarith
  · constructor
    · intro r hr
      obtain ⟨i, _, rfl⟩ := List.mem_map.mp hr
      have := List.sum_nonneg (l := g.take i) (fun x hx => hg x (List.mem_of_mem_take hx))
      linarith
    · right
      unfold fromFirst
      rw [List.pairwise_map]
      apply List.pairwise_lt_range.imp
      intro a b hab
      have := (List.take_sublist_take_left (l := g) hab.le).sum_le_sum (fun x hx => hg x (List.mem_of_mem_take hx))
      linarith

example : resRange (fun a b => ((max a b - min a b : Int) : ℚ)) (0 : Int) 9 [1, 4, 8] = [9, 6, 2] := by decide +kernel
example : resRange (fun a b => ((max a b - min a b : Int) : ℚ)) (9 : Int) 0 [1, 4, 8] = [3 / 2, 9 / 2, 17 / 2] := by
  decide +kernel

/-! ### C254 objects and associations -/

theorem inner_fold {α : Type} (calo : Nat → Nat → α) (t : Nat) (s : List α × List (Nat × Nat)) : ∀ m,
    (List.range m).foldl (fun s p => (s.1 ++ [calo t p], s.2 ++ [(t, s.1.length)])) s =
      (s.1 ++ (List.range m).map (calo t), s.2 ++ (List.range m).map fun p => (t, s.1.length + p))
  | 0 => by simp
  | m + 1 => by
    rw [List.range_succ, List.foldl_append, inner_fold calo t s m]
    simp

theorem produceAll_eq {α : Type} (calo : Nat → Nat → α) (m : Nat) : ∀ n,
    produceAll calo n m = ((List.range n).flatMap fun t => (List.range m).map (calo t),
      (List.range n).flatMap fun t => (List.range m).map fun p => (t, t * m + p)) ∧
    (produceAll calo n m).1.length = n * m
  | 0 => by simp [produceAll]
  | n + 1 => by
    obtain ⟨h1, h2⟩ := produceAll_eq calo m n
    have e : produceAll calo (n + 1) m = ((produceAll calo n m).1 ++ (List.range m).map (calo n),
        (produceAll calo n m).2 ++ (List.range m).map fun p => (n, n * m + p)) := by
      conv_lhs => unfold produceAll
      rw [List.range_succ, List.foldl_append]
      simp only [List.foldl_cons, List.foldl_nil]
      rw [inner_fold]
      rw [← h2]
      rfl
    constructor
    · rw [e, h1, List.range_succ]
      simp
    · rw [e]
      simp [h2]
      ring

theorem produceAll_get {α : Type} (calo : Nat → Nat → α) (m : Nat) : ∀ n t p, t < n → p < m →
    (produceAll calo n m).1[t * m + p]? = some (calo t p)
  | 0, t, p, ht, _ => by omega
  | n + 1, t, p, ht, hp => by
    have h1 : (produceAll calo (n + 1) m).1 = (produceAll calo n m).1 ++ (List.range m).map (calo n) := by
      rw [(produceAll_eq calo m (n + 1)).1, (produceAll_eq calo m n).1, List.range_succ]
      simp
    have h2 := (produceAll_eq calo m n).2
    rw [h1]
    by_cases htn : t < n
    · have : t * m + p < n * m := by nlinarith
      rw [List.getElem?_append_left (by omega)]
      exact produceAll_get calo m n t p htn hp
    · have : t = n := by omega
      subst this
      rw [List.getElem?_append_right (by omega), h2, Nat.add_sub_cancel_left]
      simp [hp]

/-- C254: there is one object for every track and plane, in order, and each is associated with its own track, once. -/
theorem C254_objects {α : Type} (calo : Nat → Nat → α) (n m : Nat) :
    (produceAll calo n m).1.length = n * m ∧
    (∀ t p, t < n → p < m → (produceAll calo n m).1[t * m + p]? = some (calo t p)) ∧
    (∀ t k, (t, k) ∈ (produceAll calo n m).2 ↔ ∃ p, t < n ∧ p < m ∧ k = t * m + p) ∧
    (produceAll calo n m).2.map Prod.snd = List.range (n * m) := by
  refine ⟨(produceAll_eq calo m n).2, produceAll_get calo m n, ?_, ?_⟩
  · intro t k
    rw [(produceAll_eq calo m n).1]
    simp only [List.mem_flatMap, List.mem_range, List.mem_map, Prod.mk.injEq]
    constructor
    · rintro ⟨t', ht, p, hp, rfl, rfl⟩
      exact ⟨p, ht, hp, rfl⟩
    · rintro ⟨p, ht, hp, rfl⟩
      exact ⟨t, ht, p, hp, rfl, rfl⟩
  · rw [(produceAll_eq calo m n).1]
    dsimp only
    clear calo
    induction n with
    | zero => simp
    | succ n ih =>
      rw [List.range_succ, List.flatMap_append, List.map_append, ih, Nat.succ_mul, List.range_add]
      simp [Function.comp_def]

/-- C254 (part): an object of at least two hits has a row of each kind for every hit, in their order; its energy is the sum
of dE/dx times pitch, and its range the length of the path through the hits; otherwise it is empty and marked as bogus. -/
theorem C254_rows {P : Type} (d : P → P → ℚ) (s e : P) (plane : Nat) (rows : List (Row × P)) :
    (2 ≤ rows.length →
      (mkCalo d s e plane rows).energy = some ((rows.map fun r => r.1.dEdx * r.1.pitch).sum) ∧
      (mkCalo d s e plane rows).dEdx = rows.map (·.1.dEdx) ∧ (mkCalo d s e plane rows).dQdx = rows.map (·.1.dQdx) ∧
      (mkCalo d s e plane rows).pitch = rows.map (·.1.pitch) ∧ (mkCalo d s e plane rows).keys = rows.map (·.1.key) ∧
      (mkCalo d s e plane rows).res.length = rows.length ∧
      (mkCalo d s e plane rows).range = some ((steps d (rows.map (·.2))).sum)) ∧
    (rows.length < 2 → mkCalo d s e plane rows = ⟨none, [], [], [], none, [], [], plane⟩) := by
  constructor
  · intro h
    unfold mkCalo
    rw [if_pos (by omega)]
    refine ⟨?_, rfl, rfl, rfl, rfl, ?_, ?_⟩
    · dsimp only
      congr 1
      have : ∀ (l : List (Row × P)) (a : ℚ), l.foldl (fun e r => e + r.1.dEdx * r.1.pitch) a =
          a + (l.map fun r => r.1.dEdx * r.1.pitch).sum := by
        intro l
        induction l with
        | nil => intro a; simp
        | cons x t ih => intro a; rw [List.foldl_cons, ih, List.map_cons, List.sum_cons]; ring
      rw [this, zero_add]
    · dsimp only
      match rows, h with
      | a :: b :: t, h =>
        obtain ⟨q, hq⟩ : ∃ q, ((a :: b :: t).map (·.2)).getLast? = some q :=
          ⟨_, List.getLast?_eq_some_getLast (by simp)⟩
        rw [(C253_residual d s e a.2 q ((a :: b :: t).map (·.2)) (by simp) rfl hq).1]
        simp
    · dsimp only
      rw [foldl_add, lengthsOf_eq d _ (by rintro h0; simp at h0; subst h0; simp at h), List.sum_cons]
      congr 1
      ring
  · intro h
    unfold mkCalo
    rw [if_neg (by omega)]

example : (produceAll (fun t p => (t, p)) 2 3).2 = [(0, 0), (0, 1), (0, 2), (1, 3), (1, 4), (1, 5)] := by decide

/-! ### C255 points of the hits -/

/-- C255: if every hit has one entry with a trajectory point, a hit is used exactly if its point is valid, and the module
fails exactly if the point of the hit does not exist. -/
theorem C255_lookup_partial (sentinel npts : Nat) (validPt : Nat → Bool) (key i : Nat) (metas : List (Nat × Nat))
    (hn : (metas.map Prod.fst).Nodup) (hm : (key, i) ∈ metas) :
    (used (lookup sentinel npts validPt key false metas) = true ↔ i ≠ sentinel ∧ i < npts ∧ validPt i = true) ∧
    (lookup sentinel npts validPt key false metas = none ↔ i ≠ sentinel ∧ npts ≤ i) ∧
    (used (lookup sentinel npts validPt key false metas) = true →
      lookup sentinel npts validPt key false metas = some (false, some i)) := by
  have habs : ∀ (l : List (Nat × Nat)) (b : Bool), key ∉ l.map Prod.fst →
      lookup sentinel npts validPt key b l = some (b, none) := by
    intro l
    induction l with
    | nil => intro b _; rfl
    | cons x t ih =>
      intro b h
      obtain ⟨k, j⟩ := x
      simp only [List.map_cons, List.mem_cons, not_or] at h
      unfold lookup
      rw [if_neg (fun e => h.1 e.symm)]
      exact ih b h.2
  induction metas with
  | nil => simp at hm
  | cons x t ih =>
    obtain ⟨k, j⟩ := x
    simp only [List.map_cons, List.nodup_cons] at hn
    unfold lookup
    by_cases hk : k = key
    · subst hk
      rw [if_pos rfl]
      have hij : i = j := by
        rcases List.mem_cons.mp hm with h | h
        · exact (Prod.mk.inj h).2
        · exact absurd (List.mem_map_of_mem (f := Prod.fst) h) hn.1
      subst hij
      by_cases h1 : i = sentinel
      · rw [if_pos h1, habs t true hn.1]
        simp [used, h1]
      · rw [if_neg h1]
        by_cases h2 : i ≥ npts
        · rw [if_pos h2]
          simp [used, h1]
          omega
        · rw [if_neg h2]
          by_cases h3 : validPt i = false
          · rw [if_pos h3, habs t true hn.1]
            simp [used, h3]
            omega
          · rw [if_neg h3]
            have h4 : validPt i = true := by simpa using h3
            simp [used, h1, h4]
            omega
    · rw [if_neg hk]
      apply ih hn.2
      rcases List.mem_cons.mp hm with h | h
      · exact absurd (Prod.mk.inj h).1.symm hk
      · exact h

/-- C255 (refuted): a hit with a valid point is not used if an entry before it has none. -/
theorem C255_refuted : ¬ ∀ (sentinel npts : Nat) (validPt : Nat → Bool) (key i : Nat) (metas : List (Nat × Nat)),
    (key, i) ∈ metas → (∀ m ∈ metas, m.2 = sentinel ∨ m.2 < npts) → i ≠ sentinel → validPt i = true →
    used (lookup sentinel npts validPt key false metas) = true := by
  intro h
  have := h 1000 5 (fun _ => true) 7 3 [(7, 1000), (7, 3)] (by simp) (by simp) (by decide) rfl
  revert this
  decide

example : lookup 1000 5 (fun _ => true) 7 false [(4, 2), (7, 3)] = some (false, some 3) := by decide

/-! ### C256 direction by charge -/

theorem goingDS_iff (c : List ℚ) : goingDS c = true ↔ (c.take 4).sum < (c.reverse.take 4).sum := by
  unfold goingDS
  rw [foldl_add, foldl_add]
  simp

/-- C256 (part): a track whose first and last four hits have different charges goes to the end with more of it, whatever
the order in which the hits are given. -/
theorem C256_direction_partial (c : List ℚ) (h : (c.take 4).sum ≠ (c.reverse.take 4).sum) :
    goingDS c.reverse = !goingDS c := by
  have h1 := goingDS_iff c
  have h2 := goingDS_iff c.reverse
  rw [List.reverse_reverse] at h2
  rcases lt_or_gt_of_ne h with hlt | hlt
  · rw [h1.mpr hlt]
    have : ¬ goingDS c.reverse = true := by rw [h2]; exact not_lt.mpr hlt.le
    simpa using this
  · rw [h2.mpr hlt]
    have : ¬ goingDS c = true := by rw [h1]; exact not_lt.mpr hlt.le
    have h3 : goingDS c = false := by simpa using this
    rw [h3]
    rfl

/-- C256 (exact, against the claim): with at most four hits the charge is not looked at: the track always goes upstream. -/
theorem C256_short (c : List ℚ) (h : c.length ≤ 4) : goingDS c = false := by
  have h1 := goingDS_iff c
  rw [List.take_of_length_le h, List.take_of_length_le (by simpa using h), List.sum_reverse] at h1
  have : ¬ goingDS c = true := by rw [h1]; exact lt_irrefl _
  simpa using this

/-- C256 (refuted): a track of four hits with rising charge does not go downstream. -/
theorem C256_refuted : ¬ ∀ c : List ℚ, 2 ≤ c.length → c.Pairwise (· < ·) → goingDS c = true := by
  intro h
  have := h [1, 2, 3, 40] (by decide) (by decide +kernel)
  rw [C256_short _ (by decide)] at this
  cases this

example : goingDS [1, 2, 3, 4, 9] = true := by decide +kernel

/-! ### C257 dead wires -/

/-- a hit that is looked at -/
def DHit.usable (h : DHit) : Bool := !h.bad && h.dist.isSome

theorem deadStep_closest (wire iw : Nat) (s : DSt) (h : DHit) :
    (h.usable = false → deadStep wire iw s h = s) ∧
    (h.usable = true → wdist wire iw < s.dwire →
      (deadStep wire iw s h).closest = h.wire ∧ (deadStep wire iw s h).dwire = wdist h.wire iw) ∧
    (¬ wdist wire iw < s.dwire → (deadStep wire iw s h).closest = s.closest ∧ (deadStep wire iw s h).dwire = s.dwire) := by
  obtain ⟨w, b, dd⟩ := h
  unfold deadStep DHit.usable
  refine ⟨?_, ?_, ?_⟩
  · intro hu
    cases b <;> cases dd <;> simp_all
  · intro hu hlt
    cases b <;> cases dd <;> simp_all
    split <;> simp_all
  · intro hlt
    cases b <;> cases dd <;> simp_all
    repeat' split
    all_goals first | exact ⟨rfl, rfl⟩ | (exfalso; simp only [not_lt] at *; omega) | (exfalso; rename_i h2; exact absurd h2 (by simpa using hlt))

theorem dead_stay (wire iw : Nat) : ∀ (hits : List DHit) (s : DSt), ¬ wdist wire iw < s.dwire →
    (hits.foldl (deadStep wire iw) s).closest = s.closest
  | [], s, _ => rfl
  | h :: t, s, hs => by
    have hst := (deadStep_closest wire iw s h).2.2 hs
    rw [List.foldl_cons, dead_stay wire iw t _ (by rw [hst.2]; exact hs), hst.1]

/-- the first hit that is not further from the dead wire than `D`, or else the last one -/
def firstWithin (D iw : Nat) (default : Nat) : List DHit → Nat
  | [] => default
  | h :: t => if wdist h.wire iw ≤ D then h.wire else firstWithin D iw h.wire t

theorem dead_find (wire iw : Nat) : ∀ (hits : List DHit) (s : DSt), wdist wire iw < s.dwire →
    (hits.foldl (deadStep wire iw) s).closest = firstWithin (wdist wire iw) iw s.closest (hits.filter DHit.usable)
  | [], s, _ => rfl
  | h :: t, s, hs => by
    rw [List.foldl_cons]
    obtain ⟨h1, h2, _⟩ := deadStep_closest wire iw s h
    by_cases hu : h.usable = true
    · obtain ⟨h3, h4⟩ := h2 hu hs
      rw [List.filter_cons_of_pos hu]
      unfold firstWithin
      split
      · rename_i hle
        rw [dead_stay wire iw t _ (by rw [h4]; omega), h3]
      · rename_i hle
        rw [dead_find wire iw t _ (by rw [h4]; omega), h3]
    · rw [List.filter_cons_of_neg hu, h1 (by simpa using hu)]
      exact dead_find wire iw t s hs

theorem firstWithin_mem (D iw : Nat) : ∀ (l : List DHit) (dflt : Nat), (∃ h ∈ l, wdist h.wire iw ≤ D) →
    ∃ h ∈ l, firstWithin D iw dflt l = h.wire ∧ wdist h.wire iw ≤ D
  | [], _, h => by simp at h
  | a :: t, dflt, h => by
    unfold firstWithin
    split
    · rename_i hle
      exact ⟨a, by simp, rfl, hle⟩
    · rename_i hle
      obtain ⟨b, hb, hd⟩ := h
      rcases List.mem_cons.mp hb with rfl | hb
      · exact absurd hd hle
      · obtain ⟨c, hc, e1, e2⟩ := firstWithin_mem D iw t a.wire ⟨b, hb, hd⟩
        exact ⟨c, by simp [hc], e1, e2⟩

/-- C257 (exact): the wire taken for the closest to a dead wire is that of the first good hit that is not further from it
than the last hit of the plane, or that of the last good hit if there is none. -/
theorem C257_exact (wire iw : Nat) (hits : List DHit) (h : wdist wire iw < 100000) :
    (deadFind wire iw hits).closest = firstWithin (wdist wire iw) iw 0 (hits.filter DHit.usable) :=
  dead_find wire iw hits _ h

/-- C257 (part): if no good hit is closer to a dead wire than the last hit of the plane, and that is good, the closest wire
is found. -/
theorem C257_closest_partial (wire iw : Nat) (hits : List DHit) (h : wdist wire iw < 100000)
    (hlast : ∃ g ∈ hits, g.usable = true ∧ g.wire = wire)
    (hmin : ∀ g ∈ hits, g.usable = true → wdist wire iw ≤ wdist g.wire iw) :
    ∃ g ∈ hits, g.usable = true ∧ (deadFind wire iw hits).closest = g.wire ∧
      ∀ g' ∈ hits, g'.usable = true → wdist g.wire iw ≤ wdist g'.wire iw := by
  obtain ⟨g, hg, hu, hw⟩ := hlast
  obtain ⟨c, hc, e1, e2⟩ := firstWithin_mem (wdist wire iw) iw (hits.filter DHit.usable) 0
    ⟨g, List.mem_filter.mpr ⟨hg, hu⟩, by rw [hw]⟩
  have hc' := List.mem_filter.mp hc
  exact ⟨c, hc'.1, hc'.2, by rw [C257_exact wire iw hits h, e1], fun g' hg' hu' => le_trans e2 (hmin g' hg' hu')⟩

/-- C257 (refuted): the closest wire is not found in general: the distance of the last hit is compared instead of that of the
hit. -/
theorem C257_refuted : ¬ ∀ (wire iw : Nat) (hits : List DHit), hits ≠ [] → (hits.getLast?.map DHit.wire) = some wire →
    (∀ g ∈ hits, g.usable = true) →
    ∀ g' ∈ hits, wdist (deadFind wire iw hits).closest iw ≤ wdist g'.wire iw := by
  intro h
  have := h 20 12 [⟨10, false, some 5⟩, ⟨11, false, some 4⟩, ⟨20, false, some 1⟩] (by simp) rfl (by decide)
    ⟨11, false, some 4⟩ (by simp)
  revert this
  decide +kernel

/-- C257 (part): there is at most one residual range for every dead wire between the first and the last wire of the hits. -/
theorem C257_count (pitch : ℚ) (wire lo hi : Nat) (isBad : Nat → Bool) (hits : List DHit) :
    (deadWires pitch wire lo hi isBad hits).length ≤ ((List.range' lo (hi + 1 - lo)).filter isBad).length := by
  unfold deadWires
  exact List.length_filterMap_le _ _

example : deadWires 1 20 10 20 (fun w => w = 12) [⟨10, false, some 5⟩, ⟨11, false, some 4⟩, ⟨20, false, some 1⟩] = [3] := by
  decide +kernel

/-! ### C258 space points of a hit -/

theorem mapInsert_mem (d : ℚ) (i : Nat) : ∀ (m : List (ℚ × Nat)) (x : ℚ × Nat), x ∈ mapInsert d i m → x = (d, i) ∨ x ∈ m
  | [], x, h => by simpa [mapInsert] using h
  | p :: t, x, h => by
    unfold mapInsert at h
    split at h
    · simpa using h
    · split at h
      · exact Or.inr h
      · rcases List.mem_cons.mp h with rfl | h
        · exact Or.inr (by simp)
        · rcases mapInsert_mem d i t x h with h | h
          · exact Or.inl h
          · exact Or.inr (by simp [h])

theorem mapInsert_keys (d : ℚ) (i : Nat) : ∀ (m : List (ℚ × Nat)) (x : ℚ), x ∈ (mapInsert d i m).map Prod.fst ↔
    x = d ∨ x ∈ m.map Prod.fst
  | [], x => by simp [mapInsert]
  | p :: t, x => by
    unfold mapInsert
    split
    · simp
    · split
      · rename_i h
        simp only [List.map_cons, List.mem_cons]
        constructor
        · exact Or.inr
        · rintro (rfl | h')
          · exact Or.inl h
          · exact h'
      · rw [List.map_cons, List.mem_cons, mapInsert_keys d i t x, List.map_cons, List.mem_cons]
        tauto

theorem mapInsert_sorted (d : ℚ) (i : Nat) : ∀ (m : List (ℚ × Nat)), m.Pairwise (fun a b => a.1 < b.1) →
    (mapInsert d i m).Pairwise fun a b => a.1 < b.1
  | [], _ => by simp [mapInsert]
  | p :: t, h => by
    obtain ⟨h1, h2⟩ := List.pairwise_cons.mp h
    unfold mapInsert
    split
    · rename_i hlt
      refine List.pairwise_cons.mpr ⟨?_, h⟩
      intro b hb
      rcases List.mem_cons.mp hb with rfl | hb
      · exact hlt
      · exact lt_trans hlt (h1 b hb)
    · split
      · exact h
      · rename_i hn hne
        refine List.pairwise_cons.mpr ⟨?_, mapInsert_sorted d i t h2⟩
        intro b hb
        rcases mapInsert_mem d i t b hb with rfl | hb
        · exact lt_of_le_of_ne (not_lt.mp hn) (fun e => hne e.symm)
        · exact h1 b hb

/-- the map after all space points -/
def distMap (ds : List ℚ) : List (ℚ × Nat) := ((List.range ds.length).zip ds).foldl (fun m id => mapInsert id.2 id.1 m) []

theorem fold_map (l : List (Nat × ℚ)) : ∀ m : List (ℚ × Nat), m.Pairwise (fun a b => a.1 < b.1) →
    (l.foldl (fun m id => mapInsert id.2 id.1 m) m).Pairwise (fun a b => a.1 < b.1) ∧
    (∀ x, x ∈ (l.foldl (fun m id => mapInsert id.2 id.1 m) m).map Prod.fst ↔ x ∈ m.map Prod.fst ∨ x ∈ l.map Prod.snd) ∧
    (∀ x ∈ l.foldl (fun m id => mapInsert id.2 id.1 m) m, x ∈ m ∨ (x.2, x.1) ∈ l) := by
  induction l with
  | nil => intro m h; exact ⟨h, by simp, fun x hx => Or.inl hx⟩
  | cons a t ih =>
    intro m h
    obtain ⟨h1, h2, h3⟩ := ih (mapInsert a.2 a.1 m) (mapInsert_sorted _ _ m h)
    refine ⟨h1, ?_, ?_⟩
    · intro x
      rw [List.foldl_cons, h2 x, mapInsert_keys]
      simp only [List.map_cons, List.mem_cons]
      tauto
    · intro x hx
      rcases h3 x hx with h | h
      · rcases mapInsert_mem _ _ _ _ h with rfl | h
        · exact Or.inr (by simp)
        · exact Or.inl h
      · exact Or.inr (by simp [h])

theorem distMap_spec (ds : List ℚ) : (distMap ds).Pairwise (fun a b => a.1 < b.1) ∧
    (∀ x, x ∈ (distMap ds).map Prod.fst ↔ x ∈ ds) ∧ (∀ x ∈ distMap ds, ds[x.2]? = some x.1) := by
  obtain ⟨h1, h2, h3⟩ := fold_map ((List.range ds.length).zip ds) [] List.Pairwise.nil
  refine ⟨h1, ?_, ?_⟩
  · intro x
    have := h2 x
    rw [List.map_snd_zip (by simp)] at this
    exact this.trans (by simp)
  · intro x hx
    rcases h3 x hx with h | h
    · simp at h
    · obtain ⟨k, hk⟩ := List.getElem?_of_mem h
      rw [List.getElem?_zip_eq_some] at hk
      obtain ⟨a, b⟩ := hk
      have : k < ds.length := (List.getElem?_eq_some_iff.mp b).1
      rw [List.getElem?_range this] at a
      cases a
      exact b

theorem nearest5_eq (ds : List ℚ) : nearest5 ds = match distMap ds with
    | [] => none
    | p :: _ => if p.1 > 30 then none else some ((distMap ds).take 5) := rfl

/-- C258: a hit without a space point within 30 cm is not on the track; otherwise at most five space points are used, in
order of their distance, no other space point being closer than one of them. -/
theorem C258_nearest (ds : List ℚ) :
    (nearest5 ds = none ↔ ∀ d ∈ ds, 30 < d) ∧
    ∀ l, nearest5 ds = some l → l ≠ [] ∧ l.length ≤ 5 ∧ l.Pairwise (fun a b => a.1 < b.1) ∧
      (∀ x ∈ l, ds[x.2]? = some x.1) ∧
      ∀ d ∈ ds, d ∈ l.map Prod.fst ∨ (l.length = 5 ∧ ∀ x ∈ l, x.1 < d) := by
  obtain ⟨h1, h2, h3⟩ := distMap_spec ds
  rw [nearest5_eq]
  cases hm : distMap ds with
  | nil =>
    constructor
    · simp only [true_iff]
      intro d hd
      have := (h2 d).mpr hd
      rw [hm] at this
      simp at this
    · intro l hl
      cases hl
  | cons p t =>
    rw [hm] at h1 h2 h3
    obtain ⟨h4, _⟩ := List.pairwise_cons.mp h1
    dsimp only
    by_cases hp : p.1 > 30
    · rw [if_pos hp]
      constructor
      · simp only [true_iff]
        intro d hd
        have hd' := (h2 d).mpr hd
        rcases List.mem_cons.mp (by simpa using hd' : d ∈ p.1 :: t.map Prod.fst) with rfl | hd'
        · exact hp
        · obtain ⟨x, hx, rfl⟩ := List.mem_map.mp hd'
          exact lt_trans hp (h4 x hx)
      · intro l hl
        cases hl
    · rw [if_neg hp]
      constructor
      · constructor
        · intro h; cases h
        · intro h
          exact absurd (h p.1 ((h2 p.1).mp (by simp))) hp
      · intro l hl
        cases hl
        refine ⟨by simp, by simp, h1.sublist (List.take_sublist _ _), fun x hx => h3 x (List.mem_of_mem_take hx), ?_⟩
        intro d hd
        obtain ⟨x, hx, rfl⟩ := List.mem_map.mp ((h2 d).mpr hd)
        rw [← List.take_append_drop 5 (p :: t)] at hx h1
        rcases List.mem_append.mp hx with hx | hx
        · exact Or.inl (List.mem_map_of_mem hx)
        · right
          constructor
          · have : 0 < ((p :: t).drop 5).length := List.length_pos_of_mem hx
            rw [List.length_drop] at this
            rw [List.length_take]
            omega
          · intro y hy
            exact (List.pairwise_append.mp h1).2.2 y hy x hx

/-- C258 (refuted): five space points are not used although there are five within 30 cm: of two at the same distance, such as
those of the two neighbouring wires of a straight track, only the first one is used. -/
theorem C258_refuted : ¬ ∀ (ds : List ℚ) (l : List (ℚ × Nat)), nearest5 ds = some l → l.length = min 5 ds.length := by
  intro h
  have := h [1, 1, 2, 2, 0] [(0, 4), (1, 0), (2, 2)] (by decide +kernel)
  revert this
  decide

example : nearest5 [3, 1, 2, 7, 5, 4, 1] = some [(1, 1), (2, 2), (3, 0), (4, 5), (5, 4)] := by decide +kernel

/-! ### C259 shower calorimetry -/

/-- C259 (part): a plane of a shower has a row for each of its hits, and its energy is the sum of the dE/dx of those with a
space point. -/
theorem C259_rows_partial (hits : List SHit) (plane : Nat) :
    (showerPlane hits plane).1.length = (hits.filter fun h => h.plane = plane).length ∧
    (showerPlane hits plane).2 = ((showerPlane hits plane).1.map Prod.fst).sum ∧
    (showerPlane hits plane).2 = ((hits.filter fun h => h.plane = plane ∧ h.hasSp = true).map SHit.dEdx).sum := by
  unfold showerPlane
  dsimp only
  have key : ∀ (l : List SHit) (a : ℚ), l.foldl (fun e h => if h.hasSp = true then e + h.dEdx else e) a =
      a + ((l.map fun h => if h.hasSp = true then (h.dEdx, h.pitch) else (0, 0)).map Prod.fst).sum := by
    intro l
    induction l with
    | nil => intro a; simp
    | cons x t ih =>
      intro a
      rw [List.foldl_cons, ih]
      by_cases hx : x.hasSp = true
      · simp [hx]; ring
      · simp [hx]
  refine ⟨by simp, by rw [key, zero_add], ?_⟩
  rw [key, zero_add]
  induction hits with
  | nil => simp
  | cons x t ih =>
    by_cases hp : x.plane = plane
    · by_cases hx : x.hasSp = true
      · simp only [List.filter_cons, hp, hx, decide_true, and_self, if_true, List.map_cons, List.sum_cons]
        rw [ih]
      · simp only [List.filter_cons, hp, hx, decide_true, if_true, List.map_cons, List.sum_cons]
        rw [ih]
        simp
    · simp only [List.filter_cons, hp, decide_false, false_and, if_false]
      exact ih

/-- C259 (refuted): the energy is not the sum of dE/dx times pitch (the pitch is left out), and a hit without a space point
is not skipped but has a row of zeros. -/
theorem C259_refuted :
    (¬ ∀ (hits : List SHit) (plane : Nat), (showerPlane hits plane).2 =
      ((showerPlane hits plane).1.map fun r => r.1 * r.2).sum) ∧
    (¬ ∀ (hits : List SHit) (plane : Nat), (showerPlane hits plane).1.length =
      (hits.filter fun h => h.plane = plane ∧ h.hasSp = true).length) := by
  constructor
  · intro h
    have := h [⟨true, 0, 2, 3 / 10⟩] 0
    revert this
    decide +kernel
  · intro h
    have := h [⟨false, 0, 2, 3 / 10⟩] 0
    revert this
    decide +kernel

example : showerPlane [⟨true, 0, 2, 3 / 10⟩, ⟨true, 1, 5, 1⟩, ⟨false, 0, 7, 1⟩, ⟨true, 0, 4, 1 / 2⟩] 0 =
    ([(2, 3 / 10), (0, 0), (4, 1 / 2)], 6) := by decide +kernel

end Verif.Gnocchi

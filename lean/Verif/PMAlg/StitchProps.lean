import Verif.PMAlg.StitchModel
import Verif.PMAlg.TreeShift
import Mathlib.Tactic.Linarith
import Mathlib.Tactic.FieldSimp
import Mathlib.Tactic.Ring

/-! Properties of the stitching of tracks: C215 - C220. -/

namespace Verif.PmaStitch

/-! ### The score of a pair -/

/-- what is used of the length of a vector -/
structure Norm (E : Env) : Prop where
  nonneg : ∀ v, 0 ≤ E.mag v
  zero : ∀ v, E.mag v = 0 ↔ v = (0, 0, 0)

/-- `q` lies on the line through `p` along `d` -/
def OnLine (p d q : V) : Prop := ∃ k : ℚ, q = (p.1 + k * d.1, p.2.1 + k * d.2.1, p.2.2 + k * d.2.2)

/-- C215: the score does not depend on which of the two is called the first. -/
theorem C215_symmetric (E : Env) (p1 p2 d1 d2 : V) : pairDelta E p2 p1 d2 d1 = pairDelta E p1 p2 d1 d2 := by
  unfold pairDelta
  by_cases h : d1.1 = 0 ∨ d2.1 = 0
  · rw [if_pos h, if_pos h.symm]
  · rw [if_neg h, if_neg (fun h' => h h'.symm)]
    dsimp only
    rw [add_comm]

/-- C215: nor on the length and sign of the directions. -/
theorem C215_scale (E : Env) (p1 p2 d1 d2 : V) (a b : ℚ) (ha : a ≠ 0) (hb : b ≠ 0) :
    pairDelta E p1 p2 (a * d1.1, a * d1.2.1, a * d1.2.2) (b * d2.1, b * d2.2.1, b * d2.2.2) = pairDelta E p1 p2 d1 d2 := by
  unfold pairDelta
  by_cases h : d1.1 = 0 ∨ d2.1 = 0
  · rw [if_pos h, if_pos (by simpa [ha, hb] using h)]
  · rw [if_neg h, if_neg (by simpa [ha, hb] using h)]
    push Not at h
    obtain ⟨h1, h2⟩ := h
    have k1 : adv p1 ((p2.1 - p1.1) / (a * d1.1)) (a * d1.1, a * d1.2.1, a * d1.2.2) = adv p1 ((p2.1 - p1.1) / d1.1) d1 := by
      unfold adv
      refine Prod.ext ?_ (Prod.ext ?_ ?_) <;> dsimp only <;> field_simp
    have k2 : adv p2 ((p1.1 - p2.1) / (b * d2.1)) (b * d2.1, b * d2.2.1, b * d2.2.2) = adv p2 ((p1.1 - p2.1) / d2.1) d2 := by
      unfold adv
      refine Prod.ext ?_ (Prod.ext ?_ ?_) <;> dsimp only <;> field_simp
    dsimp only
    rw [k1, k2]

theorem adv_on_line {p d q : V} (hd : d.1 ≠ 0) :
    sub (adv p ((q.1 - p.1) / d.1) d) q = (0, 0, 0) ↔ OnLine p d q := by
  unfold sub adv OnLine
  constructor
  · intro h
    refine ⟨(q.1 - p.1) / d.1, ?_⟩
    simp only [Prod.mk.injEq] at h
    obtain ⟨h1, h2, h3⟩ := h
    refine Prod.ext ?_ (Prod.ext ?_ ?_) <;> dsimp only <;> linarith
  · rintro ⟨k, rfl⟩
    dsimp only
    have : (p.1 + k * d.1 - p.1) / d.1 = k := by
      rw [add_sub_cancel_left, mul_div_assoc, div_self hd, mul_one]
    rw [this]
    simp

/-- C215: the score is not negative, and is zero exactly if each track points at the other one. -/
theorem C215_zero_iff (E : Env) (hE : Norm E) (p1 p2 d1 d2 : V) (s : ℚ) (h : pairDelta E p1 p2 d1 d2 = some s) :
    0 ≤ s ∧ (s = 0 ↔ OnLine p1 d1 p2 ∧ OnLine p2 d2 p1) := by
  unfold pairDelta at h
  by_cases hc : d1.1 = 0 ∨ d2.1 = 0
  · rw [if_pos hc] at h; cases h
  · rw [if_neg hc] at h
    push Not at hc
    dsimp only at h
    have hs := Option.some.inj h
    rw [← adv_on_line hc.1, ← adv_on_line hc.2, ← hE.zero, ← hE.zero, ← hs]
    have n1 := hE.nonneg (sub (adv p1 ((p2.1 - p1.1) / d1.1) d1) p2)
    have n2 := hE.nonneg (sub (adv p2 ((p1.1 - p2.1) / d2.1) d2) p1)
    refine ⟨by linarith, ?_⟩
    constructor
    · intro h0
      constructor <;> linarith
    · rintro ⟨a, b⟩
      rw [a, b, add_zero]

/-- C215: a direction without X component has no score, and the pair is never stitched. -/
theorem C215_no_score (E : Env) (p1 p2 d1 d2 : V) : pairDelta E p1 p2 d1 d2 = none ↔ d1.1 = 0 ∨ d2.1 = 0 := by
  unfold pairDelta
  split <;> simp_all

/-- the sum of the absolute values as the length, for the examples -/
def l1 : Env := { mag := fun v => |v.1| + |v.2.1| + |v.2.2|, unit := fun v => v }

theorem l1_norm : Norm l1 where
  nonneg := fun v => by unfold l1; positivity
  zero := fun v => by
    unfold l1
    dsimp only
    constructor
    · intro h
      have a := abs_nonneg v.1
      have b := abs_nonneg v.2.1
      have c := abs_nonneg v.2.2
      refine Prod.ext ?_ (Prod.ext ?_ ?_)
      · exact abs_eq_zero.1 (by linarith)
      · exact abs_eq_zero.1 (by linarith)
      · exact abs_eq_zero.1 (by linarith)
    · rintro rfl
      simp

example : pairDelta l1 (0, 0, 0) (2, 2, 0) (1, 1, 0) (-1, -1, 0) = some 0 := by decide +kernel
example : pairDelta l1 (0, 0, 0) (2, 2, 0) (1, 1, 0) (-1, 0, 0) = some 2 := by decide +kernel

/-! ### The best shift -/

/-- the first minimum of a fold -/
theorem best_spec (E : Env) (p1 p2 d1 d2 : V) (l : List ℚ) (b : ℚ × ℚ) :
    (l.foldl (better E p1 p2 d1 d2) b = b ∧ ∀ s ∈ l, ∀ d, scoreAt E p1 p2 d1 d2 s = some d → b.1 ≤ d) ∨
    ∃ (i : Nat), (l[i]? : Option ℚ) = some (l.foldl (better E p1 p2 d1 d2) b).2 ∧
      scoreAt E p1 p2 d1 d2 (l.foldl (better E p1 p2 d1 d2) b).2 = some (l.foldl (better E p1 p2 d1 d2) b).1 ∧
      (l.foldl (better E p1 p2 d1 d2) b).1 < b.1 ∧
      (∀ s ∈ l, ∀ d, scoreAt E p1 p2 d1 d2 s = some d → (l.foldl (better E p1 p2 d1 d2) b).1 ≤ d) ∧
      ∀ (j : Nat) s d, j < i → l[j]? = some s → scoreAt E p1 p2 d1 d2 s = some d →
        (l.foldl (better E p1 p2 d1 d2) b).1 < d := by
  induction l generalizing b with
  | nil => left; exact ⟨rfl, by simp⟩
  | cons a l ih =>
    rw [List.foldl_cons]
    cases ha : scoreAt E p1 p2 d1 d2 a with
    | none =>
      have hb : better E p1 p2 d1 d2 b a = b := by unfold better; rw [ha]
      rw [hb]
      rcases ih b with ⟨h1, h2⟩ | ⟨i, h1, h2, h3, h4, h5⟩
      · left
        refine ⟨h1, ?_⟩
        intro s hs d hd
        rcases List.mem_cons.1 hs with rfl | hs
        · rw [ha] at hd; cases hd
        · exact h2 s hs d hd
      · right
        refine ⟨i + 1, by simpa using h1, h2, h3, ?_, ?_⟩
        · intro s hs d hd
          rcases List.mem_cons.1 hs with rfl | hs
          · rw [ha] at hd; cases hd
          · exact h4 s hs d hd
        · intro j s d hj hs hd
          rcases j with _ | j
          · have : a = s := by simpa using hs
            subst this
            rw [ha] at hd; cases hd
          · exact h5 j s d (by omega) (by simpa using hs) hd
    | some da =>
      by_cases hlt : da < b.1
      · have hb : better E p1 p2 d1 d2 b a = (da, a) := by unfold better; rw [ha]; exact if_pos hlt
        rw [hb]
        right
        rcases ih (da, a) with ⟨h1, h2⟩ | ⟨i, h1, h2, h3, h4, h5⟩
        · rw [h1]
          refine ⟨0, rfl, ha, hlt, ?_, by intro j s d hj; omega⟩
          intro s hs d hd
          rcases List.mem_cons.1 hs with rfl | hs
          · rw [ha] at hd; exact (Option.some.inj hd).le
          · exact h2 s hs d hd
        · refine ⟨i + 1, by simpa using h1, h2, h3.trans hlt, ?_, ?_⟩
          · intro s hs d hd
            rcases List.mem_cons.1 hs with rfl | hs
            · rw [ha] at hd; rw [← Option.some.inj hd]; exact h3.le
            · exact h4 s hs d hd
          · intro j s d hj hs hd
            rcases j with _ | j
            · have : a = s := by simpa using hs
              subst this
              rw [ha] at hd; rw [← Option.some.inj hd]; exact h3
            · exact h5 j s d (by omega) (by simpa using hs) hd
      · have hb : better E p1 p2 d1 d2 b a = b := by unfold better; rw [ha]; exact if_neg hlt
        rw [hb]
        rcases ih b with ⟨h1, h2⟩ | ⟨i, h1, h2, h3, h4, h5⟩
        · left
          refine ⟨h1, ?_⟩
          intro s hs d hd
          rcases List.mem_cons.1 hs with rfl | hs
          · rw [ha] at hd; rw [← Option.some.inj hd]; exact not_lt.1 hlt
          · exact h2 s hs d hd
        · right
          refine ⟨i + 1, by simpa using h1, h2, h3, ?_, ?_⟩
          · intro s hs d hd
            rcases List.mem_cons.1 hs with rfl | hs
            · rw [ha] at hd; rw [← Option.some.inj hd]; exact h3.le.trans (not_lt.1 hlt)
            · exact h4 s hs d hd
          · intro j s d hj hs hd
            rcases j with _ | j
            · have : a = s := by simpa using hs
              subst this
              rw [ha] at hd; rw [← Option.some.inj hd]; exact h3.trans_le (not_lt.1 hlt)
            · exact h5 j s d (by omega) (by simpa using hs) hd

theorem mem_grid {s0 s : ℚ} : s ∈ grid s0 ↔ ∃ k : Nat, k ≤ 100 ∧ s = s0 - 5 + (k : ℚ) / 10 := by
  unfold grid
  rw [List.mem_map]
  constructor
  · rintro ⟨k, hk, rfl⟩
    exact ⟨k, by rw [List.mem_range] at hk; omega, by ring⟩
  · rintro ⟨k, hk, rfl⟩
    exact ⟨k, List.mem_range.2 (by omega), by ring⟩

/-- C216: the shift is one of the 101 points in steps of 0.1 cm within 5 cm of the first guess, with the smallest score
of all of them, and the first of those; if no point has a score below 99999, both results are 99999. -/
theorem C216_best_shift (E : Env) (p1 p2 d1 d2 : V) (s0 : ℚ) :
    let r := optimal E p1 p2 d1 d2 s0
    let score := fun k : Nat => pairDelta E (p1.1 - (s0 - 5 + (k : ℚ) / 10), p1.2) (p2.1 + (s0 - 5 + (k : ℚ) / 10), p2.2) d1 d2
    (r = (99999, 99999) ∧ ∀ k : Nat, k ≤ 100 → ∀ d, score k = some d → 99999 ≤ d) ∨
    ∃ k : Nat, k ≤ 100 ∧ r.2 = s0 - 5 + (k : ℚ) / 10 ∧ score k = some r.1 ∧ r.1 < 99999 ∧
      (∀ j : Nat, j ≤ 100 → ∀ d, score j = some d → r.1 ≤ d) ∧ ∀ j : Nat, j < k → ∀ d, score j = some d → r.1 < d := by
  dsimp only
  have hg : ∀ j : Nat, j ≤ 100 → ((grid s0)[j]? : Option ℚ) = some (s0 - 5 + (j : ℚ) / 10) := by
    intro j hj
    unfold grid
    rw [List.getElem?_map, List.getElem?_range (by omega)]
    simp only [Option.map_some, Option.some.injEq]
    ring
  rcases best_spec E p1 p2 d1 d2 (grid s0) (99999, 99999) with ⟨h1, h2⟩ | ⟨i, h1, h2, h3, h4, h5⟩
  · left
    exact ⟨h1, fun k hk d hd => h2 _ (mem_grid.2 ⟨k, hk, rfl⟩) d hd⟩
  · right
    have hi : i ≤ 100 := by
      by_contra hc
      have : (grid s0).length = 101 := by simp [grid]
      rw [List.getElem?_eq_none (by omega)] at h1
      cases h1
    have e := hg i hi
    rw [h1] at e
    have e := Option.some.inj e
    refine ⟨i, hi, e, ?_, h3, ?_, ?_⟩
    · show scoreAt E p1 p2 d1 d2 (s0 - 5 + (i : ℚ) / 10) = _
      rw [← e]; exact h2
    · intro j hj d hd
      exact h4 _ (mem_grid.2 ⟨j, hj, rfl⟩) d hd
    · intro j hj d hd
      exact h5 j _ d hj (hg j (by omega)) hd

/-- C216: the shift stays within 5 cm of the first guess. -/
theorem C216_within (E : Env) (p1 p2 d1 d2 : V) (s0 : ℚ) (h : (optimal E p1 p2 d1 d2 s0).1 < 99999) :
    |(optimal E p1 p2 d1 d2 s0).2 - s0| ≤ 5 := by
  rcases C216_best_shift E p1 p2 d1 d2 s0 with ⟨h1, _⟩ | ⟨k, hk, h1, _⟩
  · rw [h1] at h
    norm_num at h
  · rw [h1]
    have hk' : (k : ℚ) ≤ 100 := by exact_mod_cast hk
    have hk0 : (0 : ℚ) ≤ (k : ℚ) := by positivity
    rw [abs_le]
    constructor <;> linarith

example : optimal l1 (0, 0, 0) (2, 2, 0) (1, 1, 0) (-1, -1, 0) 0 = (0, 0) := by decide +kernel
example : optimal l1 (0, 0, 0) (2, 2, 0) (0, 1, 0) (-1, -1, 0) 0 = (99999, 99999) := by decide +kernel

/-! ### The choice of a partner -/

/-- What is asked of a pair of ends: the second track comes later in the collection, both tracks are long enough, no end of
the one is in the TPC of an end of the other, the surfaces of the two ends are within 10 cm, and the directions along X do
not agree. -/
def Candidate (E : Env) (c : Cfg) (ts : List Trk) (t : Nat) (o : Opt) : Prop :=
  ∃ t1 t2, ts[t]? = some t1 ∧ ts[o.u]? = some t2 ∧ t < o.u ∧
    6 ≤ t1.nodes.length ∧ 2 * c.skip + 3 ≤ t1.nodes.length ∧ 6 ≤ t2.nodes.length ∧ 2 * c.skip + 3 ≤ t2.nodes.length ∧
    (∀ a ∈ [t1.frontTpc, t1.backTpc], ∀ b ∈ [t2.frontTpc, t2.backTpc], a ≠ b) ∧
    |surface c t1 o.front1 - surface c t2 o.front2| ≤ 10 ∧
    (dir E c t1 o.front1).1 * (dir E c t2 o.front2).1 ≤ 0

/-- score and shift of a pair of ends -/
def optScore (E : Env) (c : Cfg) (ts : List Trk) (t : Nat) (o : Opt) : ℚ × ℚ :=
  match ts[t]?, ts[o.u]? with
  | some t1, some t2 => scored E c t1 t2 o
  | _, _ => (99999, 99999)

theorem minLen_le (c : Cfg) (n : Nat) : ¬ n < minLen c ↔ 6 ≤ n ∧ 2 * c.skip + 3 ≤ n := by
  unfold minLen
  split <;> omega

theorem giveUp_false (a b : Trk) :
    giveUp a b = false ↔ ∀ x ∈ [a.frontTpc, a.backTpc], ∀ y ∈ [b.frontTpc, b.backTpc], x ≠ y := by
  unfold giveUp
  simp only [Bool.or_eq_false_iff, decide_eq_false_iff_not, List.mem_cons, List.not_mem_nil, or_false,
    forall_eq_or_imp, forall_eq, ne_eq]
  tauto

theorem mem_options (E : Env) (c : Cfg) (t1 t2 : Trk) (u : Nat) (o : Opt) :
    o ∈ options E c t1 t2 u ↔ o.u = u ∧ 6 ≤ t2.nodes.length ∧ 2 * c.skip + 3 ≤ t2.nodes.length ∧
      (∀ a ∈ [t1.frontTpc, t1.backTpc], ∀ b ∈ [t2.frontTpc, t2.backTpc], a ≠ b) ∧
      |surface c t1 o.front1 - surface c t2 o.front2| ≤ 10 ∧
      (dir E c t1 o.front1).1 * (dir E c t2 o.front2).1 ≤ 0 := by
  rw [← giveUp_false]
  unfold options
  by_cases h1 : t2.nodes.length < minLen c
  · rw [if_pos h1]
    constructor
    · intro h; cases h
    · rintro ⟨_, h2, h3, _⟩
      exact absurd h1 ((minLen_le c _).2 ⟨h2, h3⟩)
  · rw [if_neg h1]
    have h1' := (minLen_le c _).1 h1
    by_cases h2 : giveUp t1 t2 = true
    · rw [if_pos h2]
      constructor
      · intro h; cases h
      · rintro ⟨_, _, _, h3, _⟩
        rw [h2] at h3; cases h3
    · rw [if_neg h2]
      have h2' : giveUp t1 t2 = false := by simpa using h2
      rw [List.mem_filterMap]
      constructor
      · rintro ⟨⟨a, b⟩, _, h⟩
        dsimp only at h
        split at h
        · cases h
        · rename_i h3
          split at h
          · cases h
          · rename_i h4
            have := Option.some.inj h
            subst this
            exact ⟨rfl, h1'.1, h1'.2, h2', not_lt.1 h3, not_lt.1 h4⟩
      · rintro ⟨h3, _, _, _, h4, h5⟩
        refine ⟨(o.front1, o.front2), ?_, ?_⟩
        · cases o.front1 <;> cases o.front2 <;> simp
        · dsimp only
          rw [if_neg (not_lt.2 h4), if_neg (not_lt.2 h5)]
          cases o
          simp only at h3
          rw [h3]

theorem mem_tried (E : Env) (c : Cfg) (ts : List Trk) (t : Nat) (t1 : Trk) (ht : ts[t]? = some t1)
    (hl : ¬ t1.nodes.length < minLen c) (o : Opt) : o ∈ tried E c ts t t1 ↔ Candidate E c ts t o := by
  unfold tried Candidate
  rw [List.mem_flatMap]
  constructor
  · rintro ⟨u, hu, h⟩
    rw [List.mem_range] at hu
    split at h
    · rename_i htu
      rw [List.getElem?_eq_getElem hu] at h
      dsimp only at h
      rw [mem_options] at h
      obtain ⟨h0, h1, h2, h3, h4, h5⟩ := h
      subst h0
      have := (minLen_le c _).1 hl
      exact ⟨t1, ts[o.u], ht, List.getElem?_eq_getElem hu, htu, this.1, this.2, h1, h2, h3, h4, h5⟩
    · cases h
  · rintro ⟨a, t2, ha, h2, htu, h3, h4, h5, h6, h7, h8, h9⟩
    rw [ht] at ha
    cases ha
    have hu : o.u < ts.length := by
      by_contra hc
      rw [List.getElem?_eq_none (by omega)] at h2
      cases h2
    refine ⟨o.u, List.mem_range.2 hu, ?_⟩
    rw [if_pos htu, h2]
    dsimp only
    rw [mem_options]
    exact ⟨rfl, h5, h6, h7, h8, h9⟩

theorem take_fold (c : Cfg) (sc : Opt → ℚ × ℚ) (l : List Opt) (b : Best) :
    (l.foldl (take c sc) b = b ∧ ∀ o ∈ l, ¬ ((sc o).1 < c.thr ∧ (sc o).1 < b.score)) ∨
    ∃ o ∈ l, l.foldl (take c sc) b = ⟨(sc o).1, (sc o).2, some o⟩ ∧ (sc o).1 < c.thr ∧ (sc o).1 < b.score ∧
      ∀ o' ∈ l, (sc o).1 ≤ (sc o').1 := by
  induction l generalizing b with
  | nil => left; exact ⟨rfl, by simp⟩
  | cons a l ih =>
    rw [List.foldl_cons]
    by_cases h : (sc a).1 < c.thr ∧ (sc a).1 < b.score
    · have hb : take c sc b a = ⟨(sc a).1, (sc a).2, some a⟩ := by unfold take; rw [if_pos h]
      rw [hb]
      right
      rcases ih ⟨(sc a).1, (sc a).2, some a⟩ with ⟨h1, h2⟩ | ⟨o, ho, h1, h2, h3, h4⟩
      · refine ⟨a, List.mem_cons_self .., h1, h.1, h.2, ?_⟩
        intro o' ho'
        rcases List.mem_cons.1 ho' with rfl | ho'
        · exact le_refl _
        · have := h2 o' ho'
          by_contra hc
          exact this ⟨(not_le.1 hc).trans h.1, not_le.1 hc⟩
      · refine ⟨o, List.mem_cons_of_mem _ ho, h1, h2, h3.trans h.2, ?_⟩
        intro o' ho'
        rcases List.mem_cons.1 ho' with rfl | ho'
        · exact h3.le
        · exact h4 o' ho'
    · have hb : take c sc b a = b := by unfold take; rw [if_neg h]
      rw [hb]
      rcases ih b with ⟨h1, h2⟩ | ⟨o, ho, h1, h2, h3, h4⟩
      · left
        refine ⟨h1, ?_⟩
        intro o ho
        rcases List.mem_cons.1 ho with rfl | ho
        · exact h
        · exact h2 o ho
      · right
        refine ⟨o, List.mem_cons_of_mem _ ho, h1, h2, h3, ?_⟩
        intro o' ho'
        rcases List.mem_cons.1 ho' with rfl | ho'
        · by_contra hc
          have hc := not_le.1 hc
          exact h ⟨hc.trans h2, hc.trans h3⟩
        · exact h4 o' ho'

theorem take_congr (c : Cfg) (sc sc' : Opt → ℚ × ℚ) (l : List Opt) (h : ∀ o ∈ l, sc o = sc' o) (b : Best) :
    l.foldl (take c sc) b = l.foldl (take c sc') b := by
  induction l generalizing b with
  | nil => rfl
  | cons a l ih =>
    rw [List.foldl_cons, List.foldl_cons]
    have : take c sc b a = take c sc' b a := by unfold take; rw [h a (List.mem_cons_self ..)]
    rw [this, ih (fun o ho => h o (List.mem_cons_of_mem _ ho))]

/-- C217: the partner chosen for a track is a candidate with a score below the threshold, and no candidate has a smaller
one; if none is chosen, no candidate has a score below the threshold and 99999. -/
theorem C217_best_partner (E : Env) (c : Cfg) (ts : List Trk) (t : Nat) :
    ((select E c ts t).opt = none ∧ ∀ o, Candidate E c ts t o →
      c.thr ≤ (optScore E c ts t o).1 ∨ 99999 ≤ (optScore E c ts t o).1) ∨
    ∃ o, select E c ts t = ⟨(optScore E c ts t o).1, (optScore E c ts t o).2, some o⟩ ∧ Candidate E c ts t o ∧
      (optScore E c ts t o).1 < c.thr ∧ (optScore E c ts t o).1 < 99999 ∧
      ∀ o', Candidate E c ts t o' → (optScore E c ts t o).1 ≤ (optScore E c ts t o').1 := by
  unfold select
  cases ht : ts[t]? with
  | none =>
    left
    refine ⟨rfl, ?_⟩
    rintro o ⟨t1, _, h, _⟩
    rw [ht] at h; cases h
  | some t1 =>
    dsimp only
    by_cases hl : t1.nodes.length < minLen c
    · rw [if_pos hl]
      left
      refine ⟨rfl, ?_⟩
      rintro o ⟨t1', _, h, _, _, h1, h2, _⟩
      rw [ht] at h; cases h
      exact absurd hl ((minLen_le c _).2 ⟨h1, h2⟩)
    · rw [if_neg hl]
      have hcongr : ∀ o, scoreFor E c ts t1 o = optScore E c ts t o := by
        intro o
        unfold optScore scoreFor
        rw [ht]
        cases ts[o.u]? <;> rfl
      rw [take_congr c _ (optScore E c ts t) _ (fun o _ => hcongr o)]
      have hm := mem_tried E c ts t t1 ht hl
      rcases take_fold c (optScore E c ts t) (tried E c ts t t1) ⟨99999, 0, none⟩ with
        ⟨h1, h2⟩ | ⟨o, ho, h1, h2, h3, h4⟩
      · left
        rw [h1]
        refine ⟨rfl, ?_⟩
        intro o ho
        have := h2 o ((hm o).2 ho)
        by_contra hc
        push Not at hc
        exact this hc
      · right
        exact ⟨o, h1, (hm o).1 ho, h2, h3, fun o' ho' => h4 o' ((hm o').2 ho')⟩

/-- the nodes of a track, from the end given -/
def fromEnd (t : Trk) (front : Bool) : List V := if front then t.nodes else t.nodes.reverse
/-- the TPC of an end -/
def endTpc (t : Trk) (front : Bool) : Nat := match front with | true => t.frontTpc | false => t.backTpc

theorem at_fromEnd (t : Trk) (i : Nat) (hi : i < t.nodes.length) :
    (fromEnd t true)[i]? = some (t.at i) ∧ (fromEnd t false)[i]? = some (t.at (t.nodes.length - 1 - i)) := by
  unfold fromEnd Trk.at
  constructor
  · rw [if_pos rfl, List.getD_eq_getElem?_getD, List.getElem?_eq_getElem hi]; rfl
  · rw [if_neg (by simp), List.getElem?_reverse hi, List.getD_eq_getElem?_getD,
      List.getElem?_eq_getElem (by omega)]; rfl

/-- C217: the score of a candidate is that of the nodes `fNodesFromEnd` away from the two ends, with the directions from
the next inner nodes to them; the first guess of the shift is the distance of the end of the first track from the surface
of its TPC, and the surfaces of the TPCs of the two ends are within 10 cm. -/
theorem C217_score_ends (E : Env) (c : Cfg) (ts : List Trk) (t : Nat) (o : Opt) (h : Candidate E c ts t o) :
    ∃ t1 t2 a0 a a' b b', ts[t]? = some t1 ∧ ts[o.u]? = some t2 ∧
      (fromEnd t1 o.front1)[0]? = some a0 ∧ (fromEnd t1 o.front1)[c.skip]? = some a ∧
      (fromEnd t1 o.front1)[c.skip + 1]? = some a' ∧
      (fromEnd t2 o.front2)[c.skip]? = some b ∧ (fromEnd t2 o.front2)[c.skip + 1]? = some b' ∧
      optScore E c ts t o = optimal E a b (E.unit (sub a a')) (E.unit (sub b b')) (a0.1 - c.off (endTpc t1 o.front1)) ∧
      |c.off (endTpc t1 o.front1) - c.off (endTpc t2 o.front2)| ≤ 10 ∧
      (E.unit (sub a a')).1 * (E.unit (sub b b')).1 ≤ 0 := by
  obtain ⟨t1, t2, h1, h2, _, h3, h4, h5, h6, _, h7, h8⟩ := h
  have hd : ∀ (t : Trk) (f : Bool), 2 * c.skip + 3 ≤ t.nodes.length →
      ∃ a', (fromEnd t f)[c.skip]? = some (pos c t f) ∧ (fromEnd t f)[c.skip + 1]? = some a' ∧
        dir E c t f = E.unit (sub (pos c t f) a') ∧ surface c t f = c.off (endTpc t f) := by
    intro t f hl
    obtain ⟨k1, k2⟩ := at_fromEnd t c.skip (by omega)
    obtain ⟨k3, k4⟩ := at_fromEnd t (c.skip + 1) (by omega)
    cases f
    · exact ⟨_, k2, k4, rfl, rfl⟩
    · exact ⟨_, k1, k3, rfl, rfl⟩
  obtain ⟨a', ka, ka', kd, ks⟩ := hd t1 o.front1 h4
  obtain ⟨b', kb, kb', kd', ks'⟩ := hd t2 o.front2 h6
  obtain ⟨z1, z2⟩ := at_fromEnd t1 0 (by omega)
  have hz : (fromEnd t1 o.front1)[0]? = some (if o.front1 then t1.at 0 else t1.at (t1.nodes.length - 1)) := by
    cases o.front1
    · exact z2
    · exact z1
  refine ⟨t1, t2, _, _, a', _, b', h1, h2, hz, ka, ka', kb, kb', ?_, ?_, ?_⟩
  · have e : optScore E c ts t o = scored E c t1 t2 o := by unfold optScore; rw [h1, h2]
    rw [e]
    unfold scored endShift
    rw [kd, kd', ks]
  · rw [← ks, ← ks']; exact h7
  · rw [← kd, ← kd']; exact h8

/-- the end of a track -/
def endNode (t : Trk) (front : Bool) : V := if front then t.at 0 else t.at (t.nodes.length - 1)

/-- C217 (partial: the first track of the pair only): shifted by the amount found, the matched end of the first track is
within 5 cm of its surface. -/
theorem C217_first_at_surface_partial (E : Env) (c : Cfg) (ts : List Trk) (t : Nat) (o : Opt) (t1 : Trk)
    (h : (select E c ts t).opt = some o) (ht : ts[t]? = some t1) :
    |(endNode t1 o.front1).1 - (select E c ts t).shift - surface c t1 o.front1| ≤ 5 := by
  rcases C217_best_partner E c ts t with ⟨h1, _⟩ | ⟨o', h1, ⟨a, b, ha, hb, _⟩, _, h3, _⟩
  · rw [h1] at h; cases h
  · rw [h1] at h
    have := Option.some.inj h
    subst this
    rw [h1]
    dsimp only
    rw [ht] at ha
    cases ha
    have e : optScore E c ts t o' = scored E c t1 b o' := by unfold optScore; rw [ht, hb]
    rw [e] at h3 ⊢
    have := C216_within E _ _ _ _ _ h3
    unfold endShift at this
    unfold scored
    have hs : ∀ (x s0 e f : ℚ), |x - (e - f)| ≤ 5 → |e - x - f| ≤ 5 := by
      intro x s0 e f h
      have : e - x - f = -(x - (e - f)) := by ring
      rw [this, abs_neg]; exact h
    exact hs _ 0 _ _ this

/-- two straight tracks along X: the first one from -100 to 0, where its cathode is; the second one, of another TPC with
the cathode at 0 too, from 300 to 400 -/
def far : List Trk :=
  [⟨[(-100, 0, 0), (-80, 0, 0), (-60, 0, 0), (-40, 0, 0), (-20, 0, 0), (0, 0, 0)], 0, 0⟩,
   ⟨[(300, 0, 0), (320, 0, 0), (340, 0, 0), (360, 0, 0), (380, 0, 0), (400, 0, 0)], 1, 1⟩]

/-- C217: the matched end of the second track should be at the surface as well. Nothing tests it: a track 300 cm away is
stitched. -/
theorem C217_second_at_surface_refuted :
    ∃ (E : Env) (c : Cfg) (ts : List Trk) (o : Opt) (t2 : Trk), Norm E ∧ (select E c ts 0).opt = some o ∧
      ts[o.u]? = some t2 ∧ (endNode t2 o.front2).1 + (select E c ts 0).shift - surface c t2 o.front2 = 295 := by
  refine ⟨l1, ⟨1, 25, fun _ => 0⟩, far, ⟨1, true, false⟩, _, l1_norm, ?_, rfl, ?_⟩
  · decide +kernel
  · decide +kernel

example : Candidate l1 ⟨1, 25, fun _ => 0⟩ far 0 ⟨1, true, false⟩ :=
  ⟨_, _, rfl, rfl, by decide, by decide, by decide, by decide, by decide, by decide, by decide +kernel, by decide +kernel⟩

/-- C217: the directions at the matched ends should point towards each other. Only their opposite signs are tested: here the
end of the first track at -80 points towards lower X, and the end of the second track, at 380, towards higher X. -/
theorem C217_directions_refuted :
    ∃ (E : Env) (c : Cfg) (ts : List Trk) (o : Opt) (t1 t2 : Trk), Norm E ∧ (select E c ts 0).opt = some o ∧
      ts[0]? = some t1 ∧ ts[o.u]? = some t2 ∧ (pos c t1 o.front1).1 < (pos c t2 o.front2).1 ∧
      (dir E c t1 o.front1).1 < 0 ∧ 0 < (dir E c t2 o.front2).1 := by
  refine ⟨l1, ⟨1, 25, fun _ => 0⟩, far, ⟨1, true, false⟩, _, _, l1_norm, ?_, rfl, rfl, ?_, ?_, ?_⟩ <;> decide +kernel

/-! ### Joining -/

/-- C218: in the merged track the two matched ends are neighbours, and each track keeps its order up to reversal. -/
theorem C218_ends_meet {α : Type} (front1 front2 : Bool) (n1 n2 : List α) :
    ∃ a b, joined front1 front2 n1 n2 = a ++ b ∧
      ((a = n1 ∨ a = n1.reverse) ∧ (b = n2 ∨ b = n2.reverse) ∧
          a.getLast? = (if front1 then n1.head? else n1.getLast?) ∧
          b.head? = (if front2 then n2.head? else n2.getLast?) ∨
       (a = n2 ∨ a = n2.reverse) ∧ (b = n1 ∨ b = n1.reverse) ∧
          a.getLast? = (if front2 then n2.head? else n2.getLast?) ∧
          b.head? = (if front1 then n1.head? else n1.getLast?)) := by
  cases front1 <;> cases front2
  · exact ⟨n1, n2.reverse, rfl, Or.inl ⟨Or.inl rfl, Or.inr rfl, rfl, by simp⟩⟩
  · exact ⟨n1, n2, rfl, Or.inl ⟨Or.inl rfl, Or.inl rfl, rfl, rfl⟩⟩
  · exact ⟨n2, n1, rfl, Or.inr ⟨Or.inl rfl, Or.inl rfl, rfl, rfl⟩⟩
  · exact ⟨n1.reverse, n2, rfl, Or.inl ⟨Or.inr rfl, Or.inl rfl, by simp, rfl⟩⟩

example : joined true true [1, 2, 3] [4, 5] = [3, 2, 1, 4, 5] := rfl
example : joined true false [1, 2, 3] [4, 5] = [4, 5, 1, 2, 3] := rfl

open Verif.PMAlg.Tree in
/-- C218: the two tracks should move towards each other. If both belong to the same tree, the two shifts cancel: no node
moves, but every track of the tree that was never shifted is given the T0 zero, as a measured one. -/
theorem C218_same_tree_refuted {g : Graph} {T : List Nat} (hF : Forest g T) {t v0 : Nat} (ht : t ∈ T)
    (h0 : front g t = some v0) (hp : g.prev v0 = none) (coef tick : ℚ) (posD : Nat → Bool) (x : ℚ) :
    ∃ N, ∀ f, N ≤ f → ∀ s : Sh, (∀ v, s.off v = 0) → ∃ s',
      (shift g coef tick posD (-x) f s t).bind (fun s' => shift g coef tick posD x f s' t) = some s' ∧
      s'.x = s.x ∧ s'.hit = s.hit ∧ ∀ u, InTree g T t u → s'.t0 u = some 0 := by
  obtain ⟨N1, h1⟩ := C214_shifts_add hF ht h0 hp coef tick posD (-x) x
  obtain ⟨N2, h2⟩ := C211_shift hF ht h0 hp coef tick posD 0
  refine ⟨max N1 N2, fun f hf s hs => ?_⟩
  obtain ⟨s', a, b, c, d, e⟩ := h2 f (by omega) s
  have h1 := h1 f (by omega) s
  rw [neg_add_cancel] at h1
  refine ⟨s', h1.trans a, ?_, ?_, ?_⟩
  · funext v
    by_cases hv : NodeInTree g T t v
    · rw [(b v hv).1, add_zero]
    · exact (c v hv).1
  · funext u
    by_cases hu : InTree g T t u
    · obtain ⟨v, w, _, _, hv⟩ := hF.front_some hu.1
      rw [(d u v hu hv).1, add_zero]
    · exact (e u hu).1
  · intro u hu
    obtain ⟨v, w, _, _, hv⟩ := hF.front_some hu.1
    rw [(d u v hu hv).2, hs v]
    simp

open Verif.PMAlg.Tree in
example : Forest exG [0, 1, 2, 3, 4] ∧ front exG 0 = some 0 ∧ exG.prev 0 = none := ⟨exG_forest, rfl, rfl⟩

/-! ### The outer loop -/

/-- C219 (partial: if no flip adds tracks): the loop ends after at most as many rounds as there are tracks. -/
theorem C219_rounds_partial (out : Nat → Round) (hout : ∀ i, out i = .next 0 ∨ out i = .merged 0) (n : Nat) :
    ∃ r ≤ n, ∀ f, n < f → rounds out f (0, n) 0 = some r := by
  have key : ∀ m (s : Nat × Nat) (i : Nat), s.2 - s.1 = m → ∃ r ≤ i + m, ∀ f, m < f → rounds out f s i = some r := by
    intro m
    induction m with
    | zero =>
      intro s i hm
      refine ⟨i, le_refl _, ?_⟩
      intro f hf
      obtain ⟨f, rfl⟩ : ∃ f', f = f' + 1 := ⟨f - 1, by omega⟩
      unfold rounds
      rw [if_neg (by omega)]
    | succ m ih =>
      intro s i hm
      have hnext : (advance s (out i)).2 - (advance s (out i)).1 = m := by
        rcases hout i with h | h <;> rw [h] <;> simp only [advance] <;> omega
      obtain ⟨r, hr, h⟩ := ih (advance s (out i)) (i + 1) hnext
      refine ⟨r, by omega, ?_⟩
      intro f hf
      obtain ⟨f, rfl⟩ : ∃ f', f = f' + 1 := ⟨f - 1, by omega⟩
      unfold rounds
      rw [if_pos (by omega)]
      exact h f (by omega)
  obtain ⟨r, hr, h⟩ := key n (0, n) 0 (by simp)
  exact ⟨r, by omega, h⟩

example : rounds (fun i => if i = 1 then .merged 0 else .next 0) 10 (0, 3) 0 = some 3 := by decide

/-! ### The surfaces -/

/-- C220: the cathode is the face of the TPC in X that is farther from the anode; with the anode at one face it is the
other face. -/
theorem C220_cathode (center half anode : ℚ) :
    (cathode center half anode = center - half ∨ cathode center half anode = center + half) ∧
      |center - half - anode| ≤ |cathode center half anode - anode| ∧
      |center + half - anode| ≤ |cathode center half anode - anode| ∧
      (0 < half → anode = center - half → cathode center half anode = center + half) ∧
      (0 < half → anode = center + half → cathode center half anode = center - half) := by
  unfold cathode
  dsimp only
  refine ⟨?_, ?_, ?_, ?_, ?_⟩
  · split
    · exact Or.inl rfl
    · exact Or.inr rfl
  · split
    · exact le_refl _
    · rename_i h; exact not_lt.1 h
  · split
    · rename_i h; exact h.le
    · exact le_refl _
  · rintro h rfl
    rw [if_neg]
    rw [sub_self, abs_zero, not_lt]
    exact abs_nonneg _
  · rintro h rfl
    rw [if_pos]
    rw [sub_self, abs_zero]
    have : center - half - (center + half) = -(2 * half) := by ring
    rw [this, abs_neg]
    exact abs_pos.2 (by linarith)

/-- C220: the offset asked for is the one of the TPC, cathode or anode; a TPC without a readout plane should have none,
but the number 0 is returned. -/
theorem C220_lookup (tpcs : List (ℚ × ℚ × Option ℚ)) (i : Nat) (c h : ℚ) :
    (∀ a, tpcs[i]? = some (c, h, some a) → tpcOffset tpcs true i = cathode c h a ∧ tpcOffset tpcs false i = a) ∧
      (tpcs[i]? = some (c, h, none) → ∀ b, tpcOffset tpcs b i = 0) := by
  unfold tpcOffset offsets
  refine ⟨fun a ha => ?_, fun hn b => ?_⟩
  · rw [List.getElem?_map, ha]
    exact ⟨rfl, rfl⟩
  · rw [List.getElem?_map, hn]
    rfl

example : tpcOffset [(100, 50, some 50), (-100, 50, some (-50)), (0, 1, none)] true 0 = 150 := by decide +kernel

end Verif.PmaStitch

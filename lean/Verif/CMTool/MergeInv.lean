import Verif.CMTool.MergeProofs
import Verif.CMTool.MergeSpec
/-! Invariant of `CMergeBookKeeper` and its preservation. -/
namespace Verif.CMTool
open Verif
namespace BK
open Exec

/-- label of an index (0 when absent) -/
def lab (s : BK) (i : Nat) : Nat := s.labels[i]?.getD 0

/-! ### Conn -/
theorem conn_refl (M) (i : Nat) : Conn M i i := Relation.EqvGen.refl i
theorem conn_symm {M} {i j : Nat} (h : Conn M i j) : Conn M j i := Relation.EqvGen.symm _ _ h
theorem conn_trans {M} {i j k : Nat} (h : Conn M i j) (h' : Conn M j k) : Conn M i k :=
  Relation.EqvGen.trans _ _ _ h h'
theorem conn_mono {M M' : List (Nat × Nat)} (h : ∀ p ∈ M, p ∈ M') {i j : Nat} (c : Conn M i j) :
    Conn M' i j := by
  induction c with
  | rel a b hab => exact Relation.EqvGen.rel _ _ (h _ hab)
  | refl => exact conn_refl _ _
  | symm _ _ _ ih => exact conn_symm ih
  | trans _ _ _ _ _ ih1 ih2 => exact conn_trans ih1 ih2

theorem conn_cons {M} {i j p q : Nat} :
    Conn ((i, j) :: M) p q ↔
      Conn M p q ∨ (Conn M p i ∧ Conn M j q) ∨ (Conn M p j ∧ Conn M i q) := by
  constructor
  · intro h
    induction h with
    | rel a b hab =>
      simp only [List.mem_cons, Prod.mk.injEq] at hab
      rcases hab with ⟨rfl, rfl⟩ | hab
      · exact .inr (.inl ⟨conn_refl _ _, conn_refl _ _⟩)
      · exact .inl (Relation.EqvGen.rel _ _ hab)
    | refl a => exact .inl (conn_refl _ _)
    | symm a b _ ih =>
      rcases ih with h | ⟨h1, h2⟩ | ⟨h1, h2⟩
      · exact .inl (conn_symm h)
      · exact .inr (.inr ⟨conn_symm h2, conn_symm h1⟩)
      · exact .inr (.inl ⟨conn_symm h2, conn_symm h1⟩)
    | trans a b c _ _ ih1 ih2 =>
      rcases ih1 with h | ⟨h1, h2⟩ | ⟨h1, h2⟩ <;> rcases ih2 with g | ⟨g1, g2⟩ | ⟨g1, g2⟩
      · exact .inl (conn_trans h g)
      · exact .inr (.inl ⟨conn_trans h g1, g2⟩)
      · exact .inr (.inr ⟨conn_trans h g1, g2⟩)
      · exact .inr (.inl ⟨h1, conn_trans h2 g⟩)
      · exact .inr (.inl ⟨h1, g2⟩)
      · exact .inl (conn_trans h1 g2)
      · exact .inr (.inr ⟨h1, conn_trans h2 g⟩)
      · exact .inl (conn_trans h1 g2)
      · exact .inr (.inr ⟨h1, g2⟩)
  · have hm : ∀ x ∈ M, x ∈ (i, j) :: M := fun x hx => List.mem_cons_of_mem _ hx
    have hij : Conn ((i, j) :: M) i j := Relation.EqvGen.rel _ _ (by simp)
    rintro (h | ⟨h1, h2⟩ | ⟨h1, h2⟩)
    · exact conn_mono hm h
    · exact conn_trans (conn_mono hm h1) (conn_trans hij (conn_mono hm h2))
    · exact conn_trans (conn_mono hm h1) (conn_trans (conn_symm hij) (conn_mono hm h2))

/-! ### Labels -/
theorem relabel_eq_iff {o1 o2 x y : Nat} (h : o1 < o2) :
    relabel o1 o2 x = relabel o1 o2 y ↔ x = y ∨ ((x = o1 ∨ x = o2) ∧ (y = o1 ∨ y = o2)) := by
  unfold relabel; split <;> split <;> (try split) <;> (try split) <;> omega

theorem relabel_eq {o1 o2 x a : Nat} (h : o1 < o2) :
    relabel o1 o2 x = a ↔ x = (if a < o2 then a else a + 1) ∨ (a = o1 ∧ x = o2) := by
  unfold relabel; repeat' split
  all_goals omega

theorem lab_map {s : BK} {f : Nat → Nat} {i : Nat} (hi : i < s.labels.length) :
    (s.labels.map f)[i]?.getD 0 = f (lab s i) := by
  simp [lab, hi]

/-- The invariant linking the stored state to the history. -/
structure Inv (n : Nat) (M P : List (Nat × Nat)) (s : BK) : Prop where
  shape : Shape n s
  len : s.labels.length = n
  cnt_le : s.cnt ≤ n
  lt : ∀ i, i < n → lab s i < s.cnt
  surj : ∀ k, k < s.cnt → ∃ i, i < n ∧ lab s i = k
  rg : ∀ i, i < n → ∀ k, k < lab s i → ∃ j, j < i ∧ lab s j = k
  eqv : ∀ i j, i < n → j < n → (lab s i = lab s j ↔ Conn M i j)
  mRange : ∀ p ∈ M, p.1 < n ∧ p.2 < n
  pRange : ∀ p ∈ P, p.1 < n ∧ p.2 < n
  proh : ∀ a b, a < b → b < s.cnt → (cell s a (b - a) = true ↔
    ∃ p ∈ P, (lab s p.1 = a ∧ lab s p.2 = b) ∨ (lab s p.1 = b ∧ lab s p.2 = a))
  sep : ∀ p ∈ P, lab s p.1 ≠ lab s p.2

theorem conn_nil {i j : Nat} : Conn [] i j ↔ i = j := by
  constructor
  · intro h
    induction h with
    | rel a b h => simp at h
    | refl => rfl
    | symm _ _ _ ih => exact ih.symm
    | trans _ _ _ _ _ h1 h2 => exact h1.trans h2
  · rintro rfl; exact conn_refl _ _

theorem inv_reset (n : Nat) : Inv n [] [] (reset n) := by
  have hl : ∀ i, i < n → lab (reset n) i = i := by intro i hi; simp [lab, reset, hi]
  refine ⟨shape_reset n, by simp [reset], by simp [reset], ?_, ?_, ?_, ?_, by simp, by simp, ?_, by simp⟩
  · intro i hi; rw [hl i hi]; exact hi
  · intro k hk; exact ⟨k, hk, hl k hk⟩
  · intro i hi k hk; rw [hl i hi] at hk; exact ⟨k, hk, hl k (by omega)⟩
  · intro i j hi hj; rw [hl i hi, hl j hj, conn_nil]
  · intro a b _ _; simp [cell_reset]

theorem labelAt_ok {n M P s} (h : Inv n M P s) {i : Nat} (hi : i < n) :
    labelAt i s = (.ok (lab s i), s) := by
  have : i < s.labels.length := by rw [h.len]; exact hi
  simp [labelAt, lab, List.getElem?_eq_getElem this]

theorem checkArgs_ok {n M P s} (h : Inv n M P s) {i j : Nat} (hij : i ≠ j) (hi : i < n) (hj : j < n) :
    checkArgs i j s = (.ok (), s) := by
  have : ¬ (i ≥ s.labels.length ∨ j ≥ s.labels.length) := by rw [h.len]; omega
  simp only [checkArgs, hij, if_false, Bind.bind, Exec.bind, Exec.get, Pure.pure, Exec.pure, this]

theorem checkArgs_bad {n M P s} (h : Inv n M P s) {i j : Nat} (hb : ¬ (i ≠ j ∧ i < n ∧ j < n)) :
    checkArgs i j s = (.throw, s) := by
  by_cases hij : i = j
  · simp only [checkArgs, hij, if_true, Bind.bind, Exec.bind, Exec.raise]
  · have : (i ≥ s.labels.length ∨ j ≥ s.labels.length) := by rw [h.len]; omega
    simp only [checkArgs, hij, if_false, Bind.bind, Exec.bind, Exec.get, Pure.pure, Exec.pure, this,
      if_true, Exec.raise]

/-- `prohibitMerge`, all cases -/
theorem prohibit_bad {n M P s} (h : Inv n M P s) {i j : Nat}
    (hb : ¬ (i ≠ j ∧ i < n ∧ j < n)) : prohibitMerge i j s = (.throw, s) := by
  simp only [prohibitMerge, Bind.bind, Exec.bind, checkArgs_bad h hb]

theorem prohibit_same {n M P s} (h : Inv n M P s) {i j : Nat}
    (hij : i ≠ j) (hi : i < n) (hj : j < n) (he : lab s i = lab s j) :
    prohibitMerge i j s = (.throw, s) := by
  simp only [prohibitMerge, Bind.bind, Exec.bind, checkArgs_ok h hij hi hj, labelAt_ok h hi,
    labelAt_ok h hj, he, if_true, Exec.raise]

theorem prohibit_ok {n M P s} (h : Inv n M P s) {i j : Nat}
    (hij : i ≠ j) (hi : i < n) (hj : j < n) (he : lab s i ≠ lab s j) :
    ∃ s', prohibitMerge i j s = (.ok (), s') ∧ Inv n M ((i, j) :: P) s' ∧ s'.labels = s.labels
      ∧ s'.cnt = s.cnt := by
  have hli := h.lt i hi
  have hlj := h.lt j hj
  have hcn := h.cnt_le
  obtain ⟨s', e, g1, g2, g3, g4⟩ := tabSet_ok h.shape (i := min (lab s i) (lab s j))
    (j := max (lab s i) (lab s j) - min (lab s i) (lab s j)) true (by omega) (by omega)
  have hl : ∀ k, lab s' k = lab s k := by intro k; simp [lab, g2]
  refine ⟨s', ?_, ?_, g2, g3⟩
  · simp only [prohibitMerge, Bind.bind, Exec.bind, checkArgs_ok h hij hi hj, labelAt_ok h hi,
      labelAt_ok h hj, he, if_false, Pure.pure, Exec.pure]
    exact e
  · refine ⟨g1, by rw [g2]; exact h.len, by rw [g3]; exact hcn, ?_, ?_, ?_, ?_, h.mRange, ?_, ?_, ?_⟩
    · intro k hk; rw [hl, g3]; exact h.lt k hk
    · intro k hk; rw [g3] at hk; obtain ⟨x, hx⟩ := h.surj k hk; exact ⟨x, by rw [hl]; exact hx⟩
    · intro x hx k hk; rw [hl] at hk; obtain ⟨y, hy⟩ := h.rg x hx k hk; exact ⟨y, by rw [hl]; exact hy⟩
    · intro x y hx hy; rw [hl, hl]; exact h.eqv x y hx hy
    · intro p hp
      rcases List.mem_cons.1 hp with rfl | hp
      · exact ⟨hi, hj⟩
      · exact h.pRange p hp
    · intro a b hab hb
      rw [g3] at hb
      rw [g4]
      simp only [hl]
      have hp := h.proh a b hab hb
      constructor
      · intro hc
        split at hc
        · refine ⟨(i, j), by simp, ?_⟩
          dsimp only; omega
        · obtain ⟨p, hp1, hp2⟩ := hp.1 hc
          exact ⟨p, List.mem_cons_of_mem _ hp1, hp2⟩
      · rintro ⟨p, hp1, hp2⟩
        rcases List.mem_cons.1 hp1 with rfl | hp1
        · rw [if_pos]; dsimp only at hp2; omega
        · split
          · rfl
          · exact hp.2 ⟨p, hp1, hp2⟩
    · intro p hp
      rw [hl, hl]
      rcases List.mem_cons.1 hp with rfl | hp
      · exact he
      · exact h.sep p hp

theorem merge_bad {n M P s} (h : Inv n M P s) {i j : Nat}
    (hb : ¬ (i ≠ j ∧ i < n ∧ j < n)) : merge i j s = (.throw, s) := by
  simp only [merge, Bind.bind, Exec.bind, checkArgs_bad h hb]

theorem merge_same {n M P s} (h : Inv n M P s) {i j : Nat}
    (hij : i ≠ j) (hi : i < n) (hj : j < n) (he : lab s i = lab s j) :
    merge i j s = (.ok (), s) := by
  simp only [merge, Bind.bind, Exec.bind, checkArgs_ok h hij hi hj, labelAt_ok h hi,
    labelAt_ok h hj, he, if_true, Pure.pure, Exec.pure]

theorem merge_barred {n M P s} (h : Inv n M P s) {i j : Nat}
    (hij : i ≠ j) (hi : i < n) (hj : j < n) (he : lab s i ≠ lab s j)
    (hc : cell s (min (lab s i) (lab s j)) (max (lab s i) (lab s j) - min (lab s i) (lab s j)) = true) :
    merge i j s = (.throw, s) := by
  have hli := h.lt i hi
  have hlj := h.lt j hj
  have hcn := h.cnt_le
  simp only [merge, Bind.bind, Exec.bind, checkArgs_ok h hij hi hj, labelAt_ok h hi,
    labelAt_ok h hj, he, if_false, Pure.pure, Exec.pure,
    tabGet_ok h.shape (i := min (lab s i) (lab s j))
    (j := max (lab s i) (lab s j) - min (lab s i) (lab s j)) (by omega) (by omega), hc, if_true, Exec.raise]

theorem merge_ok {n M P s} (h : Inv n M P s) {i j : Nat}
    (hij : i ≠ j) (hi : i < n) (hj : j < n) (he : lab s i ≠ lab s j)
    (hc : cell s (min (lab s i) (lab s j)) (max (lab s i) (lab s j) - min (lab s i) (lab s j)) = false) :
    ∃ s', merge i j s = (.ok (), s') ∧ Inv n ((i, j) :: M) P s' ∧
      (∀ k, k < n → lab s' k = relabel (min (lab s i) (lab s j)) (max (lab s i) (lab s j)) (lab s k))
      ∧ s'.cnt + 1 = s.cnt := by
  have hli := h.lt i hi
  have hlj := h.lt j hj
  have hcn := h.cnt_le
  generalize ho1 : min (lab s i) (lab s j) = o1 at *
  generalize ho2 : max (lab s i) (lab s j) = o2 at *
  have h12 : o1 < o2 := by omega
  have h2c : o2 < s.cnt := by omega
  obtain ⟨s', e, g1, g2, g3, g4⟩ := mergeBody_spec h.shape hcn h12 h2c
  have hl : ∀ k, k < n → lab s' k = relabel o1 o2 (lab s k) := by
    intro k hk
    unfold lab; rw [g2]
    exact lab_map (by rw [h.len]; exact hk)
  have hlr : ∀ k, k < n → ∀ a, lab s' k = a ↔ lab s k = (if a < o2 then a else a + 1) ∨ (a = o1 ∧ lab s k = o2) := by
    intro k hk a; rw [hl k hk, relabel_eq h12]
  refine ⟨s', ?_, ?_, hl, by omega⟩
  · simp only [merge, Bind.bind, Exec.bind, checkArgs_ok h hij hi hj, labelAt_ok h hi,
      labelAt_ok h hj, he, if_false, Pure.pure, Exec.pure, ho1, ho2,
      tabGet_ok h.shape (i := o1) (j := o2 - o1) (by omega) (by omega), hc]
    exact e
  · refine ⟨g1, by rw [g2]; simpa using h.len, by omega, ?_, ?_, ?_, ?_, ?_, h.pRange, ?_, ?_⟩
    · intro k hk
      have := h.lt k hk
      have h3 := (hlr k hk _).1 rfl
      rcases h3 with h3 | ⟨h3, h4⟩
      · split at h3 <;> omega
      · omega
    · intro k hk
      obtain ⟨x, hx, hx'⟩ := h.surj (if k < o2 then k else k + 1) (by split <;> omega)
      exact ⟨x, hx, (hlr x hx k).2 (.inl hx')⟩
    · intro x hx k hk
      have h3 := (hlr x hx _).1 rfl
      have : (if k < o2 then k else k + 1) < lab s x := by
        rcases h3 with h3 | ⟨h3, h4⟩
        · split at h3 <;> split <;> omega
        · split <;> omega
      obtain ⟨y, hy, hy'⟩ := h.rg x hx _ this
      exact ⟨y, hy, (hlr y (by omega) k).2 (.inl hy')⟩
    · intro x y hx hy
      rw [hl x hx, hl y hy, relabel_eq_iff h12, conn_cons]
      rw [← h.eqv x y hx hy, ← h.eqv x i hx hi, ← h.eqv j y hj hy, ← h.eqv x j hx hj, ← h.eqv i y hi hy]
      omega
    · intro p hp
      rcases List.mem_cons.1 hp with rfl | hp
      · exact ⟨hi, hj⟩
      · exact h.mRange p hp
    · intro a b hab hb
      have hb' : b < s.cnt - 1 := by omega
      rw [g4 a (b - a) (by omega) (by omega)]
      have hpr : ∀ p ∈ P, ∀ a b, ((lab s' p.1 = a ∧ lab s' p.2 = b) ∨ (lab s' p.1 = b ∧ lab s' p.2 = a)) ↔
          ((lab s p.1 = (if a < o2 then a else a + 1) ∨ (a = o1 ∧ lab s p.1 = o2)) ∧
           (lab s p.2 = (if b < o2 then b else b + 1) ∨ (b = o1 ∧ lab s p.2 = o2))) ∨
          ((lab s p.1 = (if b < o2 then b else b + 1) ∨ (b = o1 ∧ lab s p.1 = o2)) ∧
           (lab s p.2 = (if a < o2 then a else a + 1) ∨ (a = o1 ∧ lab s p.2 = o2))) := by
        intro p hp a b
        have := h.pRange p hp
        rw [hlr _ this.1, hlr _ this.2, hlr _ this.1, hlr _ this.2]
      -- both sides as statements about old cells
      have old : ∀ a b, a < b → b < s.cnt → ∀ j, j = b - a → (cell s a j = true ↔
        ∃ p ∈ P, (lab s p.1 = a ∧ lab s p.2 = b) ∨ (lab s p.1 = b ∧ lab s p.2 = a)) :=
        fun a b h1 h2 j hj => by rw [hj]; exact h.proh a b h1 h2
      have step : (∃ p ∈ P, (lab s' p.1 = a ∧ lab s' p.2 = b) ∨ (lab s' p.1 = b ∧ lab s' p.2 = a)) ↔
        (∃ p ∈ P, (lab s p.1 = (if a < o2 then a else a + 1) ∧ lab s p.2 = (if b < o2 then b else b + 1)) ∨
          (lab s p.1 = (if b < o2 then b else b + 1) ∧ lab s p.2 = (if a < o2 then a else a + 1))) ∨
        (a = o1 ∧ ∃ p ∈ P, (lab s p.1 = o2 ∧ lab s p.2 = (if b < o2 then b else b + 1)) ∨
          (lab s p.1 = (if b < o2 then b else b + 1) ∧ lab s p.2 = o2)) ∨
        (b = o1 ∧ ∃ p ∈ P, (lab s p.1 = o2 ∧ lab s p.2 = (if a < o2 then a else a + 1)) ∨
          (lab s p.1 = (if a < o2 then a else a + 1) ∧ lab s p.2 = o2)) := by
        constructor
        · rintro ⟨p, hp, hx⟩
          rw [hpr p hp] at hx
          rcases hx with ⟨h1 | ⟨h1, h1'⟩, h2 | ⟨h2, h2'⟩⟩ | ⟨h1 | ⟨h1, h1'⟩, h2 | ⟨h2, h2'⟩⟩
          · exact .inl ⟨p, hp, .inl ⟨h1, h2⟩⟩
          · exact .inr (.inr ⟨h2, p, hp, .inr ⟨h1, h2'⟩⟩)
          · exact .inr (.inl ⟨h1, p, hp, .inl ⟨h1', h2⟩⟩)
          · omega
          · exact .inl ⟨p, hp, .inr ⟨h1, h2⟩⟩
          · exact .inr (.inl ⟨h2, p, hp, .inr ⟨h1, h2'⟩⟩)
          · exact .inr (.inr ⟨h1, p, hp, .inl ⟨h1', h2⟩⟩)
          · omega
        · rintro (⟨p, hp, hx⟩ | ⟨ha, p, hp, hx⟩ | ⟨ha, p, hp, hx⟩)
          · refine ⟨p, hp, ?_⟩
            rw [hpr p hp]
            rcases hx with ⟨h1, h2⟩ | ⟨h1, h2⟩
            · exact .inl ⟨.inl h1, .inl h2⟩
            · exact .inr ⟨.inl h1, .inl h2⟩
          · refine ⟨p, hp, ?_⟩
            rw [hpr p hp]
            rcases hx with ⟨h1, h2⟩ | ⟨h1, h2⟩
            · exact .inl ⟨.inr ⟨ha, h1⟩, .inl h2⟩
            · exact .inr ⟨.inl h1, .inr ⟨ha, h2⟩⟩
          · refine ⟨p, hp, ?_⟩
            rw [hpr p hp]
            rcases hx with ⟨h1, h2⟩ | ⟨h1, h2⟩
            · exact .inr ⟨.inr ⟨ha, h1⟩, .inl h2⟩
            · exact .inl ⟨.inl h1, .inr ⟨ha, h2⟩⟩
      rw [step]
      have swap : ∀ x y, (∃ p ∈ P, (lab s p.1 = x ∧ lab s p.2 = y) ∨ (lab s p.1 = y ∧ lab s p.2 = x)) ↔
          (∃ p ∈ P, (lab s p.1 = y ∧ lab s p.2 = x) ∨ (lab s p.1 = x ∧ lab s p.2 = y)) := by
        intro x y
        constructor
        · rintro ⟨p, hp, hx⟩; exact ⟨p, hp, hx.symm⟩
        · rintro ⟨p, hp, hx⟩; exact ⟨p, hp, hx.symm⟩
      unfold newCell
      by_cases a1 : a < o1
      · rw [if_pos a1, if_pos (show a < o2 by omega)]
        by_cases b2 : b < o2
        · rw [if_pos b2, if_pos (by omega)]
          by_cases b1 : b = o1
          · rw [if_pos (by omega), Bool.or_eq_true, old a b hab (by omega) _ rfl,
              old a o2 (by omega) h2c _ rfl, swap a o2]
            constructor
            · rintro (h | h)
              · exact .inl h
              · exact .inr (.inr ⟨b1, h⟩)
            · rintro (h | ⟨h, _⟩ | ⟨_, h⟩)
              · exact .inl h
              · omega
              · exact .inr h
          · rw [if_neg (by omega), old a b hab (by omega) _ rfl]
            constructor
            · exact .inl
            · rintro (h | ⟨h, _⟩ | ⟨h, _⟩)
              · exact h
              · omega
              · omega
        · rw [if_neg b2, if_neg (by omega), old a (b + 1) (by omega) (by omega) _ (by omega)]
          constructor
          · exact .inl
          · rintro (h | ⟨h, _⟩ | ⟨h, _⟩)
            · exact h
            · omega
            · omega
      · rw [if_neg a1]
        by_cases a2 : a = o1
        · rw [if_pos a2, if_pos (show a < o2 by omega)]
          by_cases b2 : b < o2
          · rw [if_pos b2, if_pos (by omega), Bool.or_eq_true, old o1 b (by omega) (by omega) _ (by omega),
              show b - a + o1 = b by omega, old b o2 (by omega) h2c _ (by omega), swap b o2, ← a2]
            constructor
            · rintro (h | h)
              · exact .inl h
              · exact .inr (.inl ⟨rfl, h⟩)
            · rintro (h | ⟨_, h⟩ | ⟨h, _⟩)
              · exact .inl h
              · exact .inr h
              · omega
          · rw [if_neg b2, if_neg (by omega), Bool.or_eq_true,
              old o1 (b + 1) (by omega) (by omega) _ (by omega),
              old o2 (b + 1) (by omega) (by omega) _ (by omega), ← a2]
            constructor
            · rintro (h | h)
              · exact .inl h
              · exact .inr (.inl ⟨rfl, h⟩)
            · rintro (h | ⟨_, h⟩ | ⟨h, _⟩)
              · exact .inl h
              · exact .inr h
              · omega
        · rw [if_neg a2]
          have fin : ∀ X : Prop, (X ↔ (X ∨ (a = o1 ∧ ∃ p ∈ P, (lab s p.1 = o2 ∧ lab s p.2 = (if b < o2 then b else b + 1)) ∨
          (lab s p.1 = (if b < o2 then b else b + 1) ∧ lab s p.2 = o2)) ∨
        (b = o1 ∧ ∃ p ∈ P, (lab s p.1 = o2 ∧ lab s p.2 = (if a < o2 then a else a + 1)) ∨
          (lab s p.1 = (if a < o2 then a else a + 1) ∧ lab s p.2 = o2)))) := by
            intro X
            constructor
            · exact .inl
            · rintro (h | ⟨h, _⟩ | ⟨h, _⟩)
              · exact h
              · omega
              · omega
          rw [← fin]
          by_cases a3 : a < o2
          · rw [if_pos a3, if_pos a3]
            by_cases b2 : b < o2
            · rw [if_pos b2, if_pos (by omega)]; exact old a b hab (by omega) _ rfl
            · rw [if_neg b2, if_neg (by omega)]; exact old a (b + 1) (by omega) (by omega) _ (by omega)
          · rw [if_neg a3, if_neg a3, if_neg (by omega)]
            exact old (a + 1) (b + 1) (by omega) (by omega) _ (by omega)
    · intro p hp heq
      have hr := h.pRange p hp
      have hsep := h.sep p hp
      rw [hl _ hr.1, hl _ hr.2, relabel_eq_iff h12] at heq
      have := (h.proh o1 o2 h12 h2c).2 ⟨p, hp, by omega⟩
      rw [hc] at this
      exact absurd this (by simp)


/-! ### All operations together -/

/-- the group of output label `k` -/
def group (s : BK) (k : Nat) : List Nat := (List.range s.labels.length).filter (fun i => lab s i = k)

theorem passLoop_spec (s : BK) (hlt : ∀ i, i < s.labels.length → lab s i < s.cnt) (k : Nat)
    (hk : k ≤ s.labels.length) (acc : List (List Nat)) (hl : acc.length = s.cnt)
    (ha : ∀ a, a < s.cnt → acc[a]? = some ((List.range (s.labels.length - k)).filter (fun i => lab s i = a))) :
    passLoop s.labels k acc = .ok ((List.range s.cnt).map (group s)) := by
  induction k generalizing acc with
  | zero =>
    simp only [passLoop]
    congr 1
    apply List.ext_getElem?
    intro a
    by_cases h : a < s.cnt
    · rw [ha a h]; simp [h, group]
    · rw [List.getElem?_eq_none (by omega), List.getElem?_eq_none (by simp; omega)]
  | succ k ih =>
    have hi : s.labels.length - (k + 1) < s.labels.length := by omega
    have hlab : s.labels[s.labels.length - (k + 1)]? = some (lab s (s.labels.length - (k + 1))) := by
      simp [lab, List.getElem?_eq_getElem hi]
    have hlt' := hlt _ hi
    simp only [passLoop, hlab, ha _ hlt']
    apply ih (by omega)
    · simpa using hl
    · intro a ha'
      have hr : List.range (s.labels.length - k) =
          List.range (s.labels.length - (k + 1)) ++ [s.labels.length - (k + 1)] := by
        rw [← List.range_succ]; congr 1; omega
      rw [hr, List.filter_append, List.getElem?_set]
      by_cases h : lab s (s.labels.length - (k + 1)) = a
      · rw [if_pos h, if_pos (by omega)]
        subst h; simp
      · rw [if_neg h, ha a ha']
        simp [h]

theorem getResult_ok {n M P s} (h : Inv n M P s) :
    s.getResult = .ok ((List.range s.cnt).map (group s)) := by
  apply passLoop_spec s (by rw [h.len]; exact h.lt) _ (Nat.le_refl _)
  · simp
  · intro a ha; simp [ha]

theorem mem_group {s : BK} {k i : Nat} : i ∈ group s k ↔ i < s.labels.length ∧ lab s i = k := by
  simp [group]

theorem inv_merge {n M P s} (h : Inv n M P s) (i j : Nat) :
    Inv n (if (merge i j s).1.isOk then (i, j) :: M else M) P (merge i j s).2 := by
  by_cases hb : i ≠ j ∧ i < n ∧ j < n
  · obtain ⟨hij, hi, hj⟩ := hb
    by_cases he : lab s i = lab s j
    · rw [merge_same h hij hi hj he]
      have hc := (h.eqv i j hi hj).1 he
      simp only [Res.isOk, if_true]
      refine ⟨h.shape, h.len, h.cnt_le, h.lt, h.surj, h.rg, ?_, ?_, h.pRange, h.proh, h.sep⟩
      · intro x y hx hy
        rw [h.eqv x y hx hy, conn_cons]
        constructor
        · exact .inl
        · rintro (h | ⟨h1, h2⟩ | ⟨h1, h2⟩)
          · exact h
          · exact conn_trans h1 (conn_trans hc h2)
          · exact conn_trans h1 (conn_trans (conn_symm hc) h2)
      · intro p hp
        rcases List.mem_cons.1 hp with rfl | hp
        · exact ⟨hi, hj⟩
        · exact h.mRange p hp
    · cases hc : cell s (min (lab s i) (lab s j)) (max (lab s i) (lab s j) - min (lab s i) (lab s j)) with
      | true => rw [merge_barred h hij hi hj he hc]; exact h
      | false =>
        obtain ⟨s', e, g, _⟩ := merge_ok h hij hi hj he hc
        rw [e]; exact g
  · rw [merge_bad h hb]; exact h

theorem inv_prohibit {n M P s} (h : Inv n M P s) (i j : Nat) :
    Inv n M (if (prohibitMerge i j s).1.isOk then (i, j) :: P else P) (prohibitMerge i j s).2 := by
  by_cases hb : i ≠ j ∧ i < n ∧ j < n
  · obtain ⟨hij, hi, hj⟩ := hb
    by_cases he : lab s i = lab s j
    · rw [prohibit_same h hij hi hj he]; exact h
    · obtain ⟨s', e, g, _⟩ := prohibit_ok h hij hi hj he
      rw [e]; exact g
  · rw [prohibit_bad h hb]; exact h

/-- the cell consulted by `Merge`/`MergeAllowed` says exactly whether the groups are barred -/
theorem cell_iff_barred {n M P s} (h : Inv n M P s) {i j : Nat} (hi : i < n) (hj : j < n)
    (he : lab s i ≠ lab s j) :
    cell s (min (lab s i) (lab s j)) (max (lab s i) (lab s j) - min (lab s i) (lab s j)) = true ↔
      Barred M P i j := by
  have hli := h.lt i hi
  have hlj := h.lt j hj
  rw [h.proh _ _ (by omega) (by omega)]
  unfold Barred
  constructor
  · rintro ⟨p, hp, hx⟩
    have hr := h.pRange p hp
    refine ⟨p, hp, ?_⟩
    rw [← h.eqv _ _ hr.1 hi, ← h.eqv _ _ hr.2 hj, ← h.eqv _ _ hr.1 hj, ← h.eqv _ _ hr.2 hi]
    omega
  · rintro ⟨p, hp, hx⟩
    have hr := h.pRange p hp
    refine ⟨p, hp, ?_⟩
    rw [← h.eqv _ _ hr.1 hi, ← h.eqv _ _ hr.2 hj, ← h.eqv _ _ hr.1 hj, ← h.eqv _ _ hr.2 hi] at hx
    omega

/-- outcome of a `Merge` call -/
theorem merge_outcome {n M P s} (h : Inv n M P s) (i j : Nat) :
    (merge i j s).1 = (if i ≠ j ∧ i < n ∧ j < n then
      (if lab s i ≠ lab s j ∧
        cell s (min (lab s i) (lab s j)) (max (lab s i) (lab s j) - min (lab s i) (lab s j)) = true
       then .throw else .ok ()) else .throw) := by
  by_cases hb : i ≠ j ∧ i < n ∧ j < n
  · rw [if_pos hb]
    obtain ⟨hij, hi, hj⟩ := hb
    by_cases he : lab s i = lab s j
    · rw [merge_same h hij hi hj he, if_neg (by tauto)]
    · cases hc : cell s (min (lab s i) (lab s j)) (max (lab s i) (lab s j) - min (lab s i) (lab s j)) with
      | true => rw [merge_barred h hij hi hj he hc, if_pos ⟨he, rfl⟩]
      | false =>
        obtain ⟨s', e, _⟩ := merge_ok h hij hi hj he hc
        rw [e, if_neg (by simp)]
  · rw [if_neg hb, merge_bad h hb]

theorem mergeAll_cons (p : Nat × Nat) (ps : List (Nat × Nat)) (s : BK) :
    mergeAll (p :: ps) s = match merge p.1 p.2 s with
      | (.ok _, s') => mergeAll ps s'
      | (.throw, s') => (.throw, s')
      | (.ub, s') => (.ub, s') := by
  show (merge p.1 p.2 >>= fun _ => mergeAll ps) s = _
  rcases e : merge p.1 p.2 s with ⟨r, s'⟩
  cases r with
  | ok u => rw [bind_of_ok e]
  | throw => rw [bind_of_throw e]
  | ub => rw [bind_of_ub e]

theorem merge_ne_ub {n M P s} (h : Inv n M P s) (i j : Nat) : (merge i j s).1 ≠ .ub := by
  rw [merge_outcome h]; split <;> (try split) <;> simp

theorem inv_mergeAll {n M P s} (h : Inv n M P s) (reqs : List (Nat × Nat)) :
    Inv n (accepted reqs s ++ M) P (mergeAll reqs s).2 := by
  induction reqs generalizing s M with
  | nil => exact h
  | cons p ps ih =>
    have h1 := inv_merge h p.1 p.2
    rw [mergeAll_cons]
    unfold accepted
    rcases e : merge p.1 p.2 s with ⟨r, s'⟩
    rw [e] at h1
    cases r with
    | ok u =>
      simp only [Res.isOk, if_true] at h1
      have := ih h1
      simpa using this
    | throw => simpa [Res.isOk] using h1
    | ub => exact absurd (by rw [e]) (merge_ne_ub h p.1 p.2)

/-- success of a batch of merges: all accepted -/
theorem mergeAll_accepted {n M P s} (h : Inv n M P s) (reqs : List (Nat × Nat))
    (hok : (mergeAll reqs s).1 = .ok ()) : ∀ p, p ∈ accepted reqs s ↔ p ∈ reqs := by
  induction reqs generalizing s M with
  | nil => intro p; simp [accepted]
  | cons p ps ih =>
    have h1 := inv_merge h p.1 p.2
    rw [mergeAll_cons] at hok
    unfold accepted
    rcases e : merge p.1 p.2 s with ⟨r, s'⟩
    rw [e] at h1 hok
    cases r with
    | ok u =>
      simp only [Res.isOk, if_true] at h1
      intro q
      simp only [List.mem_append, ih h1 hok q, List.mem_singleton, List.mem_cons]
      tauto
    | throw => simp at hok
    | ub => simp at hok

/-- failure of a batch: some request is ill-formed or barred once the earlier ones are done -/
theorem mergeAll_fail {n M P s} (h : Inv n M P s) (reqs : List (Nat × Nat))
    (hno : (mergeAll reqs s).1 ≠ .ok ()) (hr : ∀ p ∈ reqs, p.1 ≠ p.2 ∧ p.1 < n ∧ p.2 < n) :
    (mergeAll reqs s).1 = .throw ∧
    ∃ p ∈ reqs, ∃ M', (∀ q ∈ M', q ∈ reqs ∨ q ∈ M) ∧ Barred M' P p.1 p.2 := by
  induction reqs generalizing s M with
  | nil => exact absurd rfl hno
  | cons p ps ih =>
    have h1 := inv_merge h p.1 p.2
    have ho := merge_outcome h p.1 p.2
    have hp := hr p (by simp)
    rw [if_pos hp] at ho
    rw [mergeAll_cons] at hno ⊢
    rcases e : merge p.1 p.2 s with ⟨r, s'⟩
    rw [e] at h1 hno ho
    cases r with
    | ok u =>
      simp only [Res.isOk, if_true] at h1
      obtain ⟨g0, q, hq, M', g1, g2⟩ := ih h1 hno (fun q hq => hr q (by simp [hq]))
      refine ⟨g0, q, by simp [hq], M', ?_, g2⟩
      intro x hx
      rcases g1 x hx with h | h
      · exact .inl (by simp [h])
      · rcases List.mem_cons.1 h with h | h
        · exact .inl (by rw [h]; simp)
        · exact .inr h
    | throw =>
      refine ⟨rfl, p, by simp, M, fun q hq => .inr hq, ?_⟩
      dsimp only at ho
      split at ho
      · rename_i hc
        exact (cell_iff_barred h hp.2.1 hp.2.2 hc.1).1 hc.2
      · simp at ho
    | ub => exact absurd (by rw [e]) (merge_ne_ub h p.1 p.2)

theorem forEach_append {α : Type} (l l' : List α) (f : α → Exec BK Unit) (s : BK) :
    forEach (l ++ l') f s = (forEach l f >>= fun _ => forEach l' f) s := by
  induction l generalizing s with
  | nil => rfl
  | cons x xs ih =>
    show Exec.bind (f x) _ s = Exec.bind (Exec.bind (f x) _) _ s
    simp only [Exec.bind]
    rcases f x s with ⟨r, s'⟩
    cases r with
    | ok u => exact ih s'
    | throw => rfl
    | ub => rfl

theorem mergeAll_append (l l' : List (Nat × Nat)) (s : BK) :
    mergeAll (l ++ l') s = (mergeAll l >>= fun _ => mergeAll l') s := forEach_append _ _ _ _

theorem forEach_flat {α : Type} (l : List α) (f : α → Exec BK Unit) (g : α → List (Nat × Nat))
    (h : ∀ x ∈ l, f x = mergeAll (g x)) : forEach l f = mergeAll (l.flatMap g) := by
  induction l with
  | nil => rfl
  | cons x xs ih =>
    funext s
    rw [List.flatMap_cons, mergeAll_append, ← ih (fun y hy => h y (by simp [hy])), ← h x (by simp)]
    rfl

/-- one iteration of the outer loop of `Combine` -/
def combineStep (mine : List (List Nat)) (ares : List Nat) : Exec BK Unit := do
  if ares.length = 1 then return ()
  let r0 ← liftRes (atRes ares 0)
  let g0 ← liftRes (atRes mine r0)
  let target ← liftRes (atRes g0 0)
  Exec.forEach ares (fun res => do
    let g ← liftRes (atRes mine res)
    Exec.forEach g (fun orig => do
      if target = orig then return ()
      merge target orig))

theorem combine_unfold (another : BK) : combine another = (do
    let me ← Exec.get
    let mine ← liftRes me.getResult
    if mine.length ≠ another.labels.length then Exec.raise
    let theirs ← liftRes another.getResult
    if theirs.length ≥ mine.length then Exec.raise
    Exec.forEach theirs (combineStep mine)) := rfl

theorem inner_eq (t : Nat) (g : List Nat) :
    (Exec.forEach g (fun orig => do
      if t = orig then return ()
      merge t orig)) = mergeAll ((g.filter (fun o => t ≠ o)).map (fun o => (t, o))) := by
  have : (g.filter (fun o => t ≠ o)).map (fun o => (t, o)) =
      g.flatMap (fun o => if t = o then [] else [(t, o)]) := by
    induction g with
    | nil => rfl
    | cons a g ih =>
      by_cases ha : t = a <;> simp [ha] at ih ⊢ <;> simp [ih]
  rw [this]
  apply forEach_flat
  intro o _
  by_cases ho : t = o
  · simp only [ho, if_true]; rfl
  · simp only [ho, if_false]
    funext s
    rw [mergeAll_cons]
    rcases e : merge t o s with ⟨r, s'⟩
    cases r <;> rfl

theorem combineStep_eq {n M P s m M' P' b} (h : Inv n M P s) (hb : Inv m M' P' b) (hm : s.cnt = m)
    {k : Nat} (hk : k < b.cnt) :
    combineStep ((List.range s.cnt).map (group s)) (group b k) = mergeAll
      (if (group b k).length = 1 then [] else
      let t := ((((List.range s.cnt).map (group s))[(group b k).headD 0]?).getD []).headD 0
      (group b k).flatMap (fun r =>
        (((((List.range s.cnt).map (group s))[r]?).getD []).filter (fun o => t ≠ o)).map (fun o => (t, o)))) := by
  have hbl := hb.len
  have hmem : ∀ r ∈ group b k, r < s.cnt := by
    intro r hr; rw [mem_group] at hr; omega
  by_cases hlen : (group b k).length = 1
  · simp only [combineStep, hlen, if_true]; rfl
  · rw [if_neg hlen]
    obtain ⟨x, hx, hxk⟩ := hb.surj k hk
    have hxm : x ∈ group b k := by rw [mem_group]; exact ⟨by omega, hxk⟩
    unfold combineStep
    rw [if_neg hlen]
    rcases hgrp : group b k with _ | ⟨r0, rest⟩
    · rw [hgrp] at hxm; simp at hxm
    · have hr0 : r0 < s.cnt := hmem r0 (by rw [hgrp]; simp)
      have hat : atRes ((List.range s.cnt).map (group s)) r0 = .ok (group s r0) := by
        simp [atRes, hr0]
      obtain ⟨y, hy, hyk⟩ := h.surj r0 hr0
      have hym : y ∈ group s r0 := by rw [mem_group]; exact ⟨by rw [h.len]; exact hy, hyk⟩
      rcases hg0 : group s r0 with _ | ⟨t, rest'⟩
      · rw [hg0] at hym; simp at hym
      · have heq : ((((List.range s.cnt).map (group s))[(r0 :: rest).headD 0]?).getD []).headD 0 = t := by
          simp [hr0, hg0]
        rw [heq]
        have h3 : forEach (r0 :: rest) (fun res => (do
            let g ← liftRes (atRes ((List.range s.cnt).map (group s)) res)
            Exec.forEach g (fun orig => (do
              if t = orig then return ()
              merge t orig : Exec BK Unit)) : Exec BK Unit)) =
            mergeAll ((r0 :: rest).flatMap (fun r =>
              ((((List.range s.cnt).map (group s))[r]?.getD []).filter (fun o => t ≠ o)).map (fun o => (t, o)))) := by
          apply forEach_flat
          intro r hr
          rw [← hgrp] at hr
          have hr' := hmem r hr
          have hat' : atRes ((List.range s.cnt).map (group s)) r = .ok (group s r) := by
            simp [atRes, hr']
          have hgd : ((List.range s.cnt).map (group s))[r]?.getD [] = group s r := by simp [hr']
          rw [hgd, hat', ← inner_eq]
          rfl
        rw [← h3]
        funext st
        rw [bind_of_ok (show liftRes (atRes (r0 :: rest) 0) st = (.ok r0, st) from rfl)]
        rw [bind_of_ok (show liftRes (atRes ((List.range s.cnt).map (group s)) r0) st = (.ok (t :: rest'), st) by
          rw [hat, hg0]; rfl)]
        rw [bind_of_ok (show liftRes (atRes (t :: rest') 0) st = (.ok t, st) from rfl)]

/-- `Combine`, all cases -/
theorem combine_eq {n M P s m M' P' b} (h : Inv n M P s) (hb : Inv m M' P' b) :
    combine b s = if s.cnt ≠ m ∨ b.cnt ≥ s.cnt then (.throw, s) else
      mergeAll (combineRequests ((List.range s.cnt).map (group s)) ((List.range b.cnt).map (group b))) s := by
  have hs := getResult_ok h
  have hb' := getResult_ok hb
  have hbl := hb.len
  rw [combine_unfold, bind_of_ok (show Exec.get s = (.ok s, s) from rfl),
    bind_of_ok (show liftRes s.getResult s = (.ok ((List.range s.cnt).map (group s)), s) by rw [hs]; rfl)]
  dsimp only
  by_cases c1 : s.cnt ≠ m
  · rw [if_pos (c := s.cnt ≠ m ∨ b.cnt ≥ s.cnt) (.inl c1), if_pos (by simp; omega)]; rfl
  · rw [if_neg (c := ((List.range s.cnt).map (group s)).length ≠ b.labels.length) (by simp; omega),
      bind_of_ok (show liftRes b.getResult s = (.ok ((List.range b.cnt).map (group b)), s) by rw [hb']; rfl)]
    by_cases c2 : b.cnt ≥ s.cnt
    · rw [if_pos (c := s.cnt ≠ m ∨ b.cnt ≥ s.cnt) (.inr c2), if_pos (by simpa using c2)]; rfl
    · rw [if_neg (c := s.cnt ≠ m ∨ b.cnt ≥ s.cnt) (by omega), if_neg (by simpa using c2)]
      unfold combineRequests
      rw [forEach_flat]
      intro ares har
      obtain ⟨k, hk, rfl⟩ := List.mem_map.1 har
      exact combineStep_eq h hb (by omega) (List.mem_range.1 hk)

theorem combineAccepted_eq {n M P s m M' P' b} (h : Inv n M P s) (hb : Inv m M' P' b) :
    combineAccepted b s = if s.cnt ≠ m ∨ b.cnt ≥ s.cnt then [] else
      accepted (combineRequests ((List.range s.cnt).map (group s)) ((List.range b.cnt).map (group b))) s := by
  have hbl := hb.len
  simp only [combineAccepted, getResult_ok h, getResult_ok hb, List.length_map, List.length_range, hbl]

theorem inv_combine {n M P s m M' P' b} (h : Inv n M P s) (hb : Inv m M' P' b) :
    Inv n (combineAccepted b s ++ M) P (combine b s).2 := by
  rw [combineAccepted_eq h hb, combine_eq h hb]
  split
  · exact h
  · exact inv_mergeAll h _

theorem reach_inv {n s M P} (h : Reach n s M P) : Inv n M P s := by
  induction h with
  | reset n => exact inv_reset n
  | merge i j _ ih => exact inv_merge ih i j
  | prohibit i j _ ih => exact inv_prohibit ih i j
  | combine _ _ ih1 ih2 => exact inv_combine ih1 ih2

end BK
end Verif.CMTool

import Verif.Hit.Rff
/-!
# Regions above threshold (C129)
-/
namespace Verif.Rff
open Verif

/-- non-empty regions `[a, b)` inside `[lo, hi]`, in order, separated by at least one tick, that cover exactly the ticks
with a signal of at least `thr`; `x t` is the signal at tick `t` -/
structure Regions (thr : ℚ) (x : Nat → ℚ) (lo hi : Nat) (R : List (Nat × Nat)) : Prop where
  inside : ∀ p ∈ R, lo ≤ p.1 ∧ p.1 < p.2 ∧ p.2 ≤ hi
  apart : R.Pairwise fun p q => p.2 < q.1
  cover : ∀ t, lo ≤ t → t < hi → (thr ≤ x t ↔ ∃ p ∈ R, p.1 ≤ t ∧ t < p.2)

theorem regionLoop_spec (thr : ℚ) (x : Nat → ℚ) (l : List ℚ) : ∀ (i : Nat) (st en : List Nat),
    (∀ k, ∀ h : k < l.length, l[k] = x (i + k)) →
    (∃ R, regionLoop thr l i false (st, en) = (st ++ R.map (·.1), en ++ R.map (·.2)) ∧
      Regions thr x i (i + l.length) R) ∧
    (∃ e R, regionLoop thr l i true (st, en) = (st ++ R.map (·.1), en ++ e :: R.map (·.2)) ∧ i ≤ e ∧
      e ≤ i + l.length ∧ (∀ t, i ≤ t → t < e → thr ≤ x t) ∧ (e < i + l.length → x e < thr) ∧
      Regions thr x e (i + l.length) R) := by
  induction l with
  | nil =>
    intro i st en _
    refine ⟨⟨[], by simp [regionLoop], ⟨by simp, by simp, ?_⟩⟩, ⟨i, [], by simp [regionLoop], by simp, by simp, ?_, by simp,
      ⟨by simp, by simp, ?_⟩⟩⟩
    all_goals
      intro t h1 h2
      try simp only [List.length_nil] at h2
      omega
  | cons a l ih =>
    intro i st en hx
    have hx0 : a = x i := hx 0 (by simp)
    have hx' : ∀ k, ∀ h : k < l.length, l[k] = x (i + 1 + k) := by
      intro k hk
      have := hx (k + 1) (by simpa using hk)
      simp only [List.getElem_cons_succ] at this
      rw [this]
      congr 1
      omega
    have hl : i + (a :: l).length = i + 1 + l.length := by simp; omega
    rw [hl]
    constructor
    · by_cases h : thr ≤ a
      · obtain ⟨-, ⟨e, R, h1, h2, h3, h4, h5, h6⟩⟩ := ih (i + 1) (st ++ [i]) en hx'
        refine ⟨(i, e) :: R, ?_, ⟨?_, ?_, ?_⟩⟩
        · rw [regionLoop, if_pos ⟨rfl, h⟩, h1]
          simp
        · intro p hp
          rcases List.mem_cons.1 hp with rfl | hp
          · exact ⟨le_refl _, by simp only; omega, h3⟩
          · have := h6.inside p hp
            omega
        · rw [List.pairwise_cons]
          refine ⟨?_, h6.apart⟩
          intro p hp
          have h7 := h6.inside p hp
          rcases Nat.lt_or_ge e p.1 with hlt | hge
          · exact hlt
          · exfalso
            have he : p.1 = e := by omega
            have := (h6.cover e (le_refl _) (by omega)).2 ⟨p, hp, by omega, by omega⟩
            have := h5 (by omega)
            linarith
        · intro t ht1 ht2
          rcases Nat.lt_or_ge t e with hte | hte
          · constructor
            · intro _
              exact ⟨(i, e), by simp, ht1, hte⟩
            · intro _
              rcases Nat.eq_or_lt_of_le ht1 with rfl | hlt
              · rw [← hx0]; exact h
              · exact h4 t hlt hte
          · rw [h6.cover t hte ht2]
            constructor
            · rintro ⟨p, hp, hp2⟩
              exact ⟨p, List.mem_cons_of_mem _ hp, hp2⟩
            · rintro ⟨p, hp, hp1, hp2⟩
              rcases List.mem_cons.1 hp with rfl | hp
              · simp only at hp2; omega
              · exact ⟨p, hp, hp1, hp2⟩
      · obtain ⟨⟨R, h1, h2⟩, -⟩ := ih (i + 1) st en hx'
        refine ⟨R, ?_, ⟨?_, h2.apart, ?_⟩⟩
        · rw [regionLoop, if_neg (by simp [h]), if_neg (by simp), h1]
        · intro p hp
          have := h2.inside p hp
          omega
        · intro t ht1 ht2
          rcases Nat.eq_or_lt_of_le ht1 with rfl | hlt
          · rw [← hx0]
            constructor
            · intro h'; exact absurd h' h
            · rintro ⟨p, hp, hp1, hp2⟩
              have := h2.inside p hp
              omega
          · exact h2.cover t hlt ht2
    · by_cases h : a < thr
      · obtain ⟨⟨R, h1, h2⟩, -⟩ := ih (i + 1) st (en ++ [i]) hx'
        refine ⟨i, R, ?_, le_refl _, by omega, ?_, ?_, ⟨?_, h2.apart, ?_⟩⟩
        · rw [regionLoop, if_neg (by simp), if_pos ⟨rfl, h⟩, h1]
          simp
        · intro t h3 h4; omega
        · intro _
          rw [← hx0]; exact h
        · intro p hp
          have := h2.inside p hp
          omega
        · intro t ht1 ht2
          rcases Nat.eq_or_lt_of_le ht1 with rfl | hlt
          · rw [← hx0]
            constructor
            · intro h'; exact absurd h (not_lt.2 h')
            · rintro ⟨p, hp, hp1, hp2⟩
              have := h2.inside p hp
              omega
          · exact h2.cover t hlt ht2
      · obtain ⟨-, ⟨e, R, h1, h2, h3, h4, h5, h6⟩⟩ := ih (i + 1) st en hx'
        refine ⟨e, R, ?_, by omega, h3, ?_, h5, h6⟩
        · rw [regionLoop, if_neg (by simp), if_neg (by simp [h]), h1]
        · intro t ht1 ht2
          rcases Nat.eq_or_lt_of_le ht1 with rfl | hlt
          · rw [← hx0]; exact not_lt.1 h
          · exact h4 t hlt ht2

/-- **C129.** `FillStartAndEndTicks` never throws; it returns as many ends as starts, and the regions between them are
non-empty, ordered, separated, inside the signal, and contain exactly the ticks with a signal of at least the threshold.
What the vectors contained before does not matter. -/
theorem C129_regions (thr : ℚ) (s : List ℚ) (st0 en0 : List Nat) :
    ∃ st en, fillStartAndEndTicks thr s st0 en0 = .ok (st, en) ∧ st.length = en.length ∧
      Regions thr (fun t => s.getD t 0) 0 s.length (st.zip en) ∧
      fillStartAndEndTicks thr s [] [] = .ok (st, en) := by
  obtain ⟨⟨R, h1, h2⟩, -⟩ := regionLoop_spec thr (fun t => s.getD t 0) s 0 [] [] (by
    intro k hk
    simp [hk])
  have he : fillStartAndEndTicks thr s st0 en0 = .ok (R.map (·.1), R.map (·.2)) := by
    unfold fillStartAndEndTicks
    simp [h1]
  refine ⟨_, _, he, by simp, ?_, he⟩
  have : (R.map (·.1)).zip (R.map (·.2)) = R := by
    rw [List.zip_map']
    simp
  rw [this]
  simpa using h2

/-- a signal with three regions, one at each border and one of a single tick -/
example : fillStartAndEndTicks 2 [5, 2, 1, 3, 0, 0, 2, 2] [7] [7, 8] = .ok ([0, 3, 6], [2, 4, 8]) := by
  decide +kernel

end Verif.Rff

import Verif.TrkSep.Thm2
import Mathlib.Tactic.Positivity
import Mathlib.Algebra.Order.BigOperators.Group.List

namespace Verif.TrkSep

/-! ## C421: the direction of a track -/

/-- Sum over points. -/
def S (ps : List V3) (f : V3 → ℚ) : ℚ := (ps.map f).sum

theorem S_nil (f : V3 → ℚ) : S [] f = 0 := rfl
theorem S_cons (p : V3) (ps : List V3) (f : V3 → ℚ) : S (p :: ps) f = f p + S ps f := by simp [S]

theorem sums_eq (ps : List V3) : sums ps = ⟨ps.length, S ps V3.x, S ps V3.y, S ps V3.z, S ps fun p => p.x * p.x, S ps fun p => p.x * p.y, S ps fun p => p.x * p.z⟩ := by
  have key : ∀ (l : List V3) (a : Sums), l.foldl (fun (s : Sums) (p : V3) => (⟨s.n + 1, s.sx + p.x, s.sy + p.y, s.sz + p.z, s.sxx + p.x * p.x, s.sxy + p.x * p.y, s.sxz + p.x * p.z⟩ : Sums)) a
      = ⟨a.n + l.length, a.sx + S l V3.x, a.sy + S l V3.y, a.sz + S l V3.z, a.sxx + S l fun p => p.x * p.x, a.sxy + S l fun p => p.x * p.y, a.sxz + S l fun p => p.x * p.z⟩ := by
    intro l
    induction l with
    | nil => intro a; simp [S_nil]
    | cons p l ih =>
      intro a
      rw [List.foldl_cons, ih]
      simp only [S_cons, List.length_cons, Nat.cast_add, Nat.cast_one, Sums.mk.injEq]
      refine ⟨by ring, by ring, by ring, by ring, by ring, by ring, by ring⟩
  unfold sums
  rw [key]
  simp

theorem S_nonneg (ps : List V3) (f : V3 → ℚ) (h : ∀ p, 0 ≤ f p) : 0 ≤ S ps f := by
  induction ps with
  | nil => exact le_refl _
  | cons p ps ih => rw [S_cons]; exact add_nonneg (h p) ih

theorem S_zero (ps : List V3) (f : V3 → ℚ) (h : ∀ p, 0 ≤ f p) (h0 : S ps f = 0) : ∀ p ∈ ps, f p = 0 := by
  induction ps with
  | nil => simp
  | cons p ps ih =>
    rw [S_cons] at h0
    have h1 := S_nonneg ps f h
    have h2 := h p
    intro q hq
    rcases List.mem_cons.1 hq with rfl | hq
    · linarith
    · exact ih (by linarith) q hq

/-- Square of the deviations of `g` from `a + b x`, expanded. -/
theorem S_dev (ps : List V3) (g : V3 → ℚ) (a b : ℚ) : S ps (fun p => (g p - (a + b * p.x)) ^ 2) =
    S ps (fun p => g p * g p) - 2 * a * S ps g - 2 * b * S ps (fun p => p.x * g p) + ps.length * a ^ 2 + 2 * a * b * S ps V3.x + b ^ 2 * S ps (fun p => p.x * p.x) := by
  induction ps with
  | nil => simp [S_nil]
  | cons p ps ih =>
    simp only [S_cons, ih, List.length_cons, Nat.cast_add, Nat.cast_one]
    ring

theorem den_eq (ps : List V3) (hne : ps ≠ []) : (ps.length : ℚ) * S ps (fun p => p.x * p.x) - S ps V3.x * S ps V3.x = ps.length * S ps (fun p => (p.x - (S ps V3.x / ps.length + 0 * p.x)) ^ 2) := by
  have hn : (ps.length : ℚ) ≠ 0 := by
    have := List.length_pos_iff.2 hne
    positivity
  rw [S_dev ps V3.x]
  field_simp
  ring

/-- C421: the direction is not a number exactly if all points have the same x. -/
theorem C421_defined (ps : List V3) (dir : Option V3) : gradient ps dir = none ↔ ∀ p ∈ ps, ∀ q ∈ ps, p.x = q.x := by
  unfold gradient
  dsimp only
  rw [sums_eq]
  dsimp only
  have hd : (ps.length : ℚ) * S ps (fun p => p.x * p.x) - S ps V3.x * S ps V3.x = 0 ↔ ∀ p ∈ ps, ∀ q ∈ ps, p.x = q.x := by
    by_cases hne : ps = []
    · subst hne; simp [S_nil]
    · rw [den_eq ps hne]
      have hn : (ps.length : ℚ) ≠ 0 := by
        have := List.length_pos_iff.2 hne
        positivity
      constructor
      · intro h
        have h0 : S ps (fun p => (p.x - (S ps V3.x / ps.length + 0 * p.x)) ^ 2) = 0 := by
          rcases mul_eq_zero.1 h with h | h
          · exact absurd h hn
          · exact h
        have hz := S_zero ps _ (fun p => sq_nonneg _) h0
        intro p hp q hq
        have h1 := hz p hp
        have h2 := hz q hq
        have h1' := pow_eq_zero_iff (two_ne_zero) |>.1 h1
        have h2' := pow_eq_zero_iff (two_ne_zero) |>.1 h2
        linarith
      · intro h
        obtain ⟨p0, hp0⟩ := List.exists_mem_of_ne_nil ps hne
        have hx : ∀ l : List V3, (∀ p ∈ l, p.x = p0.x) → S l V3.x = l.length * p0.x := by
          intro l
          induction l with
          | nil => intro _; simp [S_nil]
          | cons p l ih =>
            intro hl
            rw [S_cons, ih (fun q hq => hl q (by simp [hq])), hl p (by simp)]
            push_cast [List.length_cons]
            ring
        have hm : S ps V3.x / ps.length = p0.x := by
          rw [hx ps (fun p hp => h p hp p0 hp0)]
          field_simp
        have : S ps (fun p => (p.x - (S ps V3.x / ps.length + 0 * p.x)) ^ 2) = 0 := by
          unfold S
          apply List.sum_eq_zero
          intro y hy
          obtain ⟨p, hp, rfl⟩ := List.mem_map.1 hy
          have := h p hp p0 hp0
          unfold S at hm
          rw [hm, this]
          ring
        rw [this, mul_zero]
  split
  · rename_i h0
    exact ⟨fun _ => hd.1 h0, fun _ => rfl⟩
  · rename_i h0
    constructor
    · intro h
      split at h
      · simp at h
      · split at h <;> simp at h
    · intro h
      exact absurd (hd.2 h) h0

/-- C421: the slopes of the direction are those of the lines that fit the points best in y over x and in z over x (least squares: no other line has a smaller sum of squares). -/
theorem C421_best (ps : List V3) (v : V3) (h : gradient ps none = some v) : v.x = 1 ∧
    (∃ a, ∀ a' b', S ps (fun p => (p.y - (a + v.y * p.x)) ^ 2) ≤ S ps (fun p => (p.y - (a' + b' * p.x)) ^ 2)) ∧
    ∃ a, ∀ a' b', S ps (fun p => (p.z - (a + v.z * p.x)) ^ 2) ≤ S ps (fun p => (p.z - (a' + b' * p.x)) ^ 2) := by
  unfold gradient at h
  dsimp only at h
  rw [sums_eq] at h
  dsimp only at h
  split at h
  · simp at h
  · rename_i hD
    simp only [Option.some.injEq] at h
    subst h
    have hne : ps ≠ [] := by intro e; subst e; simp [S_nil] at hD
    have hn : (ps.length : ℚ) ≠ 0 := by
      have := List.length_pos_iff.2 hne
      positivity
    have opt : ∀ g : V3 → ℚ, ∃ a, ∀ a' b', S ps (fun p => (g p - (a + (ps.length * S ps (fun p => p.x * g p) - S ps V3.x * S ps g) / (ps.length * S ps (fun p => p.x * p.x) - S ps V3.x * S ps V3.x) * p.x)) ^ 2)
        ≤ S ps (fun p => (g p - (a' + b' * p.x)) ^ 2) := by
      intro g
      have e1 : (ps.length * S ps (fun p => p.x * g p) - S ps V3.x * S ps g) / (ps.length * S ps (fun p => p.x * p.x) - S ps V3.x * S ps V3.x) * (ps.length * S ps (fun p => p.x * p.x) - S ps V3.x * S ps V3.x)
          = ps.length * S ps (fun p => p.x * g p) - S ps V3.x * S ps g := div_mul_cancel₀ _ hD
      generalize (ps.length * S ps (fun p => p.x * g p) - S ps V3.x * S ps g) / (ps.length * S ps (fun p => p.x * p.x) - S ps V3.x * S ps V3.x) = b at e1
      refine ⟨(S ps g - b * S ps V3.x) / ps.length, fun a' b' => ?_⟩
      have e2 : (S ps g - b * S ps V3.x) / ps.length * ps.length = S ps g - b * S ps V3.x := div_mul_cancel₀ _ hn
      generalize (S ps g - b * S ps V3.x) / ps.length = a at e2
      have sq := S_nonneg ps (fun p => ((fun _ => (0 : ℚ)) p - ((a' - a) + (b' - b) * p.x)) ^ 2) (fun p => sq_nonneg _)
      rw [S_dev] at sq
      rw [S_dev, S_dev]
      have z1 : S ps (fun p => (fun _ : V3 => (0 : ℚ)) p * (fun _ : V3 => (0 : ℚ)) p) = 0 := by unfold S; apply List.sum_eq_zero; intro x hx; obtain ⟨p, _, rfl⟩ := List.mem_map.1 hx; simp
      have z2 : S ps (fun _ : V3 => (0 : ℚ)) = 0 := by unfold S; apply List.sum_eq_zero; intro x hx; obtain ⟨p, _, rfl⟩ := List.mem_map.1 hx; rfl
      have z3 : S ps (fun p => p.x * (fun _ : V3 => (0 : ℚ)) p) = 0 := by unfold S; apply List.sum_eq_zero; intro x hx; obtain ⟨p, _, rfl⟩ := List.mem_map.1 hx; simp
      rw [z1, z2, z3] at sq
      have e3 : a * S ps V3.x + b * S ps (fun p => p.x * p.x) = S ps (fun p => p.x * g p) := by
        have : (ps.length : ℚ) * (a * S ps V3.x + b * S ps (fun p => p.x * p.x) - S ps (fun p => p.x * g p)) = 0 := by
          linear_combination (S ps V3.x) * e2 + e1
        rcases mul_eq_zero.1 this with h | h
        · exact absurd h hn
        · linarith
      generalize S ps g = Sg at *
      generalize S ps (fun p => p.x * g p) = Sxg at *
      generalize S ps (fun p => p.x * p.x) = Sxx at *
      generalize S ps V3.x = Sx at *
      generalize S ps (fun p => g p * g p) = Sgg at *
      rw [← sub_nonneg]
      have key : (Sgg - 2 * a' * Sg - 2 * b' * Sxg + ps.length * a' ^ 2 + 2 * a' * b' * Sx + b' ^ 2 * Sxx) - (Sgg - 2 * a * Sg - 2 * b * Sxg + ps.length * a ^ 2 + 2 * a * b * Sx + b ^ 2 * Sxx)
          = ps.length * (a' - a) ^ 2 + 2 * (a' - a) * (b' - b) * Sx + (b' - b) ^ 2 * Sxx := by
        linear_combination 2 * (a' - a) * e2 + 2 * (b' - b) * e3
      rw [key]
      linarith
    exact ⟨rfl, opt V3.y, opt V3.z⟩

/-- C421: for points on a line that is not in a plane of constant x the direction is along the line. -/
theorem C421_line (ps : List V3) (o d : V3) (hd : d.x ≠ 0) (hp : ∀ p ∈ ps, ∃ k, p = o.add (d.smul k)) (v : V3) (h : gradient ps none = some v) : v.smul d.x = d := by
  unfold gradient at h
  dsimp only at h
  rw [sums_eq] at h
  dsimp only at h
  split at h
  · simp at h
  · rename_i hD
    simp only [Option.some.injEq] at h
    have ey : ∀ p ∈ ps, p.y = o.y - d.y / d.x * o.x + d.y / d.x * p.x := by
      intro p hpp
      obtain ⟨k, rfl⟩ := hp p hpp
      simp only [V3.add, V3.smul]
      field_simp
      ring
    have ez : ∀ p ∈ ps, p.z = o.z - d.z / d.x * o.x + d.z / d.x * p.x := by
      intro p hpp
      obtain ⟨k, rfl⟩ := hp p hpp
      simp only [V3.add, V3.smul]
      field_simp
      ring
    have lin : ∀ (g : V3 → ℚ) (a b : ℚ), (∀ p ∈ ps, g p = a + b * p.x) → S ps g = a * ps.length + b * S ps V3.x ∧ S ps (fun p => p.x * g p) = a * S ps V3.x + b * S ps (fun p => p.x * p.x) := by
      intro g a b hg
      clear h hD ey ez hp
      induction ps with
      | nil => simp [S_nil]
      | cons p ps ih =>
        obtain ⟨i1, i2⟩ := ih (fun q hq => hg q (by simp [hq]))
        simp only [S_cons, i1, i2, hg p (by simp), List.length_cons, Nat.cast_add, Nat.cast_one]
        constructor <;> ring
    obtain ⟨y1, y2⟩ := lin V3.y _ _ ey
    obtain ⟨z1, z2⟩ := lin V3.z _ _ ez
    rw [y1, y2, z1, z2] at h
    have by' : ((ps.length : ℚ) * ((o.y - d.y / d.x * o.x) * S ps V3.x + d.y / d.x * S ps (fun p => p.x * p.x)) - S ps V3.x * ((o.y - d.y / d.x * o.x) * ps.length + d.y / d.x * S ps V3.x)) /
        (ps.length * S ps (fun p => p.x * p.x) - S ps V3.x * S ps V3.x) = d.y / d.x := by
      rw [div_eq_iff hD]
      ring
    have bz' : ((ps.length : ℚ) * ((o.z - d.z / d.x * o.x) * S ps V3.x + d.z / d.x * S ps (fun p => p.x * p.x)) - S ps V3.x * ((o.z - d.z / d.x * o.x) * ps.length + d.z / d.x * S ps V3.x)) /
        (ps.length * S ps (fun p => p.x * p.x) - S ps V3.x * S ps V3.x) = d.z / d.x := by
      rw [div_eq_iff hD]
      ring
    rw [by', bz'] at h
    subst h
    obtain ⟨dx, dy, dz⟩ := d
    simp only [V3.smul, V3.mk.injEq] at *
    refine ⟨by ring, by field_simp, by field_simp⟩

/-- C421: with a given direction the result is within a right angle of it, and the same or the opposite of the one without. -/
theorem C421_sense (ps : List V3) (d v : V3) (h : gradient ps (some d) = some v) : 0 ≤ v.dot d ∧ ∃ w, gradient ps none = some w ∧ (v = w ∨ v = w.smul (-1)) := by
  unfold gradient at h ⊢
  dsimp only at h ⊢
  split at h
  · simp at h
  · rename_i hD
    rw [if_neg hD]
    revert h
    generalize (⟨1, _, _⟩ : V3) = w
    intro h
    split at h
    · rename_i hw
      simp only [Option.some.injEq] at h
      subst h
      refine ⟨?_, w, rfl, Or.inr rfl⟩
      have : (V3.smul (-1) w).dot d = - w.dot d := by simp only [V3.dot, V3.smul]; ring
      rw [this]
      linarith
    · rename_i hw
      simp only [Option.some.injEq] at h
      subst h
      exact ⟨not_lt.1 hw, w, rfl, Or.inl rfl⟩

example : gradient [⟨0, 0, 0⟩, ⟨1, 2, 3⟩, ⟨2, 4, 6⟩] (some ⟨-1, 0, 0⟩) = some ⟨-1, -2, -3⟩ := by decide +kernel
example : gradient [⟨0, 0, 0⟩, ⟨1, 2, 3⟩, ⟨2, 4, 6⟩] none = some ⟨1, 2, 3⟩ := by decide +kernel

end Verif.TrkSep

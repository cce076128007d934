import Verif.PmaNode.Model
import Mathlib.Tactic.Linarith
import Mathlib.Tactic.NormNum
import Mathlib.Tactic.Ring
import Mathlib.Tactic.FieldSimp
import Mathlib.Tactic.Push
import Mathlib.Algebra.Order.Archimedean.Basic
import Mathlib.Data.Rat.Floor

namespace Verif.PmaNode

/-! ### Limits -/

/-- Specification: the allowed volume, the limits with the margin. -/
def InBox (n : Node) (p : V3) : Prop :=
  (n.lo.x - n.margin ≤ p.x ∧ p.x ≤ n.hi.x + n.margin) ∧
  (n.lo.y - n.margin ≤ p.y ∧ p.y ≤ n.hi.y + n.margin) ∧
  (n.lo.z - n.margin ≤ p.z ∧ p.z ≤ n.hi.z + n.margin)

/-- The allowed volume is not empty. -/
def Sane (n : Node) : Prop :=
  n.lo.x - n.margin ≤ n.hi.x + n.margin ∧ n.lo.y - n.margin ≤ n.hi.y + n.margin ∧
  n.lo.z - n.margin ≤ n.hi.z + n.margin

theorem lim1_in {lo hi m v : ℚ} (h : lo - m ≤ hi + m) :
    (lo - m ≤ (lim1 lo hi m v).1 ∧ (lim1 lo hi m v).1 ≤ hi + m) ∧
    ∀ w, lo - m ≤ w → w ≤ hi + m → |(lim1 lo hi m v).1 - v| ≤ |w - v| := by
  unfold lim1
  by_cases h1 : v < lo - m
  · simp only [h1, if_true]
    have : ¬ lo - m > hi + m := not_lt.2 h
    simp only [this, if_false]
    refine ⟨⟨le_refl _, h⟩, fun w hw _ => ?_⟩
    rw [abs_of_pos (by linarith), abs_of_pos (by linarith)]
    linarith
  · simp only [h1, if_false]
    by_cases h2 : v > hi + m
    · simp only [h2, if_true]
      refine ⟨⟨h, le_refl _⟩, fun w _ hw => ?_⟩
      rw [abs_of_neg (by linarith), abs_of_neg (by linarith)]
      linarith
    · simp only [h2, if_false]
      refine ⟨⟨not_lt.1 h1, not_lt.1 h2⟩, fun w _ _ => ?_⟩
      simp

theorem lim1_acc {lo hi m v : ℚ} :
    (lim1 lo hi m v).2 = false ↔ (lo - m ≤ v ∧ v ≤ hi + m) := by
  unfold lim1
  by_cases h1 : v < lo - m
  · by_cases h2 : lo - m > hi + m
    · simp only [h1, h2, if_true]
      constructor
      · intro h; simp at h
      · intro h; exact absurd h1 (not_lt.2 h.1)
    · simp only [h1, h2, if_true, if_false]
      constructor
      · intro h; simp at h
      · intro h; exact absurd h1 (not_lt.2 h.1)
  · by_cases h2 : v > hi + m
    · simp [h1, h2]
    · simp only [h1, h2, if_false, true_iff]
      exact ⟨not_lt.1 h1, not_lt.1 h2⟩

theorem lim1_same {lo hi m v : ℚ} (h : lo - m ≤ v ∧ v ≤ hi + m) : (lim1 lo hi m v).1 = v := by
  unfold lim1
  simp [not_lt.2 h.1, not_lt.2 h.2]

theorem set_same {n : Node} {p : V3} (h : InBox n p) : setPoint n p = (p, true) := by
  obtain ⟨hx, hy, hz⟩ := h
  have e : setPoint n p = (⟨(lim1 n.lo.x n.hi.x n.margin p.x).1, (lim1 n.lo.y n.hi.y n.margin p.y).1,
    (lim1 n.lo.z n.hi.z n.margin p.z).1⟩, !((lim1 n.lo.x n.hi.x n.margin p.x).2 ||
      (lim1 n.lo.y n.hi.y n.margin p.y).2 || (lim1 n.lo.z n.hi.z n.margin p.z).2)) := rfl
  rw [e, lim1_same hx, lim1_same hy, lim1_same hz, lim1_acc.2 hx, lim1_acc.2 hy, lim1_acc.2 hz]
  rfl

theorem set_acc (n : Node) (p : V3) : (setPoint n p).2 = true ↔ InBox n p := by
  have e : (setPoint n p).2 = !((lim1 n.lo.x n.hi.x n.margin p.x).2 ||
      (lim1 n.lo.y n.hi.y n.margin p.y).2 || (lim1 n.lo.z n.hi.z n.margin p.z).2) := rfl
  rw [e]
  unfold InBox
  rw [← lim1_acc, ← lim1_acc, ← lim1_acc]
  cases (lim1 n.lo.x n.hi.x n.margin p.x).2 <;> cases (lim1 n.lo.y n.hi.y n.margin p.y).2 <;>
    cases (lim1 n.lo.z n.hi.z n.margin p.z).2 <;> simp

theorem set_in {n : Node} (h : Sane n) (p : V3) : InBox n (setPoint n p).1 :=
  ⟨(lim1_in h.1).1, (lim1_in h.2.1).1, (lim1_in h.2.2).1⟩

/-- **C438**: a node is set to a place exactly if the place is in the allowed volume; otherwise it is set
to the place in the volume that is closest in each coordinate. -/
theorem C438_set (n : Node) (h : Sane n) (p : V3) :
    ((setPoint n p).2 = true ↔ InBox n p) ∧ (InBox n p → (setPoint n p).1 = p) ∧
    InBox n (setPoint n p).1 ∧
    ∀ q, InBox n q → |(setPoint n p).1.x - p.x| ≤ |q.x - p.x| ∧
      |(setPoint n p).1.y - p.y| ≤ |q.y - p.y| ∧ |(setPoint n p).1.z - p.z| ≤ |q.z - p.z| := by
  refine ⟨set_acc n p, fun hb => by rw [set_same hb], set_in h p, fun q hq => ⟨?_, ?_, ?_⟩⟩
  · exact (lim1_in h.1).2 _ hq.1.1 hq.1.2
  · exact (lim1_in h.2.1).2 _ hq.2.1.1 hq.2.1.2
  · exact (lim1_in h.2.2).2 _ hq.2.2.1 hq.2.2.2

/-- **C438**: the distance to the wall is the smallest of the six distances to the limits. -/
theorem C438_wall (n : Node) (p : V3) :
    (distToWall n p ∈ [p.x - n.lo.x, n.hi.x - p.x, p.y - n.lo.y, n.hi.y - p.y, p.z - n.lo.z, n.hi.z - p.z]) ∧
    ∀ d ∈ [p.x - n.lo.x, n.hi.x - p.x, p.y - n.lo.y, n.hi.y - p.y, p.z - n.lo.z, n.hi.z - p.z],
      distToWall n p ≤ d := by
  have key : ∀ (l : List ℚ) (a b : ℚ), (a ∈ l ∧ ∀ d ∈ l, a ≤ d) →
      ((if b < a then b else a) ∈ l ++ [b] ∧ ∀ d ∈ l ++ [b], (if b < a then b else a) ≤ d) := by
    intro l a b h
    by_cases hb : b < a
    · simp only [hb, if_true]
      refine ⟨by simp, fun d hd => ?_⟩
      rcases List.mem_append.1 hd with h1 | h1
      · exact le_trans (le_of_lt hb) (h.2 d h1)
      · have : d = b := by simpa using h1
        rw [this]
    · simp only [hb, if_false]
      refine ⟨by simp [h.1], fun d hd => ?_⟩
      rcases List.mem_append.1 hd with h1 | h1
      · exact h.2 d h1
      · have : d = b := by simpa using h1
        rw [this]; exact not_lt.1 hb
  have h0 : p.x - n.lo.x ∈ [p.x - n.lo.x] ∧ ∀ d ∈ [p.x - n.lo.x], p.x - n.lo.x ≤ d := by simp
  exact key _ _ _ (key _ _ _ (key _ _ _ (key _ _ _ (key _ _ (n.hi.x - p.x) h0))))

/-- **C438**: the test for the TPC is that for the limits with the given margin. -/
theorem C438_same (n : Node) (p : V3) (m : ℚ) :
    sameTPC n p m = true ↔ InBox { n with margin := m } p := by
  unfold sameTPC InBox
  simp [and_assoc]

/-- A place outside of the limits of x and one inside. -/
def exN (f : V3 → ℚ) : Node := ⟨⟨-100, -100, -100⟩, ⟨100, 100, 100⟩, 3, 1 / 10000, false, false, false, f⟩

example : Sane (exN (fun _ => 0)) ∧ setPoint (exN (fun _ => 0)) ⟨110, 0, 0⟩ = (⟨103, 0, 0⟩, false) ∧
    distToWall (exN (fun _ => 0)) ⟨95, 0, 0⟩ = 5 := by
  refine ⟨?_, by decide +kernel, by decide +kernel⟩
  unfold Sane exN; norm_num

/-! ### The gradient -/

theorem mg_fields (n : Node) (old p : V3) (h : InBox n p) :
    (makeGradient n old p).2.2 = p ∧
    ((makeGradient n old p).1 = 0 ∨ (makeGradient n old p).1 = n.f p) := by
  unfold makeGradient
  by_cases hd : n.dxi < 6 / 10 ^ 37
  · rw [if_pos hd]; exact ⟨rfl, Or.inl rfl⟩
  · rw [if_neg hd]
    dsimp only
    rw [set_same h]
    generalize (if n.fixX = true then old.x else _) = a
    generalize (if n.fixY = true then old.y else _) = b
    generalize (if n.fixZ = true then old.z else _) = c
    by_cases hc : a * a + b * b + c * c < 6 / 10 ^ 37
    · rw [if_pos hc]; exact ⟨rfl, Or.inl rfl⟩
    · rw [if_neg hc]; exact ⟨rfl, Or.inr rfl⟩

theorem comp_eq (n : Node) (g0 : ℚ) (up dn : V3) (hu : InBox n up) (hd : InBox n dn) :
    comp n g0 up dn = (n.f dn - n.f up) / (2 * n.dxi) := by
  unfold comp
  rw [set_same hu, set_same hd]
  by_cases h : n.dxi = 0
  · simp [h]
  · field_simp
    ring

/-- **C439**: making the gradient leaves the node where it is, and returns 0 or the objective there. -/
theorem C439_place (n : Node) (old p : V3) (h : InBox n p) :
    (makeGradient n old p).2.2 = p ∧
    ((makeGradient n old p).1 = 0 ∨ (makeGradient n old p).1 = n.f p) := mg_fields n old p h

/-- **C439**: a fixed component keeps its value; another is minus the central difference of the objective,
if both places are in the allowed volume. -/
theorem C439_component_partial (n : Node) (old p : V3) (hd : ¬ n.dxi < 6 / 10 ^ 37) :
    (n.fixX = true → (makeGradient n old p).2.1.x = old.x) ∧
    (n.fixX = false → InBox n ⟨p.x + n.dxi, p.y, p.z⟩ → InBox n ⟨p.x - n.dxi, p.y, p.z⟩ →
      (makeGradient n old p).2.1.x =
        -((n.f ⟨p.x + n.dxi, p.y, p.z⟩ - n.f ⟨p.x - n.dxi, p.y, p.z⟩) / (2 * n.dxi))) ∧
    (n.fixY = true → (makeGradient n old p).2.1.y = old.y) ∧
    (n.fixY = false → InBox n ⟨p.x, p.y + n.dxi, p.z⟩ → InBox n ⟨p.x, p.y - n.dxi, p.z⟩ →
      (makeGradient n old p).2.1.y =
        -((n.f ⟨p.x, p.y + n.dxi, p.z⟩ - n.f ⟨p.x, p.y - n.dxi, p.z⟩) / (2 * n.dxi))) ∧
    (n.fixZ = true → (makeGradient n old p).2.1.z = old.z) ∧
    (n.fixZ = false → InBox n ⟨p.x, p.y, p.z + n.dxi⟩ → InBox n ⟨p.x, p.y, p.z - n.dxi⟩ →
      (makeGradient n old p).2.1.z =
        -((n.f ⟨p.x, p.y, p.z + n.dxi⟩ - n.f ⟨p.x, p.y, p.z - n.dxi⟩) / (2 * n.dxi))) := by
  have e : (makeGradient n old p).2.1 =
      ⟨if n.fixX then old.x else comp n (n.f p) ⟨p.x + n.dxi, p.y, p.z⟩ ⟨p.x - n.dxi, p.y, p.z⟩,
       if n.fixY then old.y else comp n (n.f p) ⟨p.x, p.y + n.dxi, p.z⟩ ⟨p.x, p.y - n.dxi, p.z⟩,
       if n.fixZ then old.z else comp n (n.f p) ⟨p.x, p.y, p.z + n.dxi⟩ ⟨p.x, p.y, p.z - n.dxi⟩⟩ := by
    unfold makeGradient
    rw [if_neg hd]
    dsimp only
    generalize (if n.fixX = true then old.x else _) = a
    generalize (if n.fixY = true then old.y else _) = b
    generalize (if n.fixZ = true then old.z else _) = c
    by_cases hc : a * a + b * b + c * c < 6 / 10 ^ 37
    · rw [if_pos hc]
    · rw [if_neg hc]
  rw [e]
  refine ⟨?_, ?_, ?_, ?_, ?_, ?_⟩
  · intro h; simp [h]
  · intro h h1 h2
    simp only [h, Bool.false_eq_true, if_false]
    rw [comp_eq n _ _ _ h1 h2]; ring
  · intro h; simp [h]
  · intro h h1 h2
    simp only [h, Bool.false_eq_true, if_false]
    rw [comp_eq n _ _ _ h1 h2]; ring
  · intro h; simp [h]
  · intro h h1 h2
    simp only [h, Bool.false_eq_true, if_false]
    rw [comp_eq n _ _ _ h1 h2]; ring

/-- The objective falls by 3 for each unit of x. -/
example : (makeGradient (exN (fun p => 100 - 3 * p.x)) ⟨0, 0, 0⟩ ⟨1, 2, 3⟩) = (97, ⟨3, 0, 0⟩, ⟨1, 2, 3⟩) := by
  decide +kernel

/-- **C439**, counterexample at the border: the place above is limited, and the component is half. -/
theorem C439_refuted_border :
    (makeGradient (exN (fun p => 1000 - 3 * p.x)) ⟨0, 0, 0⟩ ⟨103, 2, 3⟩).2.1 = ⟨3 / 2, 0, 0⟩ := by
  decide +kernel

/-! ### The search along the gradient -/

/-- The node may return this value and end at this place. -/
def Good (n : Node) (g0 : ℚ) (r : ℚ) (p : V3) : Prop :=
  InBox n p ∧ (r ≠ 0 → r = (g0 - n.f p) / n.f p) ∧ (0 < r → n.f p < g0)

theorem good_zero {n : Node} {g0 : ℚ} {p : V3} (h : InBox n p) : Good n g0 0 p :=
  ⟨h, fun h => absurd rfl h, fun h => absurd h (lt_irrefl _)⟩

theorem good_ratio {n : Node} {g0 g : ℚ} {p : V3} (h : InBox n p) (hg : 0 < g) (e : g = n.f p ∨ g = g0) :
    Good n g0 ((g0 - g) / g) p := by
  refine ⟨h, fun hr => ?_, fun hr => ?_⟩
  · rcases e with e | e
    · rw [e]
    · exfalso; apply hr; rw [e]; simp
  have h1 : 0 < g0 - g := by
    by_contra hc
    have := div_nonpos_of_nonpos_of_nonneg (not_lt.1 hc) (le_of_lt hg)
    linarith
  rcases e with e | e
  · subst e; linarith
  · rw [e] at h1; linarith

theorem in_seg {n : Node} {tmp grad : V3} {T : ℚ} (h0 : InBox n tmp) (h1 : InBox n (at' tmp grad T))
    {t : ℚ} (ht : 0 ≤ t) (hT : t ≤ T) : InBox n (at' tmp grad t) := by
  have key : ∀ {a b x g : ℚ}, a ≤ x → x ≤ b → a ≤ x + T * g → x + T * g ≤ b →
      a ≤ x + t * g ∧ x + t * g ≤ b := by
    intro a b x g e1 e2 e3 e4
    rcases le_total 0 g with hg | hg
    · have h1 : 0 ≤ t * g := mul_nonneg ht hg
      have h2 : t * g ≤ T * g := mul_le_mul_of_nonneg_right hT hg
      constructor <;> linarith
    · have h1 : t * g ≤ 0 := mul_nonpos_of_nonneg_of_nonpos ht hg
      have h2 : T * g ≤ t * g := mul_le_mul_of_nonpos_right hT hg
      constructor <;> linarith
  obtain ⟨ax, ay, az⟩ := h0
  obtain ⟨bx, bY, bz⟩ := h1
  exact ⟨key ax.1 ax.2 bx.1 bx.2, key ay.1 ay.2 bY.1 bY.2, key az.1 az.2 bz.1 bz.2⟩

theorem zeroTol_pos : 0 < zeroTol := by unfold zeroTol; norm_num

theorem eps_pos : 0 < eps := by unfold eps; norm_num

/-- Three points with the smallest objective in the middle. -/
structure Tri (t1 g1 t2 g2 t3 g3 : ℚ) : Prop where
  nn : 0 ≤ t1
  l : t1 < t2
  r : t2 < t3
  gl : g2 ≤ g1
  gr : g2 ≤ g3
  pos : 0 < g2

theorem newT_mid {t1 g1 t2 g2 t3 g3 : ℚ} (h : Tri t1 g1 t2 g2 t3 g3)
    (hne : ¬ |(t2 - t1) * (g2 - g3) - (t2 - t3) * (g2 - g1)| < eps) :
    let t := newT t1 g1 t2 g2 t3 g3 ((t2 - t1) * (g2 - g3)) ((t2 - t3) * (g2 - g1))
    t2 - (t2 - t1) / 2 ≤ t ∧ t ≤ t2 + (t3 - t2) / 2 := by
  obtain ⟨_, hl, hr, hgl, hgr, _⟩ := h
  have hp1 : (t2 - t1) * (g2 - g3) ≤ 0 :=
    mul_nonpos_of_nonneg_of_nonpos (by linarith) (by linarith)
  have hp2 : 0 ≤ (t2 - t3) * (g2 - g1) :=
    mul_nonneg_of_nonpos_of_nonpos (by linarith) (by linarith)
  generalize (t2 - t1) * (g2 - g3) = p1 at *
  generalize (t2 - t3) * (g2 - g1) = p2 at *
  have hD : 0 < p2 - p1 := by
    rcases lt_or_eq_of_le (show 0 ≤ p2 - p1 by linarith) with h | h
    · exact h
    · exfalso
      apply hne
      have : p1 - p2 = 0 := by linarith
      rw [this, abs_zero]
      exact eps_pos
  have hup : ((t2 - t1) * p1 - (t2 - t3) * p2) / (2 * (p2 - p1)) ≤ (t3 - t2) / 2 := by
    rw [div_le_div_iff₀ (by linarith) (by norm_num)]
    have : (t3 - t1) * p1 ≤ 0 := mul_nonpos_of_nonneg_of_nonpos (by linarith) hp1
    nlinarith
  have hdn : -((t2 - t1) / 2) ≤ ((t2 - t1) * p1 - (t2 - t3) * p2) / (2 * (p2 - p1)) := by
    rw [← neg_div, div_le_div_iff₀ (by norm_num) (by linarith)]
    have : 0 ≤ (t3 - t1) * p2 := mul_nonneg (by linarith) hp2
    nlinarith
  intro t
  have ht : t = t2 + ((t2 - t1) * p1 - (t2 - t3) * p2) / (2 * (p2 - p1)) := by
    change newT t1 g1 t2 g2 t3 g3 p1 p2 = _
    unfold newT
    dsimp only
    rw [if_neg]
    push Not
    constructor <;> linarith
  rw [ht]
  constructor <;> linarith

/-- One round of the third loop: it ends with a good result or goes on with better points. -/
theorem third_cases {n : Node} {tmp grad : V3} {g0 tol : ℚ} (h0 : InBox n tmp) (htol : 0 < tol) (k : ℕ)
    {t1 g1 t2 g2 t3 g3 g : ℚ} {p : V3} (h : Tri t1 g1 t2 g2 t3 g3) (hb : InBox n (at' tmp grad t3))
    (hp : InBox n p) (hg : 0 < g) (he : g = n.f p ∨ g = g0) :
    (∃ r q, (∀ k', third n tmp grad g0 tol (k' + 1) t1 g1 t2 g2 t3 g3 g p = some (r, q)) ∧ Good n g0 r q) ∨
    ∃ s1 e1 s2 e2 s3 e3 g' q,
      third n tmp grad g0 tol (k + 1) t1 g1 t2 g2 t3 g3 g p =
        third n tmp grad g0 tol k s1 e1 s2 e2 s3 e3 g' q ∧
      (∀ k', third n tmp grad g0 tol (k' + 1) t1 g1 t2 g2 t3 g3 g p =
        third n tmp grad g0 tol k' s1 e1 s2 e2 s3 e3 g' q) ∧
      Tri s1 e1 s2 e2 s3 e3 ∧ InBox n (at' tmp grad s3) ∧ InBox n q ∧ 0 < g' ∧ g' = n.f q ∧
      ((tol / 5 ≤ s2 - s1 ∧ tol / 5 ≤ s3 - s2 ∧ s3 - s1 ≤ t3 - t1 ∧
          (tol / 5 ≤ t2 - t1 → tol / 5 ≤ t3 - t2 → s3 - s1 ≤ t3 - t1 - tol / 5)) ∨
       (s3 - s1 ≤ t3 - t1 - tol / 5 ∧
          (tol / 5 ≤ t2 - t1 → tol / 5 ≤ t3 - t2 → tol / 5 ≤ s2 - s1 ∧ tol / 5 ≤ s3 - s2))) := by
  have hgood := good_ratio hp hg he (n := n) (g0 := g0)
  by_cases c1 : ¬ |t1 - t3| > tol
  · exact Or.inl ⟨_, _, fun k' => by rw [third, if_pos c1], hgood⟩
  by_cases c2 : |t2 - t1| < eps ∨ |t2 - t3| < eps
  · exact Or.inl ⟨_, _, fun k' => by rw [third, if_neg c1, if_pos c2], hgood⟩
  by_cases c3 : |g2 - g1| < eps ∧ |g2 - g3| < eps
  · exact Or.inl ⟨_, _, fun k' => by rw [third, if_neg c1, if_neg c2, if_pos c3], hgood⟩
  by_cases c4 : |(t2 - t1) * (g2 - g3) - (t2 - t3) * (g2 - g1)| < eps
  · exact Or.inl ⟨_, _, fun k' => by rw [third, if_neg c1, if_neg c2, if_neg c3]; dsimp only; rw [if_pos c4],
      hgood⟩
  obtain ⟨m1, m2⟩ := newT_mid h c4
  generalize ht : newT t1 g1 t2 g2 t3 g3 ((t2 - t1) * (g2 - g3)) ((t2 - t3) * (g2 - g1)) = t at m1 m2
  have hl := h.l
  have hr := h.r
  have hnn := h.nn
  have hin : InBox n (at' tmp grad t) := in_seg h0 hb (by linarith) (by linarith)
  have hstep : ∀ k', third n tmp grad g0 tol (k' + 1) t1 g1 t2 g2 t3 g3 g p =
      (if n.f (at' tmp grad t) < zeroTol then some (0, at' tmp grad t)
        else if |t - t2| < 1 / 5 * tol then
          some ((g0 - n.f (at' tmp grad t)) / n.f (at' tmp grad t), at' tmp grad t)
        else if n.f (at' tmp grad t) < g2 then
          if t < t2 then third n tmp grad g0 tol k' t1 g1 t (n.f (at' tmp grad t)) t2 g2
            (n.f (at' tmp grad t)) (at' tmp grad t)
          else third n tmp grad g0 tol k' t2 g2 t (n.f (at' tmp grad t)) t3 g3
            (n.f (at' tmp grad t)) (at' tmp grad t)
        else
          if t < t2 then third n tmp grad g0 tol k' t (n.f (at' tmp grad t)) t2 g2 t3 g3
            (n.f (at' tmp grad t)) (at' tmp grad t)
          else third n tmp grad g0 tol k' t1 g1 t2 g2 t (n.f (at' tmp grad t))
            (n.f (at' tmp grad t)) (at' tmp grad t)) := by
    intro k'
    rw [third, if_neg c1, if_neg c2, if_neg c3]
    dsimp only
    rw [if_neg c4, ht, set_same hin]
    simp only [Bool.not_true, Bool.false_eq_true, if_false]
  generalize hq : at' tmp grad t = q at *
  have hz := zeroTol_pos
  by_cases d1 : n.f q < zeroTol
  · exact Or.inl ⟨0, q, fun k' => by rw [hstep, if_pos d1], good_zero hin⟩
  have hfq : 0 < n.f q := by linarith [not_lt.1 d1]
  by_cases d2 : |t - t2| < 1 / 5 * tol
  · exact Or.inl ⟨_, q, fun k' => by rw [hstep, if_neg d1, if_pos d2], good_ratio hin hfq (Or.inl rfl)⟩
  have d2' := not_lt.1 d2
  have hpos := h.pos
  have hgl := h.gl
  have hgr := h.gr
  right
  by_cases d3 : n.f q < g2
  · by_cases d4 : t < t2
    · rw [abs_of_neg (by linarith)] at d2'
      refine ⟨t1, g1, t, n.f q, t2, g2, n.f q, q, ?_, fun k' => ?_, ⟨hnn, by linarith, d4, by linarith,
        by linarith, hfq⟩, in_seg h0 hb (by linarith) (by linarith), hin, hfq, rfl, Or.inl ?_⟩
      · rw [hstep, if_neg d1, if_neg d2, if_pos d3, if_pos d4]
      · rw [hstep, if_neg d1, if_neg d2, if_pos d3, if_pos d4]
      · exact ⟨by linarith, by linarith, by linarith, fun _ _ => by linarith⟩
    · rw [abs_of_nonneg (by linarith)] at d2'
      refine ⟨t2, g2, t, n.f q, t3, g3, n.f q, q, ?_, fun k' => ?_, ⟨by linarith, by linarith, by linarith,
        by linarith, by linarith, hfq⟩, hb, hin, hfq, rfl, Or.inl ?_⟩
      · rw [hstep, if_neg d1, if_neg d2, if_pos d3, if_neg d4]
      · rw [hstep, if_neg d1, if_neg d2, if_pos d3, if_neg d4]
      · exact ⟨by linarith, by linarith, by linarith, fun _ _ => by linarith⟩
  · have d3' := not_lt.1 d3
    by_cases d4 : t < t2
    · rw [abs_of_neg (by linarith)] at d2'
      refine ⟨t, n.f q, t2, g2, t3, g3, n.f q, q, ?_, fun k' => ?_, ⟨by linarith, d4, hr, d3', hgr, hpos⟩, hb,
        hin, hfq, rfl, Or.inr ?_⟩
      · rw [hstep, if_neg d1, if_neg d2, if_neg d3, if_pos d4]
      · rw [hstep, if_neg d1, if_neg d2, if_neg d3, if_pos d4]
      · exact ⟨by linarith, fun _ h2 => ⟨by linarith, h2⟩⟩
    · rw [abs_of_nonneg (by linarith)] at d2'
      refine ⟨t1, g1, t2, g2, t, n.f q, n.f q, q, ?_, fun k' => ?_, ⟨hnn, hl, by linarith, hgl, d3', hpos⟩,
        in_seg h0 hb (by linarith) (by linarith), hin, hfq, rfl, Or.inr ?_⟩
      · rw [hstep, if_neg d1, if_neg d2, if_neg d3, if_neg d4]
      · rw [hstep, if_neg d1, if_neg d2, if_neg d3, if_neg d4]
      · exact ⟨by linarith, fun h1 _ => ⟨h1, by linarith⟩⟩

theorem third_good {n : Node} {tmp grad : V3} {g0 tol : ℚ} (h0 : InBox n tmp) (htol : 0 < tol) (k : ℕ)
    {t1 g1 t2 g2 t3 g3 g : ℚ} {p : V3} (h : Tri t1 g1 t2 g2 t3 g3) (hb : InBox n (at' tmp grad t3))
    (hp : InBox n p) (hg : 0 < g) (he : g = n.f p ∨ g = g0) {r : ℚ} {q : V3}
    (hs : third n tmp grad g0 tol k t1 g1 t2 g2 t3 g3 g p = some (r, q)) : Good n g0 r q := by
  induction k generalizing t1 g1 t2 g2 t3 g3 g p with
  | zero => simp [third] at hs
  | succ k ih =>
    rcases third_cases h0 htol k h hb hp hg he with ⟨r', q', e, hgood⟩ | ⟨s1, e1, s2, e2, s3, e3, g', q', e, _,
      t, b, i, hg', hq, _⟩
    · rw [e] at hs
      simp only [Option.some.injEq, Prod.mk.injEq] at hs
      rw [← hs.1, ← hs.2]; exact hgood
    · rw [e] at hs
      exact ih t b i hg' (Or.inl hq) hs

/-- With both sides long enough the loop ends after as many rounds as the interval has lengths `tol / 5`. -/
theorem third_endA {n : Node} {tmp grad : V3} {g0 tol : ℚ} (h0 : InBox n tmp) (htol : 0 < tol) (m k : ℕ)
    (hk : m + 1 ≤ k) {t1 g1 t2 g2 t3 g3 g : ℚ} {p : V3} (h : Tri t1 g1 t2 g2 t3 g3)
    (hb : InBox n (at' tmp grad t3)) (hp : InBox n p) (hg : 0 < g) (he : g = n.f p ∨ g = g0)
    (ha : tol / 5 ≤ t2 - t1) (hc : tol / 5 ≤ t3 - t2) (hm : t3 - t1 ≤ tol / 5 * m) :
    third n tmp grad g0 tol k t1 g1 t2 g2 t3 g3 g p ≠ none := by
  induction m generalizing k t1 g1 t2 g2 t3 g3 g p with
  | zero =>
    have := h.l; have := h.r
    simp at hm; linarith
  | succ m ih =>
    obtain ⟨k, rfl⟩ : ∃ k', k = k' + 1 := ⟨k - 1, by omega⟩
    push_cast at hm
    rcases third_cases h0 htol k h hb hp hg he with ⟨r', q', e, hgood⟩ | ⟨s1, e1, s2, e2, s3, e3, g', q', e, _,
      t, b, i, hg', hq, hd⟩
    · rw [e]; simp
    · rw [e]
      rcases hd with ⟨d1, d2, _, d3⟩ | ⟨d1, d2⟩
      · exact ih k (by omega) t b i hg' (Or.inl hq) d1 d2 (by have := d3 ha hc; linarith)
      · have := d2 ha hc
        exact ih k (by omega) t b i hg' (Or.inl hq) this.1 this.2 (by linarith)

theorem third_endB {n : Node} {tmp grad : V3} {g0 tol : ℚ} (h0 : InBox n tmp) (htol : 0 < tol) (m k : ℕ)
    (hk : m + 2 ≤ k) {t1 g1 t2 g2 t3 g3 g : ℚ} {p : V3} (h : Tri t1 g1 t2 g2 t3 g3)
    (hb : InBox n (at' tmp grad t3)) (hp : InBox n p) (hg : 0 < g) (he : g = n.f p ∨ g = g0)
    (hm : t3 - t1 ≤ tol / 5 * m) :
    third n tmp grad g0 tol k t1 g1 t2 g2 t3 g3 g p ≠ none := by
  induction m generalizing k t1 g1 t2 g2 t3 g3 g p with
  | zero =>
    have := h.l; have := h.r
    simp at hm; linarith
  | succ m ih =>
    obtain ⟨k, rfl⟩ : ∃ k', k = k' + 1 := ⟨k - 1, by omega⟩
    rcases third_cases h0 htol k h hb hp hg he with ⟨r', q', e, hgood⟩ | ⟨s1, e1, s2, e2, s3, e3, g', q', e, _,
      t, b, i, hg', hq, hd⟩
    · rw [e]; simp
    · rw [e]
      rcases hd with ⟨d1, d2, d4, _⟩ | ⟨d1, _⟩
      · exact third_endA h0 htol (m + 1) k (by omega) t b i hg' (Or.inl hq) d1 d2 (by linarith)
      · push_cast at hm
        exact ih k (by omega) t b i hg' (Or.inl hq) (by linarith)

theorem third_end {n : Node} {tmp grad : V3} {g0 tol : ℚ} (h0 : InBox n tmp) (htol : 0 < tol)
    {t1 g1 t2 g2 t3 g3 g : ℚ} {p : V3} (h : Tri t1 g1 t2 g2 t3 g3)
    (hb : InBox n (at' tmp grad t3)) (hp : InBox n p) (hg : 0 < g) (he : g = n.f p ∨ g = g0) :
    ∃ N, ∀ k ≥ N, third n tmp grad g0 tol k t1 g1 t2 g2 t3 g3 g p ≠ none := by
  obtain ⟨m, hm⟩ := exists_nat_ge ((t3 - t1) / (tol / 5))
  refine ⟨m + 2, fun k hk => third_endB h0 htol m k hk h hb hp hg he ?_⟩
  rw [div_le_iff₀ (by linarith)] at hm
  linarith

/-- One round of the second loop. -/
theorem second_cases {n : Node} {tmp grad : V3} {g0 tol : ℚ} (h0 : InBox n tmp) (htol : 0 < tol)
    {t1 g1 t2 g2 : ℚ} (hn : 0 ≤ t1) (hl : t1 < t2) (hg1 : 0 < g1) (hg : g1 ≤ g2)
    (hb : InBox n (at' tmp grad t2)) :
    (∃ q, (∀ k, second n tmp grad g0 tol (k + 1) t1 g1 t2 g2 = some (.done 0 q)) ∧ InBox n q) ∨
    (∃ s g q, (∀ k, second n tmp grad g0 tol (k + 1) t1 g1 t2 g2 = some (.go t1 g1 s g t2 g2 0 q)) ∧
      Tri t1 g1 s g t2 g2 ∧ InBox n q) ∨
    (∃ s g, (∀ k, second n tmp grad g0 tol (k + 1) t1 g1 t2 g2 = second n tmp grad g0 tol k t1 g1 s g) ∧
      t1 < s ∧ g1 ≤ g ∧ InBox n (at' tmp grad s) ∧ tol ≤ s - t1 ∧ s - t1 ≤ 2 / 3 * (t2 - t1)) := by
  have hsum : 0 < g1 + g2 := by linarith
  have hw1 : t1 < (t1 * g2 + t2 * g1) / (g1 + g2) := by
    rw [lt_div_iff₀ hsum]; nlinarith
  have hw2 : (t1 * g2 + t2 * g1) / (g1 + g2) - t1 ≤ 1 / 2 * (t2 - t1) := by
    rw [sub_le_iff_le_add, div_le_iff₀ hsum]; nlinarith
  generalize hw : (t1 * g2 + t2 * g1) / (g1 + g2) = w at hw1 hw2
  generalize hs : 1 / 20 * t2 + 19 / 20 * w = s
  have hs1 : t1 < s := by linarith
  have hs2 : s - t1 ≤ 2 / 3 * (t2 - t1) := by linarith
  have hin : InBox n (at' tmp grad s) := in_seg h0 hb (by linarith) (by linarith)
  have hstep : ∀ k, second n tmp grad g0 tol (k + 1) t1 g1 t2 g2 =
      (if |s - t1| < tol then some (.done 0 tmp)
      else if n.f (at' tmp grad s) < zeroTol then some (.done 0 (at' tmp grad s))
      else if n.f (at' tmp grad s) ≥ g1 then second n tmp grad g0 tol k t1 g1 s (n.f (at' tmp grad s))
      else some (.go t1 g1 s (n.f (at' tmp grad s)) t2 g2 0 (at' tmp grad s))) := by
    intro k
    rw [second]
    dsimp only
    rw [hw, hs, set_same h0, set_same hin]
    simp only [Bool.not_true, Bool.false_eq_true, if_false]
  by_cases c1 : |s - t1| < tol
  · exact Or.inl ⟨tmp, fun k => by rw [hstep, if_pos c1], h0⟩
  by_cases c2 : n.f (at' tmp grad s) < zeroTol
  · exact Or.inl ⟨_, fun k => by rw [hstep, if_neg c1, if_pos c2], hin⟩
  have hz := zeroTol_pos
  by_cases c3 : n.f (at' tmp grad s) ≥ g1
  · refine Or.inr (Or.inr ⟨s, _, fun k => by rw [hstep, if_neg c1, if_neg c2, if_pos c3], hs1, c3, hin, ?_, hs2⟩)
    rw [abs_of_pos (by linarith)] at c1
    exact not_lt.1 c1
  · refine Or.inr (Or.inl ⟨s, _, _, fun k => by rw [hstep, if_neg c1, if_neg c2, if_neg c3],
      ⟨hn, hs1, by linarith, ?_, ?_, ?_⟩, hin⟩)
    · exact le_of_lt (not_le.1 c3)
    · exact le_trans (le_of_lt (not_le.1 c3)) hg
    · linarith [not_lt.1 c2]

theorem second_good {n : Node} {tmp grad : V3} {g0 tol : ℚ} (h0 : InBox n tmp) (htol : 0 < tol) (k : ℕ)
    {t1 g1 t2 g2 : ℚ} (hn : 0 ≤ t1) (hl : t1 < t2) (hg1 : 0 < g1) (hg : g1 ≤ g2)
    (hb : InBox n (at' tmp grad t2)) {res : Res}
    (hs : second n tmp grad g0 tol k t1 g1 t2 g2 = some res) :
    (∃ q, res = .done 0 q ∧ InBox n q) ∨
    ∃ s1 e1 s2 e2 s3 e3 q, res = .go s1 e1 s2 e2 s3 e3 0 q ∧ Tri s1 e1 s2 e2 s3 e3 ∧ InBox n q ∧
      InBox n (at' tmp grad s3) := by
  induction k generalizing t2 g2 with
  | zero => simp [second] at hs
  | succ k ih =>
    rcases second_cases (g0 := g0) h0 htol hn hl hg1 hg hb with ⟨q, e, hq⟩ | ⟨s, g, q, e, ht, hq⟩ |
      ⟨s, g, e, h1, h2, h3, _⟩
    · rw [e] at hs
      simp only [Option.some.injEq] at hs
      exact Or.inl ⟨q, hs.symm, hq⟩
    · rw [e] at hs
      simp only [Option.some.injEq] at hs
      exact Or.inr ⟨t1, g1, s, g, t2, g2, q, hs.symm, ht, hq, hb⟩
    · rw [e] at hs
      exact ih h1 h2 h3 hs

theorem second_end {n : Node} {tmp grad : V3} {g0 tol : ℚ} (h0 : InBox n tmp) (htol : 0 < tol) (m k : ℕ)
    (hk : m + 1 ≤ k) {t1 g1 t2 g2 : ℚ} (hn : 0 ≤ t1) (hl : t1 < t2) (hg1 : 0 < g1) (hg : g1 ≤ g2)
    (hb : InBox n (at' tmp grad t2)) (hm : t2 - t1 ≤ tol * (3 / 2) ^ m) :
    second n tmp grad g0 tol k t1 g1 t2 g2 ≠ none := by
  induction m generalizing k t2 g2 with
  | zero =>
    obtain ⟨k, rfl⟩ : ∃ k', k = k' + 1 := ⟨k - 1, by omega⟩
    rcases second_cases (g0 := g0) h0 htol hn hl hg1 hg hb with ⟨q, e, hq⟩ | ⟨s, g, q, e, ht, hq⟩ |
      ⟨s, g, e, h1, h2, h3, h4, h5⟩
    · rw [e]; simp
    · rw [e]; simp
    · exfalso
      rw [pow_zero, mul_one] at hm
      linarith
  | succ m ih =>
    obtain ⟨k, rfl⟩ : ∃ k', k = k' + 1 := ⟨k - 1, by omega⟩
    rcases second_cases (g0 := g0) h0 htol hn hl hg1 hg hb with ⟨q, e, hq⟩ | ⟨s, g, q, e, ht, hq⟩ |
      ⟨s, g, e, h1, h2, h3, h4, h5⟩
    · rw [e]; simp
    · rw [e]; simp
    · rw [e]
      refine ih k (by omega) h1 h2 h3 ?_
      rw [pow_succ] at hm
      nlinarith

/-- What the first loop ends with. -/
def FirstOk (n : Node) (tmp grad : V3) (g0 : ℚ) : Res → Prop
  | .done r p => Good n g0 r p
  | .go t1 g1 t2 g2 t3 g3 steps p =>
    InBox n (at' tmp grad t3) ∧ InBox n p ∧
    ((steps = 1 ∧ t1 = 0 ∧ g1 = g0 ∧ 0 < t3 ∧ g0 ≤ g3) ∨ (steps ≠ 1 ∧ Tri t1 g1 t2 g2 t3 g3))

theorem first_ok {n : Node} {tmp grad : V3} {g0 : ℚ} (hs : Sane n) (h0 : InBox n tmp)
    (k : ℕ) (hk : k ≤ 1001) {alfa t2 g2 t3 g3 : ℚ} (ha : 0 < alfa)
    (hi : (k = 1001 ∧ t2 = 0 ∧ t3 = 0 ∧ g2 = g0 ∧ g3 = g0) ∨ (k < 1001 ∧ 0 ≤ t2 ∧ t2 < t3 ∧ g3 < g2 ∧ g3 ≤ g0))
    (hpos : 0 < g3) :
    FirstOk n tmp grad g0 (first n tmp grad g0 k alfa t2 g2 t3 g3) := by
  induction k generalizing alfa t2 g2 t3 g3 with
  | zero => rw [first, set_same h0]; exact good_zero h0
  | succ k ih =>
    rw [first]
    have hg3 : g3 ≤ g0 := by rcases hi with ⟨_, _, _, _, h⟩ | ⟨_, _, _, _, h⟩ <;> linarith
    have ht3 : 0 ≤ t3 := by rcases hi with ⟨_, _, h, _⟩ | ⟨_, h1, h2, _⟩ <;> linarith
    rw [set_same h0]
    by_cases hb : InBox n (at' tmp grad (t3 + alfa * (5 / 4)))
    · rw [set_same hb]
      simp only [Bool.not_true, Bool.false_eq_true, if_false]
      generalize hq : at' tmp grad (t3 + alfa * (5 / 4)) = q at hb ⊢
      have hz := zeroTol_pos
      by_cases c1 : n.f q < zeroTol
      · rw [if_pos c1]; exact good_zero hb
      · rw [if_neg c1]
        have hfq : 0 < n.f q := by linarith [not_lt.1 c1]
        by_cases c2 : k = 0
        · rw [if_pos c2]; exact good_zero h0
        · rw [if_neg c2]
          by_cases c3 : n.f q < g3
          · rw [if_pos c3]
            refine ih (by omega) (by linarith) (Or.inr ⟨by omega, ht3, by linarith, c3, by linarith⟩) hfq
          · rw [if_neg c3]
            refine ⟨by rw [hq]; exact hb, hb, ?_⟩
            rcases hi with ⟨h1, h2, h3, h4, h5⟩ | ⟨h1, h2, h3, h4, h5⟩
            · left
              refine ⟨by omega, h2, h4, by linarith, ?_⟩
              rw [← h5]; exact not_lt.1 c3
            · right
              refine ⟨by omega, ⟨h2, h3, by linarith, le_of_lt h4, not_lt.1 c3, hpos⟩⟩
    · have hacc : (setPoint n (at' tmp grad (t3 + alfa * (5 / 4)))).2 = false := by
        rw [Bool.eq_false_iff]
        intro h
        exact hb ((set_acc n _).1 h)
      rw [hacc]
      simp only [Bool.not_false, if_true]
      have hin := set_in hs (at' tmp grad (t3 + alfa * (5 / 4)))
      generalize (setPoint n (at' tmp grad (t3 + alfa * (5 / 4)))).1 = q at hin ⊢
      by_cases c : n.f q < g3
      · rw [if_pos c]
        refine ⟨hin, fun _ => rfl, fun _ => by linarith⟩
      · rw [if_neg c]; exact good_zero h0

end Verif.PmaNode

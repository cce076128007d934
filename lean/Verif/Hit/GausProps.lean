import Verif.Hit.GausModel
import Mathlib.Tactic.Linarith
import Mathlib.Tactic.Ring
import Mathlib.Tactic.FieldSimp
import Mathlib.Tactic.NormNum
import Mathlib.Data.List.TakeWhile
import Mathlib.Algebra.Order.BigOperators.Group.List

/-! Properties of the Gaussian hit finder. -/

namespace Verif.Gaus

/-! ### C240 long pulses -/

/-- consecutive non-empty intervals from `s`, all inside the interval that ends at `e` -/
def Consecutive (e : Nat) : Nat → List (Nat × Nat) → Prop
  | _, [] => True
  | s, p :: t => p.1 = s ∧ p.1 < p.2 ∧ p.2 ≤ e ∧ Consecutive e p.2 t

/-- every tick of the pulse is in one of the pieces -/
def Covers (s e : Nat) (l : List (Nat × Nat)) : Prop := ∀ t, s ≤ t → t < e → ∃ p ∈ l, p.1 ≤ t ∧ t < p.2

theorem cut_length (w stop : Nat) : ∀ k a b, (cut w stop k a b).length = k
  | 0, _, _ => rfl
  | k + 1, _, _ => by simp [cut, cut_length w stop k]

theorem cut_consecutive (w stop : Nat) (hw : 0 < w) : ∀ k a, (k = 0 ∨ a + (k - 1) * w < stop) →
    Consecutive stop a (cut w stop k a (min (a + w) stop))
  | 0, _, _ => trivial
  | k + 1, a, h => by
    have h' : a + k * w < stop := by simpa using h
    have ha : a < stop := by
      have := Nat.zero_le (k * w)
      omega
    refine ⟨rfl, by show a < min (a + w) stop; omega, by show min (a + w) stop ≤ stop; omega, ?_⟩
    show Consecutive stop (min (a + w) stop) (cut w stop k (min (a + w) stop) (min (min (a + w) stop + w) stop))
    apply cut_consecutive w stop hw k
    rcases Nat.eq_zero_or_pos k with rfl | hk
    · left; rfl
    · right
      obtain ⟨j, rfl⟩ : ∃ j, k = j + 1 := ⟨k - 1, by omega⟩
      have e : (j + 1) * w = j * w + w := by ring
      rw [e] at h'
      simp only [Nat.add_sub_cancel]
      omega

theorem cut_covers (w stop : Nat) : ∀ k a, stop ≤ a + k * w →
    Covers a stop (cut w stop k a (min (a + w) stop))
  | 0, a, h => by
    intro t h1 h2
    simp at h
    omega
  | k + 1, a, h => by
    intro t h1 h2
    by_cases ht : t < min (a + w) stop
    · exact ⟨(a, min (a + w) stop), by simp [cut], h1, ht⟩
    · have e : (k + 1) * w = k * w + w := by ring
      rw [e] at h
      have hm : min (a + w) stop = a + w := by omega
      obtain ⟨p, hp, q⟩ := cut_covers w stop k (min (a + w) stop) (by rw [hm]; omega) t (by omega) h2
      exact ⟨p, by rw [cut]; exact List.mem_cons_of_mem _ hp, q⟩

theorem cut_last (w stop : Nat) : ∀ k a, ∀ p ∈ cut w stop k a (min (a + w) stop), p.2 ≤ a + k * w
  | 0, _, p, hp => by simp [cut] at hp
  | k + 1, a, p, hp => by
    have e : (k + 1) * w = k * w + w := by ring
    rw [e]
    rw [cut] at hp
    rcases List.mem_cons.mp hp with rfl | hp
    · show min (a + w) stop ≤ _
      have := Nat.zero_le (k * w)
      omega
    · have := cut_last w stop k (min (a + w) stop) p hp
      omega

theorem pieces_ok (len w m : Nat) (hw : 0 < w) (hm : 0 < m) (hl : 0 < len) :
    0 < (pieces len w m).2 ∧ 0 < (pieces len w m).1 ∧
      ((pieces len w m).1 - 1) * (pieces len w m).2 < len ∧ (pieces len w m).1 ≤ m + 1 := by
  unfold pieces
  dsimp only
  by_cases h : len / w > m
  · rw [if_pos h]
    have h1 : 0 < len / m := by
      have hk : m < len / w := h
      have : (m + 1) * w ≤ len := (Nat.le_div_iff_mul_le hw).mp hk
      have hw' : m + 1 ≤ (m + 1) * w := Nat.le_mul_of_pos_right _ hw
      exact Nat.div_pos (by omega) hm
    have h2 : m * (len / m) ≤ len := Nat.mul_div_le len m
    split
    · refine ⟨h1, by omega, by simpa using ‹_›, by simp⟩
    · refine ⟨h1, hm, ?_, by simp⟩
      have : (m - 1) * (len / m) + len / m = m * (len / m) := by
        obtain ⟨j, rfl⟩ : ∃ j, m = j + 1 := ⟨m - 1, by omega⟩
        simp only [Nat.add_sub_cancel]
        ring
      show (m - 1) * (len / m) < len
      exact lt_of_lt_of_le (Nat.lt_add_of_pos_right h1) (this.trans_le h2)
  · rw [if_neg h]
    have h2 : w * (len / w) ≤ len := Nat.mul_div_le len w
    have h3 : len / w * w ≤ len := Nat.div_mul_le_self len w
    split
    · refine ⟨hw, Nat.succ_pos _, by simpa using ‹_›, ?_⟩
      show len / w + 1 ≤ m + 1
      omega
    · rename_i hn
      dsimp only at hn
      have hp : 0 < len / w := by
        rcases Nat.eq_zero_or_pos (len / w) with h0 | h0
        · rw [h0] at hn; simp at hn; omega
        · exact h0
      refine ⟨hw, hp, ?_, by dsimp only; omega⟩
      have : (len / w - 1) * w + w = len / w * w := by
        obtain ⟨j, hj⟩ : ∃ j, len / w = j + 1 := ⟨len / w - 1, by omega⟩
        rw [hj]
        simp only [Nat.add_sub_cancel]
        ring
      show (len / w - 1) * w < len
      exact lt_of_lt_of_le (Nat.lt_add_of_pos_right hw) (this.trans_le h3)

/-- C240 (part): the pieces of a long pulse are not empty, follow one another from the start of the pulse and stay inside
it; there are at most `LongMaxHits + 1`. -/
theorem C240_pieces (w m start stop : Nat) (hw : 0 < w) (hm : 0 < m) (h : start < stop) :
    Consecutive stop start (longPulse w m start stop) ∧
    0 < (longPulse w m start stop).length ∧ (longPulse w m start stop).length ≤ m + 1 := by
  obtain ⟨h1, h2, h3, h4⟩ := pieces_ok (stop - start) w m hw hm (by omega)
  unfold longPulse
  dsimp only
  rw [cut_length]
  refine ⟨cut_consecutive _ _ h1 _ _ (Or.inr ?_), h2, h4⟩
  omega

/-- C240 (part): when the number of pieces is not limited by `LongMaxHits` they cover the whole pulse. -/
theorem C240_covers_partial (w m start stop : Nat) (_hw : 0 < w) (h : start ≤ stop) (hm : (stop - start) / w ≤ m) :
    Covers start stop (longPulse w m start stop) := by
  unfold longPulse
  dsimp only
  apply cut_covers
  have h2 : stop - start < ((stop - start) / w + 1) * w := by
    have := Nat.lt_div_mul_add (a := stop - start) _hw
    rwa [show ((stop - start) / w + 1) * w = (stop - start) / w * w + w by ring]
  unfold pieces
  dsimp only
  rw [if_neg (Nat.not_lt.mpr hm)]
  generalize (stop - start) / w = d at h2 ⊢
  split
  · dsimp only
    generalize (d + 1) * w = x at h2 ⊢
    omega
  · rename_i hn
    dsimp only at hn ⊢
    clear h2
    generalize d * w = x at hn ⊢
    omega

/-- C240 (exact): when it is limited, the pulse is covered exactly if the remainder is at most the width of a piece. -/
theorem C240_capped (w m start stop : Nat) (hm : 0 < m) (h : start < stop) (hc : m < (stop - start) / w) :
    Covers start stop (longPulse w m start stop) ↔ (stop - start) % m ≤ (stop - start) / m := by
  have hd := Nat.div_add_mod (stop - start) m
  have hml : (stop - start) % m < m := Nat.mod_lt _ hm
  have hpc : (pieces (stop - start) w m) =
      if m * ((stop - start) / m) < stop - start then (m + 1, (stop - start) / m) else (m, (stop - start) / m) := by
    unfold pieces
    dsimp only
    rw [if_pos hc]
  constructor
  · intro hcov
    obtain ⟨p, hp, q1, q2⟩ := hcov (stop - 1) (by omega) (by omega)
    unfold longPulse at hp
    dsimp only at hp
    have hl := cut_last _ _ _ _ p hp
    rw [hpc] at hl
    clear hpc hp
    generalize (stop - start) / m = d at hd hl ⊢
    generalize (stop - start) % m = r at hd hml ⊢
    have e : (m + 1) * d = m * d + d := by ring
    split at hl
    · dsimp only at hl
      rw [e] at hl
      generalize m * d = x at *
      omega
    · dsimp only at hl
      generalize m * d = x at *
      omega
  · intro hr
    unfold longPulse
    dsimp only
    apply cut_covers
    rw [hpc]
    clear hpc
    generalize (stop - start) / m = d at hd hr ⊢
    generalize (stop - start) % m = r at hd hml hr ⊢
    have e : (m + 1) * d = m * d + d := by ring
    split
    · dsimp only
      rw [e]
      generalize m * d = x at *
      omega
    · dsimp only
      generalize m * d = x at *
      omega

/-- C240 (refuted): a pulse of 424 ticks with the width 16 and at most 25 pieces loses its last eight ticks, and a
pulse can be cut into more than `LongMaxHits` pieces. -/
theorem C240_refuted :
    (¬ ∀ w m start stop : Nat, 0 < w → 0 < m → start < stop → Covers start stop (longPulse w m start stop)) ∧
    (¬ ∀ w m start stop : Nat, 0 < w → 0 < m → start < stop → (longPulse w m start stop).length ≤ m) := by
  constructor
  · intro h
    have h1 := h 16 25 0 424 (by decide) (by decide) (by decide)
    rw [C240_capped 16 25 0 424 (by decide) (by decide) (by decide)] at h1
    revert h1
    decide
  · intro h
    have h1 := h 16 3 0 100 (by decide) (by decide) (by decide)
    revert h1
    decide

/-- C240 (part): the area of a piece is its sum. -/
theorem C240_area (signal : ℤ → ℚ) (p : Nat × Nat) (h : p.1 < p.2) :
    (pieceParams signal p).amp * (pieceParams signal p).sigma = 3989 / 10000 * sumAdc signal p.1 p.2 ∧
    (p.1 : ℚ) < (pieceParams signal p).center ∧ (pieceParams signal p).center < p.2 ∧
    (pieceParams signal p).center - 3 / 2 * (pieceParams signal p).sigma = p.1 ∧
    (pieceParams signal p).center + 3 / 2 * (pieceParams signal p).sigma = p.2 := by
  have hq : (p.1 : ℚ) < p.2 := by exact_mod_cast h
  unfold pieceParams
  dsimp only
  have h0 : ((p.2 : ℚ) - p.1) ≠ 0 := by linarith
  refine ⟨?_, by linarith, by linarith, by ring, by ring⟩
  field_simp

example : longPulse 16 25 3 43 = [(3, 19), (19, 35), (35, 43)] := by decide
example : ((longPulse 16 25 0 424).map Prod.snd).getLast? = some 416 := by decide
example : pieceParams (fun _ => 2) (3, 9) = ⟨true, 3989 / 10000 * 12 / 2, 6, 2⟩ := by decide +kernel

/-! ### C241, C242 the windows of the hits -/

theorem trunc_nonneg {q : ℚ} (h : 0 ≤ q) : trunc q = ⌊q⌋ := by simp [trunc, h]

/-- the peaks as a function -/
def pk (ps : List Peak) (i : Nat) : Peak := ps.getD i ⟨false, 0, 0, 0⟩

theorem get_pk {ps : List Peak} {i : Nat} (h : i < ps.length) : ps[i]? = some (pk ps i) := by
  simp [pk, h]

/-- the peaks are in order of time, have an amplitude and a positive width, and are in the pulse -/
def Good (start stop : ℤ) (ps : List Peak) : Prop :=
  (∀ (i : Nat) (p q : Peak), ps[i]? = some p → ps[i + 1]? = some q → p.center < q.center) ∧
  0 ≤ start ∧ ∀ p ∈ ps, p.ok = true ∧ 0 < p.sigma ∧ (start : ℚ) ≤ p.center ∧ p.center < stop

def loS (ps : List Peak) (start : ℤ) (i : Nat) : ℤ :=
  max start (if 0 < i ∧ overlap (pk ps (i - 1)) (pk ps i) then borderZ (pk ps (i - 1)) (pk ps i)
    else trunc (pk ps i).center - trunc (2 * (pk ps i).sigma))

def hiS (ps : List Peak) (stop : ℤ) (i : Nat) : ℤ :=
  min stop (if i + 1 < ps.length ∧ overlap (pk ps i) (pk ps (i + 1)) then borderZ (pk ps i) (pk ps (i + 1))
    else trunc (pk ps i).center + trunc (2 * (pk ps i).sigma))

section
variable {start stop : ℤ} {ps : List Peak}

theorem good_pk (hg : Good start stop ps) {i : Nat} (h : i < ps.length) :
    (pk ps i).ok = true ∧ 0 < (pk ps i).sigma ∧ (start : ℚ) ≤ (pk ps i).center ∧ (pk ps i).center < stop ∧
      0 ≤ (pk ps i).center := by
  have := hg.2.2 _ (List.mem_of_getElem? (get_pk h))
  have h0 : (0 : ℚ) ≤ start := by exact_mod_cast hg.2.1
  exact ⟨this.1, this.2.1, this.2.2.1, this.2.2.2, by linarith [this.2.2.1]⟩

theorem good_lt (hg : Good start stop ps) {i : Nat} (h : i + 1 < ps.length) :
    (pk ps i).center < (pk ps (i + 1)).center := hg.1 i _ _ (get_pk (by omega)) (get_pk h)

/-- fraction of the distance -/
theorem border_between {a b : Peak} (ha : 0 < a.sigma) (hb : 0 < b.sigma) (h : a.center < b.center) :
    0 ≤ (b.center - a.center) * (a.sigma / (a.sigma + b.sigma)) ∧
    (b.center - a.center) * (a.sigma / (a.sigma + b.sigma)) ≤ b.center - a.center := by
  have h1 : 0 ≤ a.sigma / (a.sigma + b.sigma) := by positivity
  have h2 : a.sigma / (a.sigma + b.sigma) ≤ 1 := by rw [div_le_one (by linarith)]; linarith
  have h3 : 0 ≤ b.center - a.center := by linarith
  exact ⟨by positivity, by nlinarith⟩

theorem borderZ_between {a b : Peak} (ha : 0 < a.sigma) (hb : 0 < b.sigma) (h : a.center < b.center)
    (h0 : 0 ≤ a.center) : trunc a.center ≤ borderZ a b ∧ borderZ a b ≤ trunc b.center := by
  obtain ⟨h1, h2⟩ := border_between ha hb h
  unfold borderZ
  rw [trunc_nonneg h0, trunc_nonneg h1, trunc_nonneg (q := b.center) (by linarith)]
  constructor
  · have : (0 : ℤ) ≤ ⌊(b.center - a.center) * (a.sigma / (a.sigma + b.sigma))⌋ := Int.floor_nonneg.mpr h1
    omega
  · rw [Int.le_floor]
    push_cast
    have e1 := Int.floor_le a.center
    have e2 := Int.floor_le ((b.center - a.center) * (a.sigma / (a.sigma + b.sigma)))
    linarith

theorem two_sigma_nonneg {p : Peak} (h : 0 < p.sigma) : 0 ≤ trunc (2 * p.sigma) := by
  rw [trunc_nonneg (by linarith)]
  exact Int.floor_nonneg.mpr (by linarith)

theorem trunc_in (hg : Good start stop ps) {i : Nat} (h : i < ps.length) :
    start ≤ trunc (pk ps i).center ∧ trunc (pk ps i).center ≤ stop := by
  obtain ⟨_, _, h1, h2, h3⟩ := good_pk hg h
  rw [trunc_nonneg h3]
  refine ⟨Int.le_floor.mpr h1, ?_⟩
  have := Int.floor_le (pk ps i).center
  have h4 : ((⌊(pk ps i).center⌋ : ℤ) : ℚ) < stop := by linarith
  have h5 : ⌊(pk ps i).center⌋ < stop := by exact_mod_cast h4
  omega

theorem loS_le (hg : Good start stop ps) {i : Nat} (h : i < ps.length) :
    start ≤ loS ps start i ∧ loS ps start i ≤ trunc (pk ps i).center := by
  unfold loS
  refine ⟨le_max_left _ _, max_le (trunc_in hg h).1 ?_⟩
  split
  · rename_i hi
    obtain ⟨j, rfl⟩ : ∃ j, i = j + 1 := ⟨i - 1, by omega⟩
    have g := good_pk hg (i := j) (by omega)
    exact (borderZ_between g.2.1 (good_pk hg h).2.1 (good_lt hg h) g.2.2.2.2).2
  · have := two_sigma_nonneg (good_pk hg h).2.1
    omega

theorem le_hiS (hg : Good start stop ps) {i : Nat} (h : i < ps.length) :
    hiS ps stop i ≤ stop ∧ trunc (pk ps i).center ≤ hiS ps stop i := by
  unfold hiS
  refine ⟨min_le_left _ _, le_min (trunc_in hg h).2 ?_⟩
  split
  · rename_i hi
    have g := good_pk hg h
    exact (borderZ_between g.2.1 (good_pk hg hi.1).2.1 (good_lt hg hi.1) g.2.2.2.2).1
  · have := two_sigma_nonneg (good_pk hg h).2.1
    omega

theorem hiS_loS (hg : Good start stop ps) {i : Nat} (h : i + 1 < ps.length) :
    hiS ps stop i ≤ loS ps start (i + 1) := by
  unfold hiS loS
  apply le_trans (min_le_right _ _)
  apply le_trans _ (le_max_right _ _)
  simp only [Nat.add_sub_cancel]
  by_cases ho : overlap (pk ps i) (pk ps (i + 1)) = true
  · rw [if_pos ⟨h, ho⟩, if_pos ⟨by omega, ho⟩]
  · rw [if_neg (by tauto), if_neg (by tauto)]
    have g := good_pk hg (i := i) (by omega)
    have g' := good_pk hg h
    have hov : ¬ (pk ps (i + 1)).center - 2 * (pk ps (i + 1)).sigma < (pk ps i).center + 2 * (pk ps i).sigma := by
      simpa [overlap] using ho
    rw [trunc_nonneg g.2.2.2.2, trunc_nonneg g'.2.2.2.2, trunc_nonneg (by linarith [g.2.1]),
      trunc_nonneg (by linarith [g'.2.1])]
    have : ⌊(pk ps i).center⌋ + ⌊2 * (pk ps i).sigma⌋ + ⌊2 * (pk ps (i + 1)).sigma⌋ ≤ ⌊(pk ps (i + 1)).center⌋ := by
      rw [Int.le_floor]
      push_cast
      have e1 := Int.floor_le (pk ps i).center
      have e2 := Int.floor_le (2 * (pk ps i).sigma)
      have e3 := Int.floor_le (2 * (pk ps (i + 1)).sigma)
      linarith
    omega

theorem leftOf_eq (s : St) (h : s.n < ps.length) :
    max start (leftOf ps.length ps s (pk ps s.n)).1 = loS ps start s.n := by
  unfold leftOf loS
  dsimp only
  rcases Nat.eq_zero_or_pos s.n with h0 | h0
  · simp [h0]
  · have e : ps[s.n - 1]? = some (pk ps (s.n - 1)) := get_pk (by omega)
    rw [if_pos (c := 1 < ps.length ∧ 0 < s.n) ⟨by omega, h0⟩, e]
    dsimp only
    by_cases ho : overlap (pk ps (s.n - 1)) (pk ps s.n) = true
    · rw [if_pos ho, if_pos ⟨h0, ho⟩]
    · rw [if_neg ho, if_neg (c := 0 < s.n ∧ overlap (pk ps (s.n - 1)) (pk ps s.n) = true) (by tauto)]

theorem rightOf_eq (s : St) :
    min stop (rightOf ps.length ps s (pk ps s.n)).1 = hiS ps stop s.n := by
  unfold rightOf hiS
  dsimp only
  by_cases h : s.n + 1 < ps.length
  · rw [if_pos (c := 1 < ps.length ∧ s.n + 1 < ps.length) ⟨by omega, h⟩, get_pk h]
    dsimp only
    by_cases ho : overlap (pk ps s.n) (pk ps (s.n + 1)) = true
    · rw [if_pos ho, if_pos ⟨h, ho⟩]
    · rw [if_neg ho, if_neg (c := s.n + 1 < ps.length ∧ overlap (pk ps s.n) (pk ps (s.n + 1)) = true) (by tauto)]
  · rw [if_neg (c := 1 < ps.length ∧ s.n + 1 < ps.length) (by tauto),
      if_neg (c := s.n + 1 < ps.length ∧ overlap (pk ps s.n) (pk ps (s.n + 1)) = true) (by tauto)]

/-- the state after the first `k` peaks -/
def stAt (start stop : ℤ) (ps : List Peak) (k : Nat) : St :=
  (((List.range ps.length).zip ps).take k).foldl (peakStep ps.length start stop ps) ⟨0, 0, 0, []⟩

theorem stAt_succ {k : Nat} (h : k < ps.length) :
    stAt start stop ps (k + 1) = peakStep ps.length start stop ps (stAt start stop ps k) (k, pk ps k) := by
  unfold stAt
  rw [List.take_add_one, List.foldl_append]
  have : ((List.range ps.length).zip ps)[k]? = some (k, pk ps k) := by
    rw [List.getElem?_zip_eq_some]
    exact ⟨by simp [h], get_pk h⟩
  rw [this]
  rfl

/-- what holds after `k` peaks -/
def Inv (start stop : ℤ) (ps : List Peak) (k : Nat) (s : St) : Prop :=
  s.n = k ∧ s.out = (List.range k).map (fun i => (⟨i, i, loS ps start i, hiS ps stop i⟩ : GHit)) ∧
  (0 < k → s.left ≤ (pk ps (k - 1)).center ∧ s.left ≤ s.right ∧
    (k < ps.length → overlap (pk ps (k - 1)) (pk ps k) = true → s.right = borderQ (pk ps (k - 1)) (pk ps k)))

theorem inv_at (hg : Good start stop ps) (hb : ∀ p ∈ ps, p.center ≤ 9999) :
    ∀ k, k ≤ ps.length → Inv start stop ps k (stAt start stop ps k)
  | 0, _ => ⟨rfl, rfl, fun h => absurd h (by omega)⟩
  | k + 1, h => by
    have ih := inv_at hg hb k (by omega)
    have hk : k < ps.length := by omega
    rw [stAt_succ hk]
    obtain ⟨hn, hout, hs⟩ := ih
    generalize stAt start stop ps k = s at hn hout hs
    obtain ⟨n, left, right, out⟩ := s
    dsimp only at hn hout hs
    subst hn
    have g := good_pk hg hk
    have c9 : (pk ps n).center ≤ 9999 := hb _ (List.mem_of_getElem? (get_pk hk))
    have hl := leftOf_eq (start := start) ⟨n, left, right, out⟩ hk
    have hr := rightOf_eq (stop := stop) (ps := ps) ⟨n, left, right, out⟩
    -- the borders
    have hleft : (leftOf ps.length ps ⟨n, left, right, out⟩ (pk ps n)).2 ≤ (pk ps n).center ∧
        ((0 < n ∧ overlap (pk ps (n - 1)) (pk ps n) = true) ∧
            (leftOf ps.length ps ⟨n, left, right, out⟩ (pk ps n)).2 = borderQ (pk ps (n - 1)) (pk ps n) ∨
          (leftOf ps.length ps ⟨n, left, right, out⟩ (pk ps n)).2 = if n = 0 then -9999 else left) := by
      unfold leftOf
      dsimp only
      rcases Nat.eq_zero_or_pos n with h0 | h0
      · subst h0
        simp only [Nat.lt_irrefl, and_false, if_false, if_true]
        exact ⟨by linarith [g.2.2.2.2], Or.inr trivial⟩
      · have hn0 : n ≠ 0 := by omega
        obtain ⟨a, _, _⟩ := hs h0
        have e : ps[n - 1]? = some (pk ps (n - 1)) := get_pk (by omega)
        have hlt : (pk ps (n - 1)).center < (pk ps n).center := by
          have := good_lt hg (i := n - 1) (by omega)
          rwa [show n - 1 + 1 = n by omega] at this
        rw [if_pos (c := 1 < ps.length ∧ 0 < n) ⟨by omega, h0⟩, e]
        dsimp only
        by_cases ho : overlap (pk ps (n - 1)) (pk ps n) = true
        · rw [if_pos ho]
          refine ⟨?_, Or.inl ⟨⟨h0, ho⟩, rfl⟩⟩
          have := (border_between (good_pk hg (i := n - 1) (by omega)).2.1 g.2.1 hlt).2
          unfold borderQ
          dsimp only
          linarith
        · rw [if_neg ho]
          refine ⟨?_, Or.inr rfl⟩
          dsimp only
          rw [if_neg hn0]
          linarith
    have hright : (n + 1 < ps.length → overlap (pk ps n) (pk ps (n + 1)) = true →
          (rightOf ps.length ps ⟨n, left, right, out⟩ (pk ps n)).2 = borderQ (pk ps n) (pk ps (n + 1))) ∧
        ((pk ps n).center ≤ (rightOf ps.length ps ⟨n, left, right, out⟩ (pk ps n)).2 ∨
          (0 < n ∧ (rightOf ps.length ps ⟨n, left, right, out⟩ (pk ps n)).2 = right)) := by
      have base : ∀ x : ℚ, x = (if n = 0 then 9999 else right) → (pk ps n).center ≤ x ∨ (0 < n ∧ x = right) := by
        intro x hx
        rcases Nat.eq_zero_or_pos n with h0 | h0
        · left; rw [hx, if_pos h0]; exact c9
        · right; exact ⟨h0, by rw [hx, if_neg (by omega)]⟩
      unfold rightOf
      dsimp only
      by_cases h1 : n + 1 < ps.length
      · rw [if_pos (c := 1 < ps.length ∧ n + 1 < ps.length) ⟨by omega, h1⟩, get_pk h1]
        dsimp only
        by_cases ho : overlap (pk ps n) (pk ps (n + 1)) = true
        · rw [if_pos ho]
          refine ⟨fun _ _ => rfl, Or.inl ?_⟩
          have := (border_between g.2.1 (good_pk hg h1).2.1 (good_lt hg h1)).1
          unfold borderQ
          dsimp only
          linarith
        · rw [if_neg ho]
          exact ⟨fun _ h2 => absurd h2 ho, base _ rfl⟩
      · rw [if_neg (c := 1 < ps.length ∧ n + 1 < ps.length) (by tauto)]
        exact ⟨fun h2 => absurd h2 h1, base _ rfl⟩
    have hlr : (leftOf ps.length ps ⟨n, left, right, out⟩ (pk ps n)).2 ≤
        (rightOf ps.length ps ⟨n, left, right, out⟩ (pk ps n)).2 := by
      rcases hright.2 with hc | ⟨h0, hc⟩
      · linarith [hleft.1]
      · obtain ⟨_, b, c⟩ := hs h0
        rw [hc]
        rcases hleft.2 with ⟨ho, he⟩ | he
        · rw [he, c hk ho.2]
        · rw [he, if_neg (by omega)]
          exact b
    have hlo := loS_le hg hk
    have hhi := le_hiS hg hk
    unfold peakStep
    dsimp only
    rw [if_neg (by simp [g.1]), if_neg (by linarith)]
    have e1 : (if (leftOf ps.length ps ⟨n, left, right, out⟩ (pk ps n)).1 < start then start
        else (leftOf ps.length ps ⟨n, left, right, out⟩ (pk ps n)).1) = loS ps start n := by
      rw [← hl]
      show _ = max start (leftOf ps.length ps ⟨n, left, right, out⟩ (pk ps n)).1
      split <;> omega
    have e2 : (if (rightOf ps.length ps ⟨n, left, right, out⟩ (pk ps n)).1 > stop then stop
        else (rightOf ps.length ps ⟨n, left, right, out⟩ (pk ps n)).1) = hiS ps stop n := by
      rw [← hr]
      show _ = min stop (rightOf ps.length ps ⟨n, left, right, out⟩ (pk ps n)).1
      split <;> omega
    rw [e1, e2, if_neg (by omega)]
    refine ⟨rfl, ?_, fun _ => ⟨hleft.1, hlr, hright.1⟩⟩
    dsimp only
    rw [hout, List.range_succ, List.map_append]
    rfl

theorem pulseHits_eq (hg : Good start stop ps) (hb : ∀ p ∈ ps, p.center ≤ 9999) :
    pulseHits ps.length start stop ps =
      (List.range ps.length).map (fun i => (⟨i, i, loS ps start i, hiS ps stop i⟩ : GHit)) := by
  have h := (inv_at hg hb ps.length le_rfl).2.1
  unfold stAt at h
  rw [List.take_of_length_le (by simp)] at h
  exact h

theorem hiS_loS_lt (hg : Good start stop ps) {i : Nat} : ∀ d, i + (d + 1) < ps.length →
    hiS ps stop i ≤ loS ps start (i + (d + 1))
  | 0, h => hiS_loS hg h
  | d + 1, h => by
    have h1 := hiS_loS_lt hg d (i := i) (by omega)
    have h2 := (loS_le hg (i := i + (d + 1)) (by omega)).2
    have h3 := (le_hiS hg (i := i + (d + 1)) (by omega)).2
    have h4 := hiS_loS hg (i := i + (d + 1)) (by omega)
    rw [show i + (d + 1 + 1) = i + (d + 1) + 1 by omega]
    omega

end

/-- C241: if the peaks are in order of time, have positive widths and are in the pulse, every peak gives a hit, with its
own position as local index; the ticks summed for it are inside the pulse and contain the tick of its peak (or end there),
and the ticks of different hits are disjoint. -/
theorem C241_windows_partial (start stop : ℤ) (ps : List Peak) (hg : Good start stop ps)
    (hb : ∀ p ∈ ps, p.center ≤ 9999) :
    (pulseHits ps.length start stop ps).length = ps.length ∧
    (∀ (i : Nat) (a : GHit) (p : Peak), (pulseHits ps.length start stop ps)[i]? = some a → ps[i]? = some p →
      a.idx = i ∧ a.pos = i ∧ start ≤ a.lo ∧ a.lo ≤ ⌊p.center⌋ ∧ ⌊p.center⌋ ≤ a.hi ∧ a.hi ≤ stop) ∧
    (pulseHits ps.length start stop ps).Pairwise fun a b => a.hi ≤ b.lo := by
  rw [pulseHits_eq hg hb]
  refine ⟨by simp, ?_, ?_⟩
  · intro i a p ha hp
    have hi : i < ps.length := (List.getElem?_eq_some_iff.mp hp).1
    rw [List.getElem?_map, List.getElem?_range hi] at ha
    simp only [Option.map_some, Option.some.injEq] at ha
    subst ha
    rw [get_pk hi] at hp
    cases hp
    have h1 := loS_le hg hi
    have h2 := le_hiS hg hi
    rw [trunc_nonneg (good_pk hg hi).2.2.2.2] at h1 h2
    exact ⟨rfl, rfl, h1.1, h1.2, h2.2, h2.1⟩
  · rw [List.pairwise_map]
    apply List.Pairwise.imp_of_mem _ List.pairwise_lt_range
    intro a b ha hb' hab
    obtain ⟨d, rfl⟩ : ∃ d, b = a + (d + 1) := ⟨b - a - 1, by omega⟩
    exact hiS_loS_lt hg d (List.mem_range.mp hb')

/-- C241 (part): what is summed for a hit: up to two sigmas on each side, or up to the point between it and its
neighbour that divides the distance in the ratio of the widths if the two-sigma ranges meet. -/
theorem C241_extent (start stop : ℤ) (ps : List Peak) (hg : Good start stop ps) (hb : ∀ p ∈ ps, p.center ≤ 9999)
    (i : Nat) (a : GHit) (p : Peak) (ha : (pulseHits ps.length start stop ps)[i]? = some a) (hp : ps[i]? = some p) :
    (∀ q, ps[i + 1]? = some q →
      (q.center - 2 * q.sigma < p.center + 2 * p.sigma → a.hi = min stop (borderZ p q)) ∧
      (p.center + 2 * p.sigma ≤ q.center - 2 * q.sigma → a.hi = min stop (⌊p.center⌋ + ⌊2 * p.sigma⌋))) ∧
    (ps.length = i + 1 → a.hi = min stop (⌊p.center⌋ + ⌊2 * p.sigma⌋)) ∧
    (∀ q, 0 < i → ps[i - 1]? = some q →
      (p.center - 2 * p.sigma < q.center + 2 * q.sigma → a.lo = max start (borderZ q p)) ∧
      (q.center + 2 * q.sigma ≤ p.center - 2 * p.sigma → a.lo = max start (⌊p.center⌋ - ⌊2 * p.sigma⌋))) ∧
    (i = 0 → a.lo = max start (⌊p.center⌋ - ⌊2 * p.sigma⌋)) := by
  have hi : i < ps.length := (List.getElem?_eq_some_iff.mp hp).1
  rw [pulseHits_eq hg hb, List.getElem?_map, List.getElem?_range hi] at ha
  simp only [Option.map_some, Option.some.injEq] at ha
  subst ha
  rw [get_pk hi] at hp
  cases hp
  have g := good_pk hg hi
  have t1 := trunc_nonneg g.2.2.2.2
  have t2 := trunc_nonneg (q := 2 * (pk ps i).sigma) (by linarith [g.2.1])
  dsimp only
  unfold hiS loS
  rw [t1, t2]
  refine ⟨?_, ?_, ?_, ?_⟩
  · intro q hq
    have hi1 : i + 1 < ps.length := (List.getElem?_eq_some_iff.mp hq).1
    rw [get_pk hi1] at hq
    cases hq
    constructor
    · intro h
      rw [if_pos ⟨hi1, by simpa [overlap] using h⟩]
    · intro h
      rw [if_neg (fun h2 => by have h3 := h2.2; simp only [overlap, decide_eq_true_eq] at h3; linarith)]
  · intro h
    rw [if_neg (by omega)]
  · intro q h0 hq
    have hi1 : i - 1 < ps.length := (List.getElem?_eq_some_iff.mp hq).1
    rw [get_pk hi1] at hq
    cases hq
    constructor
    · intro h
      rw [if_pos ⟨h0, by simpa [overlap] using h⟩]
    · intro h
      rw [if_neg (fun h2 => by have h3 := h2.2; simp only [overlap, decide_eq_true_eq] at h3; linarith)]
  · intro h
    rw [if_neg (by omega)]

/-- three peaks, the first two close to each other -/
def threePeaks : List Peak := [⟨true, 10, 12, 2⟩, ⟨true, 8, 17, 2⟩, ⟨true, 5, 40, 3⟩]

example : pulseHits 3 3 50 threePeaks = [⟨0, 0, 8, 14⟩, ⟨1, 1, 14, 21⟩, ⟨2, 2, 34, 46⟩] := by decide +kernel

theorem threePeaks_good : Good 3 50 threePeaks := by
  refine ⟨?_, by decide, by decide +kernel⟩
  intro i p q h1 h2
  match i with
  | 0 => cases h1; cases h2; decide +kernel
  | 1 => cases h1; cases h2; decide +kernel
  | n + 2 => simp [threePeaks] at h2

/-- C241 (refuted): without the assumptions a hit need not be made from the peak of its local index, and the number of
hits is not the multiplicity: after a peak without amplitude the next one takes the peak itself for its neighbour, and its
sum ends at its own centre. -/
theorem C241_refuted :
    (¬ ∀ (start stop : ℤ) (ps : List Peak), ∀ a ∈ pulseHits ps.length start stop ps, a.idx = a.pos) ∧
    pulseHits 2 0 50 [⟨false, 10, 12, 2⟩, ⟨true, 8, 30, 2⟩] = [⟨0, 1, 26, 30⟩] ∧
    pulseHits 1 0 50 [⟨true, 8, 30, 2⟩] = [⟨0, 0, 26, 34⟩] := by
  refine ⟨?_, by decide +kernel, by decide +kernel⟩
  intro h
  have := h 0 50 [⟨false, 10, 12, 2⟩, ⟨true, 8, 30, 2⟩] ⟨0, 1, 26, 30⟩ (by decide +kernel)
  simp at this

theorem sumAdc_split (f : ℤ → ℚ) {a b c : ℤ} (h1 : a ≤ b) (h2 : b ≤ c) :
    sumAdc f a c = sumAdc f a b + sumAdc f b c := by
  unfold sumAdc
  have e : (c - a).toNat = (b - a).toNat + (c - b).toNat := by omega
  rw [e, List.range_add, List.map_append, List.sum_append, List.map_map]
  congr 1
  congr 1
  apply List.map_congr_left
  intro k _
  simp only [Function.comp]
  congr 1
  push_cast
  omega

theorem sumAdc_nonneg (f : ℤ → ℚ) (h : ∀ t, 0 ≤ f t) (a b : ℤ) : 0 ≤ sumAdc f a b := by
  unfold sumAdc
  apply List.sum_nonneg
  intro x hx
  obtain ⟨k, _, rfl⟩ := List.mem_map.mp hx
  exact h _

theorem sum_disjoint (f : ℤ → ℚ) (h : ∀ t, 0 ≤ f t) (e : ℤ) : ∀ (l : List GHit) (s : ℤ), s ≤ e →
    (∀ a ∈ l, s ≤ a.lo ∧ a.lo ≤ a.hi ∧ a.hi ≤ e) → l.Pairwise (fun a b => a.hi ≤ b.lo) →
    (l.map fun a => sumAdc f a.lo a.hi).sum ≤ sumAdc f s e
  | [], s, _, _, _ => by simpa using sumAdc_nonneg f h s e
  | a :: l, s, hs, hl, hp => by
    obtain ⟨a1, a2, a3⟩ := hl a (by simp)
    have ih := sum_disjoint f h e l a.hi a3 (fun b hb =>
      ⟨(List.pairwise_cons.mp hp).1 b hb, (hl b (by simp [hb])).2⟩) (List.pairwise_cons.mp hp).2
    rw [List.map_cons, List.sum_cons, sumAdc_split f a1 (le_trans a2 a3), sumAdc_split f a2 a3]
    have := sumAdc_nonneg f h s a.lo
    linarith

/-- C242: when the signal is nowhere negative, the sums of the hits of a pulse add up to at most the sum of the pulse
(no tick is counted for two hits). -/
theorem C242_sums_partial (signal : ℤ → ℚ) (hs : ∀ t, 0 ≤ signal t) (start stop : ℤ) (hse : start ≤ stop)
    (ps : List Peak) (hg : Good start stop ps) (hb : ∀ p ∈ ps, p.center ≤ 9999) :
    ((pulseHits ps.length start stop ps).map fun a => sumAdc signal a.lo a.hi).sum ≤ sumAdc signal start stop := by
  obtain ⟨h1, h2, h3⟩ := C241_windows_partial start stop ps hg hb
  apply sum_disjoint signal hs stop _ start hse _ h3
  intro a ha
  obtain ⟨i, hi⟩ := List.getElem?_of_mem ha
  have hlt : i < ps.length := by rw [← h1]; exact (List.getElem?_eq_some_iff.mp hi).1
  obtain ⟨_, _, b1, b2, b3, b4⟩ := h2 i a _ hi (get_pk hlt)
  exact ⟨b1, by omega, b4⟩

/-- C242 (refuted): when the fit returns the peaks in another order than in time, the sums of the hits can exceed the sum
of the pulse. -/
theorem C242_refuted : ¬ ∀ (signal : ℤ → ℚ) (start stop : ℤ) (ps : List Peak), (∀ t, 0 ≤ signal t) → start ≤ stop →
    (∀ p ∈ ps, p.ok = true ∧ 0 < p.sigma ∧ (start : ℚ) ≤ p.center ∧ p.center < stop) →
    ((pulseHits ps.length start stop ps).map fun a => sumAdc signal a.lo a.hi).sum ≤ sumAdc signal start stop := by
  intro h
  have := h (fun t => if t = 8 then 1 else 0) 0 20 [⟨true, 1, 3, 4⟩, ⟨true, 1, 15, 1 / 2⟩, ⟨true, 1, 9, 1 / 2⟩]
    (fun t => by split <;> norm_num) (by norm_num) (by decide +kernel)
  revert this
  decide +kernel

/-- the parameters of the pieces of a long pulse satisfy the assumptions of C241 and C242 -/
theorem consecutive_good (signal : ℤ → ℚ) (e : Nat) : ∀ (l : List (Nat × Nat)) (s : Nat), Consecutive e s l →
    (∀ (i : Nat) (p q : Peak), (l.map (pieceParams signal))[i]? = some p →
      (l.map (pieceParams signal))[i + 1]? = some q → p.center < q.center) ∧
    ∀ p ∈ l.map (pieceParams signal), p.ok = true ∧ 0 < p.sigma ∧ (s : ℚ) ≤ p.center ∧ p.center < e
  | [], s, _ => by simp
  | a :: t, s, h => by
    obtain ⟨h1, h2, h3, h4⟩ := h
    have ih := consecutive_good signal e t a.2 h4
    have q1 : (a.1 : ℚ) < a.2 := by exact_mod_cast h2
    have q2 : (a.2 : ℚ) ≤ e := by exact_mod_cast h3
    have q3 : (a.1 : ℚ) = s := by exact_mod_cast h1
    have ca : (pieceParams signal a).center < a.2 := by unfold pieceParams; dsimp only; linarith
    constructor
    · intro i p q hp hq
      match i with
      | 0 =>
        simp only [List.map_cons, List.getElem?_cons_zero, Option.some.injEq] at hp
        simp only [List.map_cons, List.getElem?_cons_succ] at hq
        subst hp
        have := (ih.2 q (List.mem_of_getElem? hq)).2.2.1
        linarith
      | i + 1 =>
        simp only [List.map_cons, List.getElem?_cons_succ] at hp hq
        exact ih.1 i p q hp hq
    · intro p hp
      rcases List.mem_cons.mp hp with rfl | hp
      · refine ⟨rfl, ?_, ?_, by linarith⟩
        · unfold pieceParams; dsimp only; linarith
        · unfold pieceParams; dsimp only; linarith
      · obtain ⟨c1, c2, c3, c4⟩ := ih.2 p hp
        exact ⟨c1, c2, by linarith, c4⟩

/-- C242 (for long pulses, without further assumptions): every piece gives a hit and no tick is counted twice. -/
theorem C242_long (signal : ℤ → ℚ) (hs : ∀ t, 0 ≤ signal t) (w m start stop : Nat) (hw : 0 < w) (hm : 0 < m)
    (h : start < stop) (hb : stop ≤ 9999) :
    let ps := (longPulse w m start stop).map (pieceParams signal)
    (pulseHits ps.length start stop ps).length = (longPulse w m start stop).length ∧
    ((pulseHits ps.length start stop ps).map fun a => sumAdc signal a.lo a.hi).sum ≤ sumAdc signal start stop := by
  intro ps
  have hc := consecutive_good signal stop _ _ (C240_pieces w m start stop hw hm h).1
  have hg : Good start stop ps := ⟨hc.1, by omega, by
    intro p hp
    have := hc.2 p hp
    exact_mod_cast this⟩
  have hbb : ∀ p ∈ ps, p.center ≤ 9999 := by
    intro p hp
    have := (hc.2 p hp).2.2.2
    have h9 : (stop : ℚ) ≤ 9999 := by exact_mod_cast hb
    linarith
  refine ⟨?_, C242_sums_partial signal hs start stop (by omega) ps hg hbb⟩
  rw [(C241_windows_partial _ _ _ hg hbb).1]
  simp [ps]

example : ((pulseHits 3 3 50 threePeaks).map fun a => sumAdc (fun t => (t : ℚ)) a.lo a.hi).sum = 656 := by decide +kernel

/-! ### C243 the filter -/

theorem takeWhile_filter {α : Type} (p : α → Bool) : ∀ l : List α,
    l.Pairwise (fun a b => p b = true → p a = true) → l.takeWhile p = l.filter p
  | [], _ => rfl
  | a :: t, h => by
    obtain ⟨h1, h2⟩ := List.pairwise_cons.mp h
    by_cases hp : p a = true
    · rw [List.takeWhile_cons_of_pos hp, List.filter_cons_of_pos hp, takeWhile_filter p t h2]
    · rw [List.takeWhile_cons_of_neg hp, List.filter_cons_of_neg hp]
      symm
      rw [List.filter_eq_nil_iff]
      intro b hb hpb
      exact hp (h1 b hb hpb)

/-- C243: whatever order the sort gives to hits of the same amplitude, if all the largest hits of a pulse pass the cuts, the
hits that are kept are those that are not too small compared with the largest; if all of them fail, nothing is kept. -/
theorem C243_filter_partial (phCut widCut thr M : ℚ) (hits sorted : List FHit) (hperm : sorted.Perm hits)
    (hdesc : sorted.Pairwise fun a b => b.amp ≤ a.amp) (hM : ∀ h ∈ hits, h.amp ≤ M) (hex : ∃ h ∈ hits, h.amp = M)
    (hpos : 0 < M) (hthr : thr ≤ 1) :
    ((∀ h ∈ hits, h.amp = M → phCut ≤ h.amp ∧ widCut ≤ h.rms) →
      (cutSorted phCut widCut thr sorted).Perm (hits.filter fun h => decide (¬ (h.amp < 8 ∧ h.amp / M < thr)))) ∧
    ((∀ h ∈ hits, h.amp = M → h.amp < phCut ∨ h.rms < widCut) → cutSorted phCut widCut thr sorted = []) := by
  obtain ⟨m, hm, hmM⟩ := hex
  have hm' := hperm.mem_iff.mpr hm
  match sorted, hperm, hdesc, hm' with
  | f :: t, hperm, hdesc, hm' =>
    have hf : f ∈ hits := hperm.mem_iff.mp (by simp)
    have hfM : f.amp = M := by
      apply le_antisymm (hM f hf)
      rcases List.mem_cons.mp hm' with h | h
      · rw [← hmM, h]
      · rw [← hmM]; exact (List.pairwise_cons.mp hdesc).1 m h
    have hsf : small f.amp thr f = false := by
      unfold small
      rw [hfM, div_self (ne_of_gt hpos)]
      simp only [decide_eq_false_iff_not]
      intro h
      linarith [h.2]
    constructor
    · intro hc
      have h1 := hc f hf hfM
      unfold cutSorted
      dsimp only
      rw [if_neg (by rw [not_or, not_lt, not_lt]; exact h1)]
      have hfilter : ((f :: t).filter fun h => !small f.amp thr h).Perm
          (hits.filter fun h => decide (¬ (h.amp < 8 ∧ h.amp / M < thr))) := by
        have e : (fun h : FHit => decide (¬ (h.amp < 8 ∧ h.amp / M < thr))) = fun h => !small f.amp thr h := by
          funext h
          unfold small
          rw [hfM, decide_not]
        rw [e]
        exact hperm.filter _
      split
      · rename_i ht
        subst ht
        rwa [List.filter_cons_of_pos (by simp [hsf])] at hfilter
      · rw [takeWhile_filter]
        · exact hfilter
        · apply hdesc.imp
          intro a b hab
          unfold small
          simp only [Bool.not_eq_true', decide_eq_false_iff_not, not_and, not_lt]
          intro h2 h3
          have h4 := h2 (by linarith)
          rw [hfM] at h4 ⊢
          exact le_trans h4 (by gcongr)
    · intro hc
      unfold cutSorted
      dsimp only
      rw [if_pos (hc f hf hfM)]

/-- C243 (refuted): with two largest hits of different widths the result depends on the order the sort gives them. -/
theorem C243_refuted : ¬ ∀ (phCut widCut thr : ℚ) (s s' : List FHit), s.Perm s' →
    (s.Pairwise fun a b => b.amp ≤ a.amp) → (s'.Pairwise fun a b => b.amp ≤ a.amp) →
    (cutSorted phCut widCut thr s).Perm (cutSorted phCut widCut thr s') := by
  intro h
  have := (h 3 2 (1 / 4) [⟨0, 10, 3, 5⟩, ⟨1, 10, 1, 9⟩] [⟨1, 10, 1, 9⟩, ⟨0, 10, 3, 5⟩] (List.Perm.swap _ _ _)
    (by decide +kernel) (by decide +kernel)).length_eq
  revert this
  decide +kernel

/-- C243 (part): the configured filter: a hit is kept exactly if its amplitude and width are above the values of its plane;
hits of planes without values are kept. -/
theorem C243_good (hs ss : List ℚ) (plane : Nat) (h : FHit) :
    isGood hs ss plane h = true ↔ ∀ a b : ℚ, hs[plane]? = some a → ss[plane]? = some b → a < h.amp ∧ b < h.rms := by
  unfold isGood
  rcases hs[plane]? with _ | a
  · simp
  · rcases ss[plane]? with _ | b <;> simp

example : cutSorted 3 1 (1 / 4) [⟨0, 20, 3, 5⟩, ⟨2, 9, 2, 1⟩, ⟨1, 6, 2, 9⟩, ⟨3, 4, 2, 2⟩] =
    [⟨0, 20, 3, 5⟩, ⟨2, 9, 2, 1⟩, ⟨1, 6, 2, 9⟩] := by decide +kernel

/-! ### C244 schedules -/

theorem flatten_set {α : Type} (a : α) (l : List α) : ∀ (ts : List (List α)) (i : Nat), ts[i]? = some (a :: l) →
    ts.flatten.Perm (a :: (ts.set i l).flatten)
  | [], i, h => by simp at h
  | t :: ts, 0, h => by
    simp only [List.getElem?_cons_zero, Option.some.injEq] at h
    subst h
    simp
  | t :: ts, i + 1, h => by
    simp only [List.getElem?_cons_succ] at h
    have ih := flatten_set a l ts i h
    rw [List.set_cons_succ, List.flatten_cons, List.flatten_cons]
    exact (ih.append_left t).trans List.perm_middle

/-- C244: for every schedule of the tasks, the hits of the event are exactly the hits of the tasks, each once, and the hits
of one task are in the order in which it made them. -/
theorem C244_schedule {α : Type} (ts : List (List α)) (out : List α) (h : Interleave ts out) :
    out.Perm ts.flatten ∧ ∀ t ∈ ts, t.Sublist out := by
  induction h with
  | done ts h =>
    constructor
    · have : ts.flatten = [] := List.flatten_eq_nil_iff.mpr h
      rw [this]
    · intro t ht
      rw [h t ht]
  | step ts i a l out hi _ ih =>
    refine ⟨((ih.1.cons a).trans (flatten_set a l ts i hi).symm), ?_⟩
    intro t ht
    obtain ⟨j, hj⟩ := List.getElem?_of_mem ht
    have hlt : i < ts.length := (List.getElem?_eq_some_iff.mp hi).1
    by_cases hji : j = i
    · subst hji
      rw [hi] at hj
      cases hj
      exact (ih.2 l (List.mem_of_getElem? (i := j) (by simp [hlt]))).cons_cons a
    · exact (ih.2 t (List.mem_of_getElem? (i := j) (by rw [List.getElem?_set_ne (by omega)]; exact hj))).cons a

/-- every list of tasks has a schedule: one after the other -/
theorem interleave_exists {α : Type} : ∀ (n : Nat) (ts : List (List α)), (ts.map List.length).sum = n → ∃ out, Interleave ts out
  | 0, ts, h => ⟨[], .done ts fun l hl => by
      have := List.single_le_sum (l := ts.map List.length) (fun _ _ => Nat.zero_le _) l.length (List.mem_map_of_mem hl)
      rw [h] at this
      exact List.length_eq_zero_iff.mp (by omega)⟩
  | n + 1, ts, h => by
    have : ∃ (i : Nat) (a : α) (l : List α), ts[i]? = some (a :: l) := by
      by_contra hno
      have hz : ∀ l ∈ ts, l = [] := by
        intro l hl
        obtain ⟨i, hi⟩ := List.getElem?_of_mem hl
        cases l with
        | nil => rfl
        | cons a l => exact absurd ⟨i, a, l, hi⟩ hno
      have h0 : (ts.map List.length).sum = 0 := by
        apply List.sum_eq_zero
        intro x hx
        obtain ⟨l, hl, rfl⟩ := List.mem_map.mp hx
        simp [hz l hl]
      omega
    obtain ⟨i, a, l, hi⟩ := this
    have hs : ((ts.set i l).map List.length).sum = n := by
      have hp := (flatten_set a l ts i hi).length_eq
      simp only [List.length_flatten, List.length_cons] at hp
      omega
    obtain ⟨out, ho⟩ := interleave_exists n (ts.set i l) hs
    exact ⟨a :: out, .step ts i a l out hi ho⟩

/-- C244 (refuted): the order of the hits of the event depends on the schedule. -/
theorem C244_refuted : ¬ ∀ (ts : List (List Nat)) (a b : List Nat), Interleave ts a → Interleave ts b → a = b := by
  intro h
  have h1 : Interleave [[1], [2]] [1, 2] :=
    .step _ 0 1 [] _ rfl (.step _ 1 2 [] _ rfl (.done _ (by simp)))
  have h2 : Interleave [[1], [2]] [2, 1] :=
    .step _ 1 2 [] _ rfl (.step _ 0 1 [] _ rfl (.done _ (by simp)))
  simpa using h _ _ _ h1 h2

/-! ### C245 products -/

/-- C245 (part): every collection that is put into the event was declared, none twice; with the filter the default
instance is the filtered collection. -/
theorem C245_products_partial (filter : Bool) (name : String) :
    (∀ p ∈ putInto filter name, p.1 ∈ declared name) ∧ ((putInto filter name).map Prod.fst).Nodup ∧
    (filter = true → ("", false) ∈ putInto filter name) ∧
    ((filter = true ∨ name = "") → ∀ d ∈ declared name, d ∈ (putInto filter name).map Prod.fst) := by
  unfold putInto declared
  by_cases hn : name = ""
  · subst hn
    cases filter <;> simp
  · cases filter <;> simp [hn, Ne.symm hn]

/-- C245 (refuted): with a name and without the filter the default instance is declared but not put. -/
theorem C245_refuted : ¬ ∀ (filter : Bool) (name : String), ∀ d ∈ declared name, d ∈ (putInto filter name).map Prod.fst := by
  intro h
  have := h false "all" "" (by decide)
  revert this
  decide

/-- C245 (part): a parameter given for the planes has one value for each of them, the one that was configured. -/
theorem C245_fillOut (n : Nat) (v r : List ℚ) (h : fillOut n v = some r) :
    r.length = n ∧ ∀ (i : Nat) (x : ℚ), r[i]? = some x → v[i]? = some x ∨ v = [x] := by
  unfold fillOut at h
  split at h
  · cases h
  · split at h
    · rename_i h1
      cases h
      refine ⟨by simp, ?_⟩
      intro i x hx
      match v, h1 with
      | [a], _ =>
        right
        have := List.mem_of_getElem? hx
        simp at this
        rw [this.2]
    · split at h
      · cases h
        exact ⟨‹_›, fun i x hx => Or.inl hx⟩
      · cases h

example : fillOut 3 [7] = some [7, 7, 7] := by decide
example : fillOut 3 [7, 8] = none := by decide

/-! ### C246 charge -/

theorem sum_consecutive (signal : ℤ → ℚ) (e : Nat) : ∀ (l : List (Nat × Nat)) (s : Nat), Consecutive e s l → s ≤ e →
    Covers s e l → (l.map fun p => sumAdc signal p.1 p.2).sum = sumAdc signal s e
  | [], s, _, h, hc => by
    have : ¬ s < e := fun hlt => by
      obtain ⟨p, hp, _⟩ := hc s le_rfl hlt
      simp at hp
    have e' : ((e : ℤ) - s).toNat = 0 := by omega
    simp [sumAdc, e']
  | p :: t, s, hco, h, hc => by
    obtain ⟨h1, h2, h3, h4⟩ := hco
    have ih := sum_consecutive signal e t p.2 h4 h3 (by
      intro x hx hxe
      obtain ⟨q, hq, q1, q2⟩ := hc x (by omega) hxe
      rcases List.mem_cons.mp hq with rfl | hq
      · omega
      · exact ⟨q, hq, q1, q2⟩)
    rw [List.map_cons, List.sum_cons, ih, h1]
    exact (sumAdc_split signal (by omega) (by omega)).symm

theorem consecutive_mem (e : Nat) : ∀ (l : List (Nat × Nat)) (s : Nat), Consecutive e s l → ∀ p ∈ l, p.1 < p.2
  | [], _, _, p, hp => by simp at hp
  | a :: t, s, h, p, hp => by
    rcases List.mem_cons.mp hp with rfl | hp
    · exact h.2.1
    · exact consecutive_mem e t _ h.2.2.2 p hp

/-- C246 (part): the charges of the hits of a long pulse that is not limited by `LongMaxHits` add up to the sum of the
pulse (times 0.3989, which the factor sqrt(2 pi) that is left out here makes one, divided by the norm). -/
theorem C246_long_partial (signal : ℤ → ℚ) (norm : ℚ) (w m start stop : Nat) (hw : 0 < w) (hm : 0 < m)
    (h : start < stop) (hcap : (stop - start) / w ≤ m) :
    (((longPulse w m start stop).map (pieceParams signal)).map fun p => areaCharge norm p.amp p.sigma).sum =
      3989 / 10000 * sumAdc signal start stop / norm := by
  have hc := (C240_pieces w m start stop hw hm h).1
  rw [← sum_consecutive signal stop _ start hc (by omega) (C240_covers_partial w m start stop hw (by omega) hcap)]
  have hmem := consecutive_mem stop _ start hc
  generalize longPulse w m start stop = l at hmem
  clear hc
  induction l with
  | nil => simp
  | cons a t ih =>
    rw [List.map_cons, List.map_cons, List.sum_cons, ih (fun p hp => hmem p (by simp [hp])), List.map_cons, List.sum_cons]
    unfold areaCharge
    rw [(C240_area signal a (hmem a (by simp))).1]
    ring

/-- C246 (refuted): the error of the charge is not an error of the charge: it vanishes when one of the errors does. -/
theorem C246_refuted : ¬ ∀ amp sigma ampErr sigmaErr : ℚ, 0 < amp → 0 < sigma → 0 ≤ ampErr → 0 ≤ sigmaErr →
    |areaCharge 1 (amp + ampErr) sigma - areaCharge 1 amp sigma| ≤ chargeErr ampErr sigmaErr := by
  intro h
  have := h 10 2 1 0 (by norm_num) (by norm_num) (by norm_num) (by norm_num)
  unfold areaCharge chargeErr at this
  norm_num at this

/-- C246 (part): what the error of the charge is instead: twice the product of the two errors, which is how much the product of
amplitude and width moves, to second order, around its value. -/
theorem C246_error_value (amp sigma ampErr sigmaErr : ℚ) :
    chargeErr ampErr sigmaErr =
      areaCharge 1 (amp + ampErr) (sigma + sigmaErr) + areaCharge 1 (amp - ampErr) (sigma - sigmaErr) -
        2 * areaCharge 1 amp sigma := by
  unfold chargeErr areaCharge
  ring

example : (((longPulse 16 25 3 43).map (pieceParams fun _ => 2)).map fun p => areaCharge 1 p.amp p.sigma).sum =
    3989 / 10000 * 80 := by decide +kernel

/-! ### C247 start values of the fit -/

/-- C247 (part): for a candidate inside the pulse, above the baseline and at least as wide as the smallest width, the start
values of the fit are inside the limits given for them. -/
theorem C247_limits_partial (c : FitCfg) (shift start roi base : ℚ) (h : Cand) (ha : base ≤ h.height) (hr : 1 ≤ c.ampRange)
    (hp : 0 ≤ c.peakRange) (hs : 0 ≤ h.sigma) (hw : c.minWidth ≤ h.sigma) (hm : 1 ≤ c.maxWidthMult)
    (h0 : 0 ≤ h.center - shift - start) (h1 : h.center - shift - start ≤ roi) :
    let p := startPars c shift start roi base h
    (p.2.1.1 ≤ p.1.1 ∧ p.1.1 ≤ p.2.2.1) ∧ (p.2.1.2.1 ≤ p.1.2.1 ∧ p.1.2.1 ≤ p.2.2.2.1) ∧
      (p.2.1.2.2 ≤ p.1.2.2 ∧ p.1.2.2 ≤ p.2.2.2.2) := by
  unfold startPars
  dsimp only
  have hps := mul_nonneg hp hs
  refine ⟨⟨by linarith, by nlinarith⟩, ⟨max_le (by linarith) h0, le_min (by linarith) h1⟩,
    max_le hw (by linarith), by nlinarith⟩

/-- C247 (part): a fit that stays at its start values returns the candidates. -/
theorem C247_identity (c : FitCfg) (shift start roi base : ℚ) (h : Cand) :
    fitted shift start (startPars c shift start roi base h).1 = ⟨true, h.height - base, h.center, |h.sigma|⟩ := by
  unfold fitted startPars
  dsimp only
  congr 1
  ring

/-- C247 (refuted): for a narrow candidate the lower limit of the width is above the upper limit, and for a candidate below
the baseline the limits of the amplitude are inverted. -/
theorem C247_refuted :
    (¬ ∀ (c : FitCfg) (h : Cand), 0 < c.minWidth → 1 ≤ c.maxWidthMult → 0 < h.sigma →
      (startPars c 0 0 20 0 h).2.1.2.2 ≤ (startPars c 0 0 20 0 h).2.2.2.2) ∧
    (¬ ∀ (c : FitCfg) (base : ℚ) (h : Cand), 1 ≤ c.ampRange → 0 < h.height →
      (startPars c 0 0 20 base h).2.1.1 ≤ (startPars c 0 0 20 base h).2.2.1) := by
  constructor
  · intro h
    have := h ⟨1, 3, 2, 2⟩ ⟨5, 1 / 4, 10⟩ (by norm_num) (by norm_num) (by norm_num)
    unfold startPars at this
    norm_num at this
  · intro h
    have := h ⟨1, 3, 2, 2⟩ 12 ⟨5, 2, 10⟩ (by norm_num) (by norm_num)
    unfold startPars at this
    norm_num at this

example : startPars ⟨1 / 2, 3, 2, 2⟩ (1 / 2) 3 20 0 ⟨13 / 2, 2, 10⟩ = ((10, 3, 2), (1, 0, 1 / 2), (20, 7, 6)) := by
  decide +kernel

/-! ### C248 the shifted Gaussian -/

theorem shiftStep_fold (l : List (ℚ × ℚ)) (hl : ∀ p ∈ l, p.2 ≤ p.1) : ∀ (done : List (ℚ × ℚ)) (s : ShSt),
    (∀ p ∈ done, p.2 ≤ p.1) →
    (done = [] ∧ s = (none, none) ∨ ∃ q ∈ done, s = (some (q.1 - q.2), some q) ∧ ∀ p ∈ done, q.1 - q.2 ≤ p.1 - p.2) →
    (done ++ l = [] ∧ l.foldl shiftStep s = (none, none) ∨ ∃ q ∈ done ++ l,
      l.foldl shiftStep s = (some (q.1 - q.2), some q) ∧ ∀ p ∈ done ++ l, q.1 - q.2 ≤ p.1 - p.2) := by
  induction l with
  | nil =>
    intro done s _ h
    simpa using h
  | cons a t ih =>
    intro done s hd h
    have ha := hl a (by simp)
    rw [List.foldl_cons, show done ++ a :: t = (done ++ [a]) ++ t by simp]
    apply ih (fun p hp => hl p (by simp [hp])) (done ++ [a])
    · intro p hp
      rcases List.mem_append.mp hp with hp | hp
      · exact hd p hp
      · rw [List.mem_singleton.mp hp]; exact ha
    · right
      rcases h with ⟨h1, h2⟩ | ⟨q, hq, h2, h3⟩
      · subst h1 h2
        exact ⟨a, by simp, rfl, by simp⟩
      · subst h2
        unfold shiftStep
        dsimp only
        rw [abs_of_nonneg (by linarith)]
        split
        · rename_i hlt
          refine ⟨a, by simp, rfl, ?_⟩
          intro p hp
          rcases List.mem_append.mp hp with hp | hp
          · linarith [h3 p hp]
          · rw [List.mem_singleton.mp hp]
        · rename_i hlt
          refine ⟨q, by simp [hq], rfl, ?_⟩
          intro p hp
          rcases List.mem_append.mp hp with hp | hp
          · exact h3 p hp
          · rw [List.mem_singleton.mp hp]; linarith

/-- C248: when no candidate is before a fitted peak, the pair that is returned is the closest one. -/
theorem C248_nearest_partial (cands peaks : List ℚ) (hc : cands ≠ []) (hp : peaks ≠ [])
    (h : ∀ c ∈ cands, ∀ p ∈ peaks, p ≤ c) :
    ∃ c ∈ cands, ∃ p ∈ peaks, shifted cands peaks = some (c, p) ∧ ∀ c' ∈ cands, ∀ p' ∈ peaks, |c - p| ≤ |c' - p'| := by
  have key := shiftStep_fold (cands.flatMap fun c => peaks.map fun p => (c, p)) (by
    intro q hq
    simp only [List.mem_flatMap, List.mem_map] at hq
    obtain ⟨c, hc, p, hp, rfl⟩ := hq
    exact h c hc p hp) [] (none, none) (by simp) (Or.inl ⟨rfl, rfl⟩)
  rw [List.nil_append] at key
  obtain ⟨c0, hc0⟩ := List.exists_mem_of_ne_nil _ hc
  obtain ⟨p0, hp0⟩ := List.exists_mem_of_ne_nil _ hp
  rcases key with ⟨k1, _⟩ | ⟨q, hq, k2, k3⟩
  · have : (c0, p0) ∈ cands.flatMap fun c => peaks.map fun p => (c, p) := by
      simp only [List.mem_flatMap, List.mem_map]
      exact ⟨c0, hc0, p0, hp0, rfl⟩
    rw [k1] at this
    simp at this
  · simp only [List.mem_flatMap, List.mem_map] at hq
    obtain ⟨c, hc', p, hp', rfl⟩ := hq
    refine ⟨c, hc', p, hp', by unfold shifted; rw [k2], ?_⟩
    intro c' hc2 p' hp2
    have := k3 (c', p') (by simp only [List.mem_flatMap, List.mem_map]; exact ⟨c', hc2, p', hp2, rfl⟩)
    have e1 := h c hc' p hp'
    have e2 := h c' hc2 p' hp2
    dsimp only at this
    rw [abs_of_nonneg (by linarith), abs_of_nonneg (by linarith)]
    exact this

/-- C248 (refuted): once a candidate is before a peak, no closer pair is taken any more. -/
theorem C248_refuted : ¬ ∀ (cands peaks : List ℚ) (c p : ℚ), shifted cands peaks = some (c, p) →
    ∀ c' ∈ cands, ∀ p' ∈ peaks, |c - p| ≤ |c' - p'| := by
  intro h
  have := h [5, 20] [10, 20] 5 10 (by decide +kernel) 20 (by simp) 20 (by simp)
  norm_num at this

example : shifted [12, 21] [10, 20 / 3] = some (12, 10) := by decide +kernel

/-! ### C249 the refit -/

/-- C249 (part): without the refit a fit that converges returns one peak for each candidate, which is the multiplicity. -/
theorem C249_multiplicity_partial (thr improve chi2 chi2Cut : ℚ) (n maxMulti nPieces : Nat) (cand : Bool) (refit : Option ℚ)
    (hn : n ≤ maxMulti) (hc : n * chi2 ≤ chi2Cut) :
    numPeaks false thr improve n (some chi2) cand refit = multiplicity maxMulti chi2Cut n chi2 nPieces := by
  unfold numPeaks multiplicity
  rw [if_neg (by rw [not_or]; exact ⟨by omega, by linarith⟩)]
  simp

/-- C249 (refuted): a refit that improves the fit adds a peak, but the multiplicity stays the number of candidates; with
one candidate the two hits are then not separated and their ticks overlap. -/
theorem C249_refuted :
    (¬ ∀ (refitOn : Bool) (thr improve chi2 chi2Cut : ℚ) (n maxMulti nPieces : Nat) (cand : Bool) (refit : Option ℚ),
      n ≤ maxMulti → n * chi2 ≤ chi2Cut →
      numPeaks refitOn thr improve n (some chi2) cand refit = multiplicity maxMulti chi2Cut n chi2 nPieces) ∧
    pulseHits 1 0 50 [⟨true, 10, 12, 2⟩, ⟨true, 8, 17, 2⟩] = [⟨0, 0, 8, 16⟩, ⟨1, 1, 13, 21⟩] := by
  refine ⟨?_, by decide +kernel⟩
  intro h
  have := h true 10 2 20 100 1 5 3 true (some 4) (by norm_num) (by norm_num)
  revert this
  decide +kernel

/-- a fit never returns more than one peak beyond the candidates -/
theorem C249_atMost (refitOn : Bool) (thr improve : ℚ) (n : Nat) (fit refit : Option ℚ) (cand : Bool) :
    numPeaks refitOn thr improve n fit cand refit ≤ n + 1 ∧
    (numPeaks refitOn thr improve n fit cand refit = n + 1 →
      refitOn = true ∧ cand = true ∧ ∃ c c', fit = some c ∧ refit = some c' ∧ thr < c ∧ (c' * improve < c ∨ c' < thr)) := by
  unfold numPeaks
  split
  · simp
  · split
    · rename_i c hc
      obtain ⟨h1, h2, h3⟩ := hc
      split
      · split
        · rename_i hor
          exact ⟨le_rfl, fun _ => ⟨h1, h3, _, _, rfl, rfl, h2, hor⟩⟩
        · simp
      · simp
    · simp

example : numPeaks true 10 2 1 (some 20) true (some 4) = 2 := by decide +kernel

/-- C249 (part): a fit that fails returns no peak, and a pulse that is cut in pieces gives its hits the number of pieces. -/
theorem C249_other_pulses (refitOn cand : Bool) (thr improve chi2 chi2Cut : ℚ) (n maxMulti w m start stop : Nat)
    (refit : Option ℚ) :
    numPeaks refitOn thr improve n none cand refit = 0 ∧
    (maxMulti < n ∨ chi2Cut < n * chi2 →
      multiplicity maxMulti chi2Cut n chi2 (longPulse w m start stop).length = (longPulse w m start stop).length) := by
  refine ⟨rfl, fun h => ?_⟩
  unfold multiplicity
  rw [if_pos (by rcases h with h | h; exact Or.inl h; exact Or.inr h)]

example : multiplicity 5 100 7 1 (longPulse 16 25 3 43).length = 3 := by decide +kernel

end Verif.Gaus

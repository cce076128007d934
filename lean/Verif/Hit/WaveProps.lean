import Verif.Hit.WaveModel
import Mathlib.Tactic.Linarith
import Mathlib.Tactic.Ring
/-!
# Properties of the waveform tools: erosion, dilation, opening, closing (C35, C36, C65)
-/
namespace Verif.Wave
open Verif

/-! ## Specification -/

/-- `v` is the least sample of `w` among the positions `lo ≤ k < hi` -/
def IsWindowMin (w : List ℚ) (lo hi : Nat) (v : ℚ) : Prop :=
  (∃ k, lo ≤ k ∧ k < hi ∧ w[k]? = some v) ∧ ∀ k x, lo ≤ k → k < hi → w[k]? = some x → v ≤ x

/-- `v` is the greatest sample of `w` among the positions `lo ≤ k < hi` -/
def IsWindowMax (w : List ℚ) (lo hi : Nat) (v : ℚ) : Prop :=
  (∃ k, lo ≤ k ∧ k < hi ∧ w[k]? = some v) ∧ ∀ k x, lo ≤ k → k < hi → w[k]? = some x → x ≤ v

/-- first position of the window used for tick `i`: `i + 1 - h` while the window fits, then the last fitting window -/
def winLo (n h i : Nat) : Nat := min (i + 1) (n - h) - h
/-- end of the window used for tick `i`: `i + h + 1`, at most `n` -/
def winHi (n h i : Nat) : Nat := min (i + 1) (n - h) + h

theorem win_contains (n h i : Nat) (h1 : 1 ≤ h) (h2 : h ≤ n) (hi : i < n) :
    winLo n h i ≤ i ∧ i < winHi n h i ∧ winHi n h i ≤ n := by
  unfold winLo winHi; omega

theorem win_full (n h i : Nat) (hi : i + h < n) : winLo n h i = i + 1 - h ∧ winHi n h i = i + h + 1 := by
  unfold winLo winHi; omega

/-! ## Proof -/

/-- comparison of the kind `<` on some linear order of the samples -/
structure Strict (lt : ℚ → ℚ → Bool) : Prop where
  irrefl : ∀ a, lt a a = false
  asymm : ∀ a b, lt a b = true → lt b a = false
  trans : ∀ a b c, lt b a = false → lt c b = false → lt c a = false

theorem strict_min : Strict ltMin := by
  constructor <;> intro a <;> simp only [ltMin, decide_eq_false_iff_not, decide_eq_true_eq, not_lt]
  · exact le_refl a
  · intro b h; exact h.le
  · intro b c h1 h2; exact h1.trans h2

theorem strict_max : Strict ltMax := by
  constructor <;> intro a <;> simp only [ltMax, decide_eq_false_iff_not, decide_eq_true_eq, not_lt]
  · exact le_refl a
  · intro b h; exact h.le
  · intro b c h1 h2; exact h2.trans h1

/-- `p` is a position in `[lo, hi)` beaten by none of them -/
def Best (lt : ℚ → ℚ → Bool) (w : Nat → ℚ) (lo hi p : Nat) : Prop :=
  lo ≤ p ∧ p < hi ∧ ∀ k, lo ≤ k → k < hi → lt (w k) (w p) = false

theorem bestElt_best {lt : ℚ → ℚ → Bool} (hs : Strict lt) (w : Nat → ℚ) (lo m : Nat) (hm : 0 < m) :
    Best lt w lo (lo + m) (bestElt lt w lo m) := by
  obtain ⟨m, rfl⟩ : ∃ k, m = k + 1 := ⟨m - 1, by omega⟩
  unfold bestElt
  rw [Nat.add_sub_cancel]
  have key : ∀ (j a b : Nat), Best lt w lo a b →
      Best lt w lo (a + j) ((List.range' a j).foldl (fun b k => if lt (w k) (w b) then k else b) b) := by
    intro j
    induction j with
    | zero => intro a b hb; simpa using hb
    | succ j ih =>
      intro a b hb
      rw [List.range'_succ, List.foldl_cons, show a + (j + 1) = a + 1 + j by omega]
      apply ih
      obtain ⟨h1, h2, h3⟩ := hb
      cases hc : lt (w a) (w b) with
      | true =>
        simp only [if_true]
        refine ⟨by omega, by omega, fun k hk1 hk2 => ?_⟩
        by_cases hka : k = a
        · rw [hka]; exact hs.irrefl _
        · exact hs.trans _ (w b) _ (hs.asymm _ _ hc) (h3 k hk1 (by omega))
      | false =>
        simp only [Bool.false_eq_true, if_false]
        refine ⟨h1, by omega, fun k hk1 hk2 => ?_⟩
        by_cases hka : k = a
        · rw [hka]; exact hc
        · exact h3 k hk1 (by omega)
  have := key m (lo + 1) lo ⟨le_refl _, by omega, fun k h1 h2 => by rw [show k = lo by omega]; exact hs.irrefl _⟩
  rw [show lo + (m + 1) = lo + 1 + m by omega]
  exact this

theorem lastElt_best {lt : ℚ → ℚ → Bool} (hs : Strict lt) (w : Nat → ℚ) (lo m : Nat) (hm : 0 < m) :
    Best lt w lo (lo + m) (lastElt lt w lo m) := by
  obtain ⟨m, rfl⟩ : ∃ k, m = k + 1 := ⟨m - 1, by omega⟩
  unfold lastElt
  rw [Nat.add_sub_cancel]
  have key : ∀ (j a b : Nat), Best lt w lo a b →
      Best lt w lo (a + j) ((List.range' a j).foldl (fun b k => if lt (w b) (w k) then b else k) b) := by
    intro j
    induction j with
    | zero => intro a b hb; simpa using hb
    | succ j ih =>
      intro a b hb
      rw [List.range'_succ, List.foldl_cons, show a + (j + 1) = a + 1 + j by omega]
      apply ih
      obtain ⟨h1, h2, h3⟩ := hb
      cases hc : lt (w b) (w a) with
      | true =>
        simp only [if_true]
        refine ⟨h1, by omega, fun k hk1 hk2 => ?_⟩
        by_cases hka : k = a
        · rw [hka]; exact hs.asymm _ _ hc
        · exact h3 k hk1 (by omega)
      | false =>
        simp only [Bool.false_eq_true, if_false]
        refine ⟨by omega, by omega, fun k hk1 hk2 => ?_⟩
        by_cases hka : k = a
        · rw [hka]; exact hs.irrefl _
        · exact hs.trans _ (w b) _ hc (h3 k hk1 (by omega))
  have := key m (lo + 1) lo ⟨le_refl _, by omega, fun k h1 h2 => by rw [show k = lo by omega]; exact hs.irrefl _⟩
  rw [show lo + (m + 1) = lo + 1 + m by omega]
  exact this

theorem slide_spec {lt : ℚ → ℚ → Bool} (hs : Strict lt) (w : Nat → ℚ) (n h : Nat) (h1 : 1 ≤ h) (h2 : h ≤ n) (m : Nat) :
    ∀ i p, i + m = n → Best lt w (min i (n - h) - h) (min i (n - h) + h) p →
    ∃ r, slideLoop lt w n h (List.range' i m) p = .ok r ∧ r.length = m ∧
      ∀ j, j < m → ∃ q, Best lt w (winLo n h (i + j)) (winHi n h (i + j)) q ∧ r[j]? = some (w q) := by
  induction m with
  | zero => intro i p _ _; exact ⟨[], rfl, rfl, fun j hj => absurd hj (by omega)⟩
  | succ m ih =>
    intro i p him hb
    rw [List.range'_succ]
    unfold slideLoop
    simp only []
    generalize hp' : (if n - i > h then
        (if i ≥ p + h then bestElt lt w (i + 1 - h) (2 * h) else if lt (w (i + h)) (w p) then i + h else p) else p) = p'
    have hb' : Best lt w (winLo n h i) (winHi n h i) p' := by
      unfold winLo winHi
      by_cases hc : n - i > h
      · rw [if_pos hc] at hp'
        rw [show min (i + 1) (n - h) = i + 1 by omega]
        rw [show min i (n - h) = i by omega] at hb
        by_cases hc2 : i ≥ p + h
        · rw [if_pos hc2] at hp'
          subst hp'
          have := bestElt_best hs w (i + 1 - h) (2 * h) (by omega)
          rwa [show i + 1 - h + 2 * h = i + 1 + h by omega] at this
        · rw [if_neg hc2] at hp'
          obtain ⟨b1, b2, b3⟩ := hb
          cases hc3 : lt (w (i + h)) (w p) with
          | true =>
            rw [hc3, if_pos rfl] at hp'
            subst hp'
            refine ⟨by omega, by omega, fun k hk1 hk2 => ?_⟩
            by_cases hk : k = i + h
            · rw [hk]; exact hs.irrefl _
            · exact hs.trans _ (w p) _ (hs.asymm _ _ hc3) (b3 k (by omega) (by omega))
          | false =>
            rw [hc3, if_neg (by decide)] at hp'
            subst hp'
            refine ⟨by omega, by omega, fun k hk1 hk2 => ?_⟩
            by_cases hk : k = i + h
            · rw [hk]; exact hc3
            · exact b3 k (by omega) (by omega)
      · rw [if_neg hc] at hp'
        subst hp'
        rw [show min (i + 1) (n - h) = n - h by omega]
        rwa [show min i (n - h) = n - h by omega] at hb
    have hpn : p' < n := by
      have := hb'.2.1
      unfold winHi at this
      omega
    rw [if_pos hpn]
    obtain ⟨r, hr, hl, hv⟩ := ih (i + 1) p' (by omega) (by simpa [winLo, winHi] using hb')
    rw [hr]
    refine ⟨w p' :: r, rfl, by simp [hl], fun j hj => ?_⟩
    cases j with
    | zero => exact ⟨p', hb', by simp⟩
    | succ j =>
      obtain ⟨q, hq, hq2⟩ := hv j (by omega)
      exact ⟨q, by rwa [show i + (j + 1) = i + 1 + j by omega], by simpa using hq2⟩

theorem at_some {w : List ℚ} {k : Nat} {x : ℚ} (h : w[k]? = some x) : at' w k = x := by
  unfold at'; rw [List.getD_eq_getElem?_getD, h]; rfl

theorem some_at {w : List ℚ} {k : Nat} (h : k < w.length) : w[k]? = some (at' w k) := by
  unfold at'; rw [List.getD_eq_getElem?_getD, List.getElem?_eq_getElem h]; rfl

theorem best_min {w : List ℚ} {lo hi q : Nat} (hhi : hi ≤ w.length) (h : Best ltMin (at' w) lo hi q) :
    IsWindowMin w lo hi (at' w q) := by
  obtain ⟨h1, h2, h3⟩ := h
  refine ⟨⟨q, h1, h2, some_at (by omega)⟩, fun k x hk1 hk2 hx => ?_⟩
  have := h3 k hk1 hk2
  simp only [ltMin, decide_eq_false_iff_not, not_lt] at this
  rwa [at_some hx] at this

theorem best_max {w : List ℚ} {lo hi q : Nat} (hhi : hi ≤ w.length) (h : Best ltMax (at' w) lo hi q) :
    IsWindowMax w lo hi (at' w q) := by
  obtain ⟨h1, h2, h3⟩ := h
  refine ⟨⟨q, h1, h2, some_at (by omega)⟩, fun k x hk1 hk2 hx => ?_⟩
  have := h3 k hk1 hk2
  simp only [ltMax, decide_eq_false_iff_not, not_lt] at this
  rwa [at_some hx] at this

/-- the sliding minimum and maximum from any valid start -/
theorem slide_min (w : List ℚ) (h p : Nat) (h1 : 1 ≤ h) (h2 : h ≤ w.length) (hp : Best ltMin (at' w) 0 h p) :
    ∃ r, slideLoop ltMin (at' w) w.length h (List.range w.length) p = .ok r ∧ r.length = w.length ∧
      ∀ i v, r[i]? = some v → IsWindowMin w (winLo w.length h i) (winHi w.length h i) v := by
  obtain ⟨r, hr, hl, hv⟩ := slide_spec strict_min (at' w) w.length h h1 h2 w.length 0 p (by omega) (by simpa using hp)
  rw [← List.range_eq_range'] at hr
  refine ⟨r, hr, hl, fun i v hi => ?_⟩
  have hin : i < w.length := by rw [← hl]; exact (List.getElem?_eq_some_iff.1 hi).1
  obtain ⟨q, hq, hq2⟩ := hv i hin
  rw [Nat.zero_add] at hq
  rw [hq2] at hi
  rw [← Option.some.inj hi]
  exact best_min (win_contains _ h i h1 h2 hin).2.2 hq

theorem slide_max (w : List ℚ) (h p : Nat) (h1 : 1 ≤ h) (h2 : h ≤ w.length) (hp : Best ltMax (at' w) 0 h p) :
    ∃ r, slideLoop ltMax (at' w) w.length h (List.range w.length) p = .ok r ∧ r.length = w.length ∧
      ∀ i v, r[i]? = some v → IsWindowMax w (winLo w.length h i) (winHi w.length h i) v := by
  obtain ⟨r, hr, hl, hv⟩ := slide_spec strict_max (at' w) w.length h h1 h2 w.length 0 p (by omega) (by simpa using hp)
  rw [← List.range_eq_range'] at hr
  refine ⟨r, hr, hl, fun i v hi => ?_⟩
  have hin : i < w.length := by rw [← hl]; exact (List.getElem?_eq_some_iff.1 hi).1
  obtain ⟨q, hq, hq2⟩ := hv i hin
  rw [Nat.zero_add] at hq
  rw [hq2] at hi
  rw [← Option.some.inj hi]
  exact best_max (win_contains _ h i h1 h2 hin).2.2 hq

/-! ## C35 -/

/-- C35: with a structuring element of at least 2 and a non-empty waveform, every tick of the erosion (dilation) vector is the
least (greatest) sample of the window of that tick, and the other two vectors are their half sum and difference. -/
theorem C35_erosion_dilation (se : Nat) (w : List ℚ) (hse : 2 ≤ se) (hw : w ≠ []) :
    ∃ e d a f, eroDil se w = .ok (e, d, a, f) ∧ e.length = w.length ∧ d.length = w.length ∧
      (∀ i v, e[i]? = some v → IsWindowMin w (winLo w.length (min (se / 2) w.length) i) (winHi w.length (min (se / 2) w.length) i) v) ∧
      (∀ i v, d[i]? = some v → IsWindowMax w (winLo w.length (min (se / 2) w.length) i) (winHi w.length (min (se / 2) w.length) i) v) ∧
      (∀ i : Nat, ∀ x y, e[i]? = some x → d[i]? = some y → a[i]? = some ((x + y) / 2) ∧ f[i]? = some (y - x)) := by
  have hn : 0 < w.length := List.length_pos_iff.2 hw
  have hh : 1 ≤ halfWindow se w.length := by unfold halfWindow; omega
  have hh2 : halfWindow se w.length ≤ w.length := by unfold halfWindow; omega
  have b1 := bestElt_best strict_min (at' w) 0 (halfWindow se w.length) (by omega)
  have b2 := lastElt_best strict_max (at' w) 0 (halfWindow se w.length) (by omega)
  rw [Nat.zero_add] at b1 b2
  obtain ⟨e, he, hel, hev⟩ := slide_min w _ _ hh hh2 b1
  obtain ⟨d, hd, hdl, hdv⟩ := slide_max w _ _ hh hh2 b2
  refine ⟨e, d, List.zipWith (fun a b => 1 / 2 * (b + a)) e d, List.zipWith (fun a b => b - a) e d, ?_, hel, hdl, hev, hdv, ?_⟩
  · unfold eroDil erosion dilation
    simp only []
    rw [he, hd]
  · intro i x y hx hy
    rw [List.getElem?_zipWith, List.getElem?_zipWith, hx, hy]
    refine ⟨?_, rfl⟩
    simp only [Option.some.injEq]
    ring

/-- C35: the waveform lies between its erosion and its dilation, everywhere. -/
theorem C35_between (se : Nat) (w : List ℚ) (hse : 2 ≤ se) (e d a f : List ℚ) (h : eroDil se w = .ok (e, d, a, f))
    (i : Nat) (x y v : ℚ) (hx : e[i]? = some x) (hy : d[i]? = some y) (hv : w[i]? = some v) :
    x ≤ v ∧ v ≤ y := by
  have hi : i < w.length := (List.getElem?_eq_some_iff.1 hv).1
  have hw : w ≠ [] := by rintro rfl; simp at hi
  obtain ⟨e', d', a', f', h', _, _, he, hd, _⟩ := C35_erosion_dilation se w hse hw
  rw [h] at h'
  injection h' with h'
  obtain ⟨rfl, rfl, rfl, rfl⟩ : e = e' ∧ d = d' ∧ a = a' ∧ f = f' := by simpa using h'
  obtain ⟨c1, c2, _⟩ := win_contains w.length (min (se / 2) w.length) i (by omega) (by omega) hi
  exact ⟨(he i x hx).2 i v c1 c2 hv, (hd i y hy).2 i v c1 c2 hv⟩

/-- C35, the excluded case: with a structuring element of 0 or 1 every non-empty waveform is read past its end. -/
theorem C35_tiny_element (se : Nat) (w : List ℚ) (hse : se < 2) (hw : w ≠ []) : eroDil se w = .ub := by
  have hn : 0 < w.length := List.length_pos_iff.2 hw
  have key : ∀ m i p, i + m = w.length → p ≤ i → 0 < m →
      slideLoop ltMin (at' w) w.length 0 (List.range' i m) p = .ub := by
    intro m
    induction m with
    | zero => intro i p _ _ h; omega
    | succ m ih =>
      intro i p him hp _
      rw [List.range'_succ]
      unfold slideLoop
      simp only []
      rw [if_pos (show w.length - i > 0 by omega), if_pos (show i ≥ p + 0 by omega)]
      have : bestElt ltMin (at' w) (i + 1 - 0) (2 * 0) = i + 1 := by simp [bestElt]
      rw [this]
      by_cases hlt : i + 1 < w.length
      · rw [if_pos hlt, ih (i + 1) (i + 1) (by omega) (le_refl _) (by omega)]
      · rw [if_neg hlt]
  have hh : halfWindow se w.length = 0 := by unfold halfWindow; omega
  have he : erosion se w = .ub := by
    unfold erosion
    simp only []
    rw [hh, List.range_eq_range']
    exact key w.length 0 _ (by omega) (by simp [bestElt]) hn
  unfold eroDil
  rw [he]

example : eroDil 4 [3, 1, 4, 1, 5, 9] = .ok
    ([1, 1, 1, 1, 1, 1], [4, 4, 5, 9, 9, 9], [5/2, 5/2, 3, 5, 5, 5], [3, 3, 4, 8, 8, 8]) := by decide +kernel
example : eroDil 1 [3, 1] = .ub := by decide +kernel

/-! ## C36 -/

/-- C36: opening is the windowed maximum of the erosion vector, closing the windowed minimum of the dilation vector. -/
theorem C36_opening_closing (se : Nat) (e d : List ℚ) (hse : 2 ≤ se) (he : se / 2 ≤ e.length) (hd : se / 2 ≤ d.length) :
    ∃ o c, opening se e = .ok o ∧ closing se d = .ok c ∧ o.length = e.length ∧ c.length = d.length ∧
      (∀ i v, o[i]? = some v → IsWindowMax e (winLo e.length (se / 2) i) (winHi e.length (se / 2) i) v) ∧
      (∀ i v, c[i]? = some v → IsWindowMin d (winLo d.length (se / 2) i) (winHi d.length (se / 2) i) v) := by
  have b1 := bestElt_best strict_max (at' e) 0 (se / 2) (by omega)
  have b2 := bestElt_best strict_min (at' d) 0 (se / 2) (by omega)
  rw [Nat.zero_add] at b1 b2
  obtain ⟨o, ho, hol, hov⟩ := slide_max e _ _ (by omega) he b1
  obtain ⟨c, hc, hcl, hcv⟩ := slide_min d _ _ (by omega) hd b2
  exact ⟨o, c, by unfold opening; rw [if_neg (by omega), ho], by unfold closing; rw [if_neg (by omega), hc], hol, hcl, hov, hcv⟩

/-- C36: opening is never below the erosion, closing never above the dilation. -/
theorem C36_dominates (se : Nat) (e d o c : List ℚ) (hse : 2 ≤ se) (he : se / 2 ≤ e.length) (hd : se / 2 ≤ d.length)
    (ho : opening se e = .ok o) (hc : closing se d = .ok c) (i : Nat) :
    (∀ x v, e[i]? = some x → o[i]? = some v → x ≤ v) ∧ (∀ x v, d[i]? = some x → c[i]? = some v → v ≤ x) := by
  obtain ⟨o', c', ho', hc', hol, hcl, h1, h2⟩ := C36_opening_closing se e d hse he hd
  rw [ho] at ho'; rw [hc] at hc'
  cases ho'; cases hc'
  constructor
  · intro x v hx hv
    have hi : i < e.length := (List.getElem?_eq_some_iff.1 hx).1
    obtain ⟨c1, c2, _⟩ := win_contains e.length (se / 2) i (by omega) he hi
    exact (h1 i v hv).2 i x c1 c2 hx
  · intro x v hx hv
    have hi : i < d.length := (List.getElem?_eq_some_iff.1 hx).1
    obtain ⟨c1, c2, _⟩ := win_contains d.length (se / 2) i (by omega) hd hi
    exact (h2 i v hv).2 i x c1 c2 hx

/-- C36, the excluded case: the half window is not limited to the vector here; a longer one reads past its end. -/
theorem C36_long_element (se : Nat) (e : List ℚ) (he : e.length < se / 2) : opening se e = .ub ∧ closing se e = .ub := by
  unfold opening closing
  rw [if_pos (show se / 2 > e.length from he), if_pos (show se / 2 > e.length from he)]
  exact ⟨rfl, rfl⟩

example : opening 4 [1, 1, 1, 2, 3, 0] = .ok [1, 2, 3, 3, 3, 3] ∧ closing 4 [4, 4, 5, 9, 9, 9] = .ok [4, 4, 4, 5, 5, 5] := by
  decide +kernel
example : opening 8 [1, 2, 3] = .ub ∧ closing 8 [1, 2, 3] = .ub := by decide +kernel

/-! ## C65 -/

/-- C65 (part): where the window fits, the opening of a waveform does not exceed the larger of the sample and its successor,
and the closing is not below the smaller one. -/
theorem C65_bounded_partial (se : Nat) (w e d a f o c : List ℚ) (hse : 2 ≤ se) (h : eroDil se w = .ok (e, d, a, f))
    (ho : opening se e = .ok o) (hc : closing se d = .ok c) (i : Nat) (hi : i + se / 2 < w.length) (x y u v : ℚ)
    (hx : w[i]? = some x) (hy : w[i + 1]? = some y) (hu : o[i]? = some u) (hv : c[i]? = some v) :
    u ≤ max x y ∧ min x y ≤ v := by
  have hw : w ≠ [] := by rintro rfl; simp at hi
  obtain ⟨e', d', a', f', h', hel, hdl, he, hd, _⟩ := C35_erosion_dilation se w hse hw
  rw [h] at h'
  injection h' with h'
  obtain ⟨rfl, rfl, rfl, rfl⟩ : e = e' ∧ d = d' ∧ a = a' ∧ f = f' := by simpa using h'
  rw [show min (se / 2) w.length = se / 2 by omega] at he hd
  obtain ⟨o', c', ho', hc', hol, hcl, h1, h2⟩ := C36_opening_closing se e d hse (by omega) (by omega)
  rw [ho] at ho'; rw [hc] at hc'
  cases ho'; cases hc'
  have win : ∀ k, winLo w.length (se / 2) i ≤ k → k < winHi w.length (se / 2) i →
      (winLo w.length (se / 2) k ≤ i ∧ i < winHi w.length (se / 2) k) ∨
      (winLo w.length (se / 2) k ≤ i + 1 ∧ i + 1 < winHi w.length (se / 2) k) := by
    intro k hk1 hk2
    unfold winLo winHi at *
    omega
  constructor
  · obtain ⟨⟨k, k1, k2, k3⟩, _⟩ := h1 i u hu
    rw [hel] at k1 k2
    rcases win k k1 k2 with ⟨q1, q2⟩ | ⟨q1, q2⟩
    · exact ((he k u k3).2 i x q1 q2 hx).trans (le_max_left _ _)
    · exact ((he k u k3).2 (i + 1) y q1 q2 hy).trans (le_max_right _ _)
  · obtain ⟨⟨k, k1, k2, k3⟩, _⟩ := h2 i v hv
    rw [hdl] at k1 k2
    rcases win k k1 k2 with ⟨q1, q2⟩ | ⟨q1, q2⟩
    · exact (min_le_left _ _).trans ((hd k v k3).2 i x q1 q2 hx)
    · exact (min_le_right _ _).trans ((hd k v k3).2 (i + 1) y q1 q2 hy)

/-- C65, refuted: the second window is not the mirror image of the first, so the opening of a rising edge exceeds the
waveform (3 > 1 at tick 1), and the closing of a falling edge is below it. -/
theorem C65_opening_above_waveform :
    ∃ w e d a f o c, eroDil 2 w = .ok (e, d, a, f) ∧ opening 2 e = .ok o ∧ closing 2 d = .ok c ∧ at' w 1 < at' o 1 ∧
      at' c 4 < at' w 4 := by
  refine ⟨[1, 1, 3, 3, 3, 1, 1], [1, 1, 3, 3, 1, 1, 1], [1, 3, 3, 3, 3, 1, 1], [1, 2, 3, 3, 2, 1, 1], [0, 2, 0, 0, 2, 0, 0],
    [1, 3, 3, 3, 1, 1, 1], [1, 3, 3, 3, 1, 1, 1], by decide +kernel, by decide +kernel, by decide +kernel, by decide +kernel,
    by decide +kernel⟩

end Verif.Wave

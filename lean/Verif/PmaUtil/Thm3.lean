import Verif.PmaUtil.Thm2
import Mathlib.Algebra.Order.Field.Basic

/-! # Projection matching helpers: weights and selections of hits (C378, C379) -/

namespace Verif.PmaUtil

/-! ### C378 -/

theorem sigmaMax_aux (l : List Hit) : ∀ a, a ≤ l.foldl (fun m h => if amp h > m then amp h else m) a ∧
    (∀ h ∈ l, amp h ≤ l.foldl (fun m h => if amp h > m then amp h else m) a) ∧
    (l.foldl (fun m h => if amp h > m then amp h else m) a = a ∨ ∃ h ∈ l, l.foldl (fun m h => if amp h > m then amp h else m) a = amp h) := by
  induction l with
  | nil => intro a; simp
  | cons b l ih =>
    intro a
    rw [List.foldl_cons]
    obtain ⟨h1, h2, h3⟩ := ih (if amp b > a then amp b else a)
    have ha : a ≤ (if amp b > a then amp b else a) := by split <;> [exact le_of_lt ‹_›; exact le_refl _]
    have hb : amp b ≤ (if amp b > a then amp b else a) := by split <;> [exact le_refl _; exact not_lt.mp ‹_›]
    refine ⟨le_trans ha h1, ?_, ?_⟩
    · intro q hq
      rcases List.mem_cons.mp hq with rfl | hq
      · exact le_trans hb h1
      · exact h2 q hq
    · rcases h3 with h3 | ⟨q, hq, h3⟩
      · by_cases hc : amp b > a
        · right; exact ⟨b, by simp, by rw [h3, if_pos hc]⟩
        · left; rw [h3, if_neg hc]
      · right; exact ⟨q, by simp [hq], h3⟩

/-- C378: the weight of every hit of a view is positive and at most one; a hit with the largest amplitude has weight one; among hits with positive amplitudes the squared weights are in the
ratio of the amplitudes; and without a positive amplitude all weights are one.  The amplitude is the summed ADC for the collection view and the peak amplitude for the others. -/
theorem C378_weights_partial (l : List Hit) :
    (∀ h ∈ l, 0 < sigma2 l h ∧ sigma2 l h ≤ 1) ∧
    (∀ h ∈ l, (∀ k ∈ l, (if k.view = 2 then k.adc else k.ampl) ≤ (if h.view = 2 then h.adc else h.ampl)) → sigma2 l h = 1) ∧
    (∀ h ∈ l, ∀ k ∈ l, 0 < (if h.view = 2 then h.adc else h.ampl) → 0 < (if k.view = 2 then k.adc else k.ampl) →
      sigma2 l h * (if k.view = 2 then k.adc else k.ampl) = sigma2 l k * (if h.view = 2 then h.adc else h.ampl)) ∧
    ((∀ h ∈ l, (if h.view = 2 then h.adc else h.ampl) ≤ 0) → ∀ h, sigma2 l h = 1) := by
  obtain ⟨h1, h2, h3⟩ := sigmaMax_aux l 0
  change 0 ≤ sigmaMax l at h1
  change ∀ h ∈ l, amp h ≤ sigmaMax l at h2
  change sigmaMax l = 0 ∨ ∃ h ∈ l, sigmaMax l = amp h at h3
  refine ⟨fun h hh => ?_, fun h hh hmax => ?_, fun h hh k hk hp kp => ?_, fun hz h => ?_⟩
  · unfold sigma2
    by_cases hc : sigmaMax l > 0
    · rw [if_pos hc]
      by_cases ha : amp h > 0
      · rw [if_pos ha]
        exact ⟨div_pos ha hc, by rw [div_le_one hc]; exact h2 h hh⟩
      · rw [if_neg ha]; norm_num
    · rw [if_neg hc]; norm_num
  · change ∀ k ∈ l, amp k ≤ amp h at hmax
    unfold sigma2
    by_cases hc : sigmaMax l > 0
    · rw [if_pos hc]
      have e : amp h = sigmaMax l := by
        rcases h3 with h3 | ⟨k, hk, h3⟩
        · exact absurd h3 hc.ne'
        · exact le_antisymm (h2 h hh) (by rw [h3]; exact hmax k hk)
      rw [if_pos (by rw [e]; exact hc), e, div_self hc.ne']
    · rw [if_neg hc]
  · change 0 < amp h at hp
    change 0 < amp k at kp
    change sigma2 l h * amp k = sigma2 l k * amp h
    have hc : sigmaMax l > 0 := lt_of_lt_of_le hp (h2 h hh)
    unfold sigma2
    rw [if_pos hc, if_pos hc, if_pos hp, if_pos kp]
    ring
  · unfold sigma2
    rw [if_neg]
    rcases h3 with h3 | ⟨k, hk, h3⟩
    · rw [h3]; exact lt_irrefl _
    · rw [h3]; exact not_lt.mpr (hz k hk)

example : sigma2 [⟨⟨0, 0, 0⟩, 2, 7, 10, true⟩, ⟨⟨0, 0, 0⟩, 2, 9, 5, true⟩] ⟨⟨0, 0, 0⟩, 2, 9, 5, true⟩ = 1 / 2 := by decide +kernel

/-- C378: weights do not grow with the amplitude everywhere: a hit without amplitude may weigh more than one with a small amplitude. -/
theorem C378_refuted : ¬ ∀ (l : List Hit) (h k : Hit), h ∈ l → k ∈ l → h.view = 0 → k.view = 0 → h.ampl ≤ k.ampl → sigma2 l h ≤ sigma2 l k := by
  intro hh
  have := hh [⟨⟨0, 0, 0⟩, 0, 0, 0, true⟩, ⟨⟨0, 0, 0⟩, 0, 1 / 10000, 0, true⟩, ⟨⟨0, 0, 0⟩, 0, 10, 0, true⟩] ⟨⟨0, 0, 0⟩, 0, 0, 0, true⟩ ⟨⟨0, 0, 0⟩, 0, 1 / 10000, 0, true⟩
    (by decide +kernel) (by decide +kernel) rfl rfl (by norm_num)
  revert this
  decide +kernel

/-- C378: with at most one next element the hits that set the weights of a view are those of that view of the element, the next and the previous one. -/
theorem C378_around_partial (this : List Hit) (nexts : List (List Hit)) (prev : Option (List Hit)) (view : Nat) (hn : nexts.length ≤ 1) :
    around this nexts prev view = (this ++ nexts.flatten ++ prev.getD []).filter fun h => decide (h.view = view) := by
  unfold around
  match nexts, hn with
  | [], _ => rfl
  | [a], _ => rfl

/-- C378: with two next elements the hits of the first one are taken twice and those of the second are left out. -/
theorem C378_around_refuted : ∃ (h k : Hit), h ≠ k ∧ around [] [[h], [k]] none 0 = [h, h] ∧ k.view = 0 :=
  ⟨⟨⟨0, 0, 0⟩, 0, 1, 1, true⟩, ⟨⟨0, 0, 0⟩, 0, 2, 2, true⟩, by decide +kernel, by decide +kernel, rfl⟩

/-! ### C379 -/

/-- Hits of the element of a view. -/
def own (v : Nat) (l : List Hit) : Nat := l.countP fun h => decide (h.view = v)

/-- Hits of a view that are enabled. -/
def onIn (v : Nat) (l : List Hit) : Nat := l.countP fun h => decide (h.view = v) && h.enabled

theorem select_on (nhits : Nat → Nat) (nmax v : Nat) (hm : (plan (nhits v) nmax).1 ≠ 0) (l : List Hit) : ∀ count : Nat → Nat,
    onIn v (select nhits nmax count l) =
      (List.range' (count v) (own v l)).countP fun j => if j % (plan (nhits v) nmax).1 = 0 then (plan (nhits v) nmax).2 else !(plan (nhits v) nmax).2 := by
  induction l with
  | nil => intro count; simp [select, onIn, own]
  | cons h l ih =>
    intro count
    unfold select
    dsimp only
    by_cases hv : h.view = v
    · have ho : own v (h :: l) = own v l + 1 := by simp [own, hv]
      rw [ho, List.range'_succ, List.countP_cons, hv, if_pos hm]
      have e := ih (fun w => if w = v then count w + 1 else count w)
      rw [if_pos rfl] at e
      rw [← e]
      unfold onIn
      rw [List.countP_cons]
      simp
    · have ho : own v (h :: l) = own v l := by simp [own, hv]
      rw [ho]
      by_cases hz : (plan (nhits h.view) nmax).1 ≠ 0
      · rw [if_pos hz]
        have e := ih (fun w => if w = h.view then count w + 1 else count w)
        rw [if_neg (fun x => hv x.symm)] at e
        rw [← e]
        unfold onIn
        rw [List.countP_cons]
        simp [hv]
      · rw [if_neg hz]
        rw [← ih count]
        unfold onIn
        rw [List.countP_cons]
        simp [hv]

theorem select_all (nhits : Nat → Nat) (nmax v : Nat) (hm : (plan (nhits v) nmax).1 = 0) (l : List Hit) : ∀ count : Nat → Nat,
    onIn v (select nhits nmax count l) = own v l := by
  induction l with
  | nil => intro count; simp [select, onIn, own]
  | cons h l ih =>
    intro count
    unfold select
    dsimp only
    by_cases hv : h.view = v
    · rw [hv, if_neg (by simp [hm])]
      have e := ih count
      unfold onIn own at *
      simp [List.countP_cons, hv, e]
    · split
      · have e := ih (fun w => if w = h.view then count w + 1 else count w)
        unfold onIn own at *
        simp [List.countP_cons, hv, e]
      · have e := ih count
        unfold onIn own at *
        simp [List.countP_cons, hv, e]

/-- Multiples of `m` below `k`: the smallest number whose product with `m` is at least `k`. -/
theorem mults (m : Nat) (hm : 0 < m) (k : Nat) :
    k ≤ ((List.range' 0 k).countP fun j => decide (j % m = 0)) * m ∧ ((List.range' 0 k).countP fun j => decide (j % m = 0)) * m < k + m := by
  induction k with
  | zero => simp [hm]
  | succ k ih =>
    rw [List.range'_concat, List.countP_append]
    simp only [List.countP_cons, List.countP_nil, Nat.zero_add, Nat.one_mul]
    generalize ((List.range' 0 k).countP fun j => decide (j % m = 0)) = c at *
    by_cases h : k % m = 0
    · simp only [h, decide_true, if_true]
      obtain ⟨q, rfl⟩ := Nat.dvd_of_mod_eq_zero h
      have hc : c = q := by
        have h1 : m * q ≤ m * c := by rw [Nat.mul_comm m c]; exact ih.1
        have h2 : m * c < m * (q + 1) := by rw [Nat.mul_comm m c, Nat.mul_succ]; exact ih.2
        have := Nat.le_of_mul_le_mul_left h1 hm
        have := Nat.lt_of_mul_lt_mul_left h2
        omega
      subst hc
      rw [Nat.add_mul, Nat.mul_comm c m]
      omega
    · simp only [h, decide_false, Bool.false_eq_true, if_false, Nat.add_zero]
      have : c * m ≠ k := by
        intro e
        apply h
        rw [← e]; simp
      omega

theorem countP_not (p : Nat → Bool) (l : List Nat) : l.countP (fun j => !p j) = l.length - l.countP p := by
  have := List.length_eq_countP_add_countP p (l := l)
  have e : l.countP (fun a => decide ¬ p a = true) = l.countP (fun j => !p j) := by
    congr 1; funext a; cases p a <;> rfl
  rw [e] at this
  omega

theorem on_case1 (nhits : Nat → Nat) (nmax v : Nat) (hx : 0 < nmax) (h : 2 * nmax ≤ nhits v) (l : List Hit) :
    onIn v (select nhits nmax (fun _ => 0) l) = (List.range' 0 (own v l)).countP fun j => decide (j % (nhits v / nmax) = 0) := by
  have hp : plan (nhits v) nmax = (nhits v / nmax, true) := by unfold plan; rw [if_pos h]
  have hq : 2 ≤ nhits v / nmax := by rw [Nat.le_div_iff_mul_le hx]; omega
  rw [select_on nhits nmax v (by rw [hp]; simp only; omega) l, hp]
  congr 1

theorem on_case2 (nhits : Nat → Nat) (nmax v : Nat) (h : nhits v < 2 * nmax) (h1 : nmax < nhits v) (l : List Hit) :
    onIn v (select nhits nmax (fun _ => 0) l) =
      own v l - (List.range' 0 (own v l)).countP fun j => decide (j % (nhits v / (nhits v - nmax)) = 0) := by
  have hp : plan (nhits v) nmax = (nhits v / (nhits v - nmax), false) := by unfold plan; rw [if_neg (by omega), if_pos h1]
  have hq : 1 ≤ nhits v / (nhits v - nmax) := by rw [Nat.le_div_iff_mul_le (by omega)]; omega
  rw [select_on nhits nmax v (by rw [hp]; simp only; omega) l, hp]
  have := countP_not (fun j => decide (j % (nhits v / (nhits v - nmax)) = 0)) (List.range' 0 (own v l))
  rw [List.length_range'] at this
  rw [← this]
  congr 1
  funext j
  dsimp only
  by_cases e : j % (nhits v / (nhits v - nmax)) = 0
  · simp [e]
  · simp [e]

theorem onIn_out (nhits : Nat → Nat) (nmax v : Nat) (hx : 0 < nmax) (l : List Hit) :
    onIn v (selectRnd nhits nmax l).1 = onIn v (select nhits nmax (fun _ => 0) l) := by
  unfold selectRnd
  rw [if_neg (by omega)]

/-- C379: the number of hits of a view left in use.  `nhits` is the number of hits of the view in the element and its neighbours, not less than the number of its own hits.  At most one and a
half times the maximum stay in use.  If the neighbourhood has no more hits than the maximum, all are in use.  If all hits of the neighbourhood are the element's own and there are more than the
maximum, at least half the maximum, and with twice the maximum or more at least the maximum, are in use. -/
theorem C379_count_partial (nhits : Nat → Nat) (nmax v : Nat) (hx : 0 < nmax) (l : List Hit) (hown : own v l ≤ nhits v) :
    2 * onIn v (selectRnd nhits nmax l).1 ≤ 3 * nmax ∧
    (nhits v < 2 * nmax → onIn v (selectRnd nhits nmax l).1 ≤ nmax) ∧
    (nhits v ≤ nmax → onIn v (selectRnd nhits nmax l).1 = own v l) ∧
    (own v l = nhits v → nmax < nhits v → nmax ≤ 2 * onIn v (selectRnd nhits nmax l).1 ∧ (2 * nmax ≤ nhits v → nmax ≤ onIn v (selectRnd nhits nmax l).1)) := by
  rw [onIn_out nhits nmax v hx l]
  by_cases h1 : 2 * nmax ≤ nhits v
  · have e := on_case1 nhits nmax v hx h1 l
    have hq : 2 ≤ nhits v / nmax := by rw [Nat.le_div_iff_mul_le hx]; omega
    obtain ⟨m1, m2⟩ := mults (nhits v / nmax) (by omega) (own v l)
    rw [← e] at m1 m2
    generalize onIn v (select nhits nmax (fun _ => 0) l) = c at *
    have hdm := Nat.div_add_mod (nhits v) nmax
    have hmod := Nat.mod_lt (nhits v) hx
    generalize nhits v / nmax = q at *
    generalize nhits v % nmax = r at *
    have up : 2 * c ≤ 3 * nmax := by
      by_contra hc
      push Not at hc
      -- c * q < nmax * q + r + q with q at least 2
      have h2 : c * q < nmax * q + r + q := by rw [Nat.mul_comm nmax q, Nat.mul_comm q nmax] at *; omega
      have h3 : (c - nmax) * q < r + q := by rw [Nat.sub_mul]; omega
      have h4 : nmax + 1 ≤ 2 * (c - nmax) := by omega
      obtain ⟨d, hd⟩ : ∃ d, c - nmax = d + 1 := ⟨c - nmax - 1, by omega⟩
      rw [hd, Nat.add_mul] at h3
      have h5 : d * 2 ≤ d * q := Nat.mul_le_mul_left d hq
      omega
    refine ⟨up, fun h => by omega, fun h => by omega, fun ho _ => ?_⟩
    have lo : nmax ≤ c := by
      by_contra hc
      push Not at hc
      have : (c + 1) * q ≤ nmax * q := Nat.mul_le_mul_right q (by omega)
      rw [Nat.add_mul] at this
      omega
    exact ⟨by omega, fun _ => lo⟩
  · by_cases h2 : nmax < nhits v
    · have e := on_case2 nhits nmax v (by omega) h2 l
      have hd : 0 < nhits v - nmax := by omega
      have hq : 2 ≤ nhits v / (nhits v - nmax) := by rw [Nat.le_div_iff_mul_le hd]; omega
      obtain ⟨m1, m2⟩ := mults (nhits v / (nhits v - nmax)) (by omega) (own v l)
      generalize (List.range' 0 (own v l)).countP (fun j => decide (j % (nhits v / (nhits v - nmax)) = 0)) = c at *
      rw [e]
      have hdm := Nat.div_mul_le_self (nhits v) (nhits v - nmax)
      generalize nhits v / (nhits v - nmax) = m at *
      have up : own v l - c ≤ nmax := by
        by_contra hc
        push Not at hc
        -- c * m is at least the number of own hits, (n - nmax) * m at most n
        have h3 : c + 1 + nmax ≤ own v l := by omega
        have h4 : c + 1 ≤ nhits v - nmax := by omega
        obtain ⟨d, hdd⟩ : ∃ d, nhits v - nmax = c + 1 + d := ⟨nhits v - nmax - (c + 1), by omega⟩
        rw [hdd] at hdm
        have h5 : m * (c + 1 + d) = c * m + m + m * d := by ring
        rw [h5] at hdm
        have h6 : 2 * d ≤ m * d := Nat.mul_le_mul_right d hq
        omega
      refine ⟨by omega, fun _ => up, fun h => by omega, fun ho _ => ⟨?_, fun h => absurd h h1⟩⟩
      have h3 : c * 2 ≤ c * m := Nat.mul_le_mul_left c hq
      by_contra hc
      push Not at hc
      -- 2 (n - c) < nmax < n gives n < 2 c
      have h4 : nhits v + 2 ≤ 2 * c := by omega
      obtain ⟨d, hdd⟩ : ∃ d, c = d + 1 := ⟨c - 1, by omega⟩
      rw [hdd, Nat.add_mul] at m2
      have h5 : d * 2 ≤ d * m := Nat.mul_le_mul_left d hq
      omega
    · have hp : (plan (nhits v) nmax).1 = 0 := by unfold plan; rw [if_neg h1, if_neg h2]
      rw [select_all nhits nmax v hp l]
      exact ⟨by omega, fun _ => by omega, fun _ => rfl, fun _ h => absurd h h2⟩

theorem select_shape (nhits : Nat → Nat) (nmax : Nat) (l : List Hit) : ∀ count,
    (select nhits nmax count l).map (fun h => { h with enabled := true }) = l.map fun h => { h with enabled := true } := by
  induction l with
  | nil => intro count; simp [select]
  | cons h l ih =>
    intro count
    unfold select
    dsimp only
    split
    · simp [ih]
    · simp [ih]

theorem any_ne (l : List Hit) : ∀ out : List Hit, out.map (fun h => { h with enabled := true }) = l.map (fun h => { h with enabled := true }) →
    (((l.zip out).any fun p => p.1.enabled != p.2.enabled) = true ↔ out ≠ l) := by
  induction l with
  | nil => intro out h; simp at h; simp [h]
  | cons a l ih =>
    intro out h
    cases out with
    | nil => simp at h
    | cons b out =>
      simp only [List.map_cons, List.cons.injEq] at h
      have h1 := ih out h.2
      simp only [List.zip_cons_cons, List.any_cons, Bool.or_eq_true, h1, bne_iff_ne, ne_eq, List.cons.injEq, not_and_or]
      constructor
      · rintro (h2 | h2)
        · left; intro e; exact h2 (by rw [e])
        · right; exact h2
      · rintro (h2 | h2)
        · left
          intro e
          apply h2
          have h3 := h.1
          cases a; cases b
          simp_all
        · right; exact h2

/-- C379: nothing but the use of the hits changes, and the function says so exactly when the use of some hit has changed; with a maximum of 0 all hits are taken. -/
theorem C379_changed (nhits : Nat → Nat) (nmax : Nat) (l : List Hit) :
    (selectRnd nhits nmax l).1.map (fun h => { h with enabled := true }) = l.map (fun h => { h with enabled := true }) ∧
    ((selectRnd nhits nmax l).2 = true ↔ (selectRnd nhits nmax l).1 ≠ l) ∧
    (nmax = 0 → ∀ h ∈ (selectRnd nhits nmax l).1, h.enabled = true) := by
  have hs : (selectRnd nhits nmax l).1.map (fun h => { h with enabled := true }) = l.map (fun h => { h with enabled := true }) := by
    unfold selectRnd
    dsimp only
    split
    · rw [List.map_map]; rfl
    · exact select_shape nhits nmax l _
  refine ⟨hs, any_ne l _ hs, fun h0 h hh => ?_⟩
  unfold selectRnd at hh
  dsimp only at hh
  rw [if_pos h0] at hh
  obtain ⟨k, _, rfl⟩ := List.mem_map.mp hh
  rfl

/-- A hit of a view, for examples. -/
def mkHit (v : Nat) (e : Bool) : Hit := ⟨⟨0, 0, 0⟩, v, 1, 1, e⟩

example : onIn 0 (selectRnd (fun _ => 6) 2 (List.replicate 6 (mkHit 0 true))).1 = 2 ∧ own 0 (List.replicate 6 (mkHit 0 true)) = 6 := by decide +kernel

/-- C379: more hits than the maximum may stay in use; and an element with a single hit, whose neighbours have two, loses it although the maximum is two. -/
theorem C379_refuted :
    (¬ ∀ (nhits : Nat → Nat) (nmax v : Nat) (l : List Hit), 0 < nmax → own v l ≤ nhits v → onIn v (selectRnd nhits nmax l).1 ≤ nmax) ∧
    ¬ ∀ (nhits : Nat → Nat) (nmax v : Nat) (l : List Hit), 0 < nmax → own v l ≤ nhits v → own v l ≤ nmax → onIn v (selectRnd nhits nmax l).1 = own v l := by
  constructor
  · intro h
    have := h (fun _ => 5) 2 0 (List.replicate 5 (mkHit 0 true)) (by decide) (by decide)
    revert this
    decide +kernel
  · intro h
    have := h (fun _ => 3) 2 0 [mkHit 0 true] (by decide) (by decide) (by decide)
    revert this
    decide +kernel

end Verif.PmaUtil

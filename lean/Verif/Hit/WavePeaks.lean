import Verif.Hit.WaveSmooth
import Mathlib.Tactic.Positivity
import Mathlib.Algebra.Order.BigOperators.Group.List
import Mathlib.Algebra.BigOperators.Ring.List
/-!
# Truncated mean and peak search (C67, C68)
-/
namespace Verif.Wave
open Verif

/-! ## C67 -/

/-- the quarter-unit bin of a sample -/
def bin (v : ℚ) : ℤ := roundQ (4 * v)

/-- how many samples of `w` fall into bin `k` -/
def pop (w : List ℚ) (k : ℤ) : Nat := w.countP (fun v => decide (bin v = k))

/-- `m` is a most populated bin -/
def IsMode (w : List ℚ) (m : ℤ) : Prop := ∀ k, pop w k ≤ pop w m

theorem modeLoop_spec (l : List ℤ) : ∀ (done : List ℤ) (f : ℤ → Nat) (c : Nat) (m : ℤ),
    (∀ k, f k = done.count k) → c = done.count m → (∀ k, done.count k ≤ c) →
    ∃ m', modeLoop l (f, c, m) = (fun k => (done ++ l).count k, (done ++ l).count m', m') ∧
      ∀ k, (done ++ l).count k ≤ (done ++ l).count m' := by
  induction l with
  | nil =>
    intro done f c m hf hc hm
    refine ⟨m, ?_, ?_⟩
    · simp only [modeLoop, List.append_nil]
      rw [← hc, show f = fun k => done.count k from funext hf]
    · intro k; rw [List.append_nil, ← hc]; exact hm k
  | cons v vs ih =>
    intro done f c m hf hc hm
    unfold modeLoop
    simp only []
    have happ : done ++ v :: vs = (done ++ [v]) ++ vs := by simp
    have hcount : ∀ k, (done ++ [v]).count k = if k = v then done.count k + 1 else done.count k := by
      intro k
      rw [List.count_append, List.count_singleton]
      by_cases h : k = v
      · simp [h]
      · have : (v == k) = false := by simpa using fun hh => h hh.symm
        simp [h, this]
    simp only [if_true]
    have hf' : ∀ k, (if k = v then f k + 1 else f k) = (done ++ [v]).count k := by
      intro k; rw [hcount k]; simp only [hf]
    by_cases hgt : f v + 1 > c
    · rw [if_pos hgt, happ]
      apply ih
      · exact hf'
      · rw [hcount v, if_pos rfl, hf]
      · intro k
        rw [hcount k]
        have := hm k
        by_cases h : k = v
        · subst h; rw [if_pos rfl, hf]
        · rw [if_neg h]; omega
    · rw [if_neg hgt, happ]
      apply ih
      · exact hf'
      · rw [hcount m]
        by_cases h : m = v
        · subst h; rw [hf] at hgt; omega
        · rw [if_neg h]; exact hc
      · intro k
        rw [hcount k]
        have := hm k
        by_cases h : k = v
        · subst h; rw [if_pos rfl]; rw [hf] at hgt; omega
        · rw [if_neg h]; exact this

theorem meanLoop_eq (f : ℤ → Nat) (c : Nat) (m : ℤ) (is : List ℤ) : ∀ s n,
    meanLoop f c m is (s, n) =
      (s + (is.map (fun i => if 5 * f (m + i) > c then (m + i) * f (m + i) else 0)).sum,
       n + (is.map (fun i => if 5 * f (m + i) > c then f (m + i) else 0)).sum) := by
  induction is with
  | nil => intro s n; simp [meanLoop]
  | cons i is ih =>
    intro s n
    unfold meanLoop
    by_cases h : 5 * f (m + i) > c
    · rw [if_pos ⟨by omega, h⟩, ih]
      simp only [List.map_cons, List.sum_cons, if_pos h]
      rw [add_assoc, Nat.add_assoc]
    · rw [if_neg (fun hh => h hh.2), ih]
      simp only [List.map_cons, List.sum_cons, if_neg h]
      simp

/-- summing bin contents over a set of bins = counting the samples in these bins -/
theorem sum_bins (acc : ℤ → Bool) (ks : List ℤ) (hk : ks.Nodup) (l : List ℤ) :
    (ks.map (fun k => if acc k then l.count k else 0)).sum = (l.filter (fun v => decide (v ∈ ks) && acc v)).length ∧
    (ks.map (fun k => if acc k then k * (l.count k : ℤ) else 0)).sum = (l.filter (fun v => decide (v ∈ ks) && acc v)).sum := by
  induction l with
  | nil =>
    constructor
    · simp
    · simp
  | cons v vs ih =>
    obtain ⟨h1, h2⟩ := ih
    have e1 : ∀ ks : List ℤ, ks.Nodup → (ks.map (fun k => if acc k then (v :: vs).count k else 0)).sum =
        (ks.map (fun k => if acc k then vs.count k else 0)).sum + if decide (v ∈ ks) && acc v then 1 else 0 := by
      intro ks hk
      induction ks with
      | nil => simp
      | cons a ks ih =>
        obtain ⟨n1, n2⟩ := List.nodup_cons.1 hk
        rw [List.map_cons, List.sum_cons, ih n2, List.map_cons, List.sum_cons, List.count_cons]
        by_cases hv : v = a
        · subst hv
          cases h : acc v <;> simp [h, n1] <;> omega
        · have hb : (v == a) = false := by simpa using hv
          have : (decide (v ∈ a :: ks)) = decide (v ∈ ks) := by simp [hv]
          rw [this]
          simp [hb]; omega
    have e2 : ∀ ks : List ℤ, ks.Nodup → (ks.map (fun k => if acc k then k * ((v :: vs).count k : ℤ) else 0)).sum =
        (ks.map (fun k => if acc k then k * (vs.count k : ℤ) else 0)).sum + if decide (v ∈ ks) && acc v then v else 0 := by
      intro ks hk
      induction ks with
      | nil => simp
      | cons a ks ih =>
        obtain ⟨n1, n2⟩ := List.nodup_cons.1 hk
        rw [List.map_cons, List.sum_cons, ih n2, List.map_cons, List.sum_cons, List.count_cons]
        by_cases hv : v = a
        · subst hv
          cases h : acc v <;> simp [h, n1]; ring
        · have hb : (v == a) = false := by simpa using hv
          have : (decide (v ∈ a :: ks)) = decide (v ∈ ks) := by simp [hv]
          rw [this]
          simp [hb]; ring
    rw [e1 ks hk, e2 ks hk, h1, h2, List.filter_cons]
    by_cases h : (decide (v ∈ ks) && acc v) = true
    · rw [h]; simp; ring
    · rw [Bool.not_eq_true] at h; rw [h]; simp

/-- the samples that enter the truncated mean: their bin is at most `r` bins away from bin `m` and holds more than a fifth of
the samples of bin `m` -/
def core (w : List ℚ) (m : ℤ) (r : Nat) : List ℚ :=
  w.filter (fun v => decide (|bin v - m| ≤ r) && decide (5 * pop w (bin v) > pop w m))

/-- half the number of populated bins plus one, at most 16 -/
def reach (w : List ℚ) : Nat := min 16 ((w.map bin).dedup.length / 2 + 1)

theorem pop_count (w : List ℚ) (k : ℤ) : pop w k = (w.map bin).count k := by
  unfold pop List.count
  rw [List.countP_map]
  apply List.countP_congr
  intro x _
  simp

theorem range_nodup (r : Nat) (m : ℤ) : ((List.range (2 * r + 1)).map (fun k : Nat => m + ((k : ℤ) - r))).Nodup := by
  apply List.Nodup.map _ List.nodup_range
  intro a b h
  simp only at h
  omega

theorem mem_range_bins (r : Nat) (m v : ℤ) :
    v ∈ (List.range (2 * r + 1)).map (fun k : Nat => m + ((k : ℤ) - r)) ↔ |v - m| ≤ r := by
  rw [List.mem_map, abs_le]
  constructor
  · rintro ⟨k, hk, rfl⟩
    rw [List.mem_range] at hk
    constructor <;> omega
  · rintro ⟨h1, h2⟩
    exact ⟨(v - m + r).toNat, by rw [List.mem_range]; omega, by omega⟩

/-- sums of squares of the truncated part and of the whole -/
theorem truncMean_eq (w : List ℚ) : ∃ m, IsMode w m ∧ (truncMean w).2.2.2 = (core w m (reach w)).length ∧
    (truncMean w).1 = 1 / 4 * (((core w m (reach w)).map bin).sum : ℤ) / (core w m (reach w)).length := by
  obtain ⟨m, hm, hmode⟩ := modeLoop_spec (w.map bin) [] (fun _ => 0) 0 0 (by simp) (by simp) (by simp)
  rw [List.nil_append] at hm hmode
  refine ⟨m, fun k => by rw [pop_count, pop_count]; exact hmode k, ?_⟩
  have hred : truncMean w =
      (let (f, c, m) := modeLoop (w.map bin) (fun _ => 0, 0, 0)
       let (s, n) := meanLoop f c m ((List.range (2 * reach w + 1)).map (fun k : Nat => (k : ℤ) - reach w)) (0, 0)
       let mean := 1 / 4 * (s : ℚ) / n
       let loc := (w.map (· - mean)).insertionSort (fun a b => |a| ≤ |b|)
       (mean, max 0 ((loc.map (fun x => x * x)).sum / w.length), max 0 (((loc.take n).map (fun x => x * x)).sum / n), n)) := rfl
  rw [hred, hm]
  simp only [meanLoop_eq, List.map_map, Function.comp_def]
  have key := sum_bins (fun k => decide (5 * (w.map bin).count k > (w.map bin).count m))
    ((List.range (2 * reach w + 1)).map (fun k : Nat => m + ((k : ℤ) - (reach w : Nat)))) (range_nodup _ _) (w.map bin)
  have hfil : (w.map bin).filter (fun v => decide (v ∈ (List.range (2 * reach w + 1)).map (fun k : Nat => m + ((k : ℤ) - (reach w : Nat)))) &&
      decide (5 * (w.map bin).count v > (w.map bin).count m)) = (core w m (reach w)).map bin := by
    unfold core
    rw [List.filter_map]
    congr 1
    apply List.filter_congr
    intro x _
    simp only [Function.comp_def, mem_range_bins, pop_count]
  rw [hfil] at key
  simp only [List.map_map, Function.comp_def, decide_eq_true_eq] at key
  obtain ⟨k1, k2⟩ := key
  rw [List.length_map] at k1
  constructor
  · rw [← k1]; simp
  · rw [← k1, ← k2]; simp

/-- C67: the truncated mean is the mean of the quarter-rounded samples in the well populated bins around a most populated bin,
`nTrunc` is their number (at least one, at most all), and the mean is at most 4 units from that bin. -/
theorem C67_truncated_mean (w : List ℚ) (hw : w ≠ []) :
    ∃ m, IsMode w m ∧ (truncMean w).2.2.2 = (core w m (reach w)).length ∧
      (truncMean w).1 = (((core w m (reach w)).map (fun v => (bin v : ℚ) / 4)).sum) / (core w m (reach w)).length ∧
      1 ≤ (truncMean w).2.2.2 ∧ (truncMean w).2.2.2 ≤ w.length ∧ |(truncMean w).1 - m / 4| ≤ 4 := by
  obtain ⟨m, h1, h2, h3⟩ := truncMean_eq w
  -- the mode itself is populated
  obtain ⟨v, hv⟩ := List.exists_mem_of_ne_nil w hw
  have hpm : 0 < pop w m := by
    have h0 : 0 < pop w (bin v) := by
      unfold pop; rw [List.countP_pos_iff]; exact ⟨v, hv, by simp⟩
    exact lt_of_lt_of_le h0 (h1 _)
  obtain ⟨x, hx, hxm⟩ : ∃ x ∈ w, bin x = m := by
    unfold pop at hpm; rw [List.countP_pos_iff] at hpm
    obtain ⟨x, hx, hxm⟩ := hpm
    exact ⟨x, hx, by simpa using hxm⟩
  have hcore : x ∈ core w m (reach w) := by
    unfold core
    rw [List.mem_filter, hxm]
    refine ⟨hx, ?_⟩
    simp; omega
  have hlen : 0 < (core w m (reach w)).length := List.length_pos_of_mem hcore
  have hq : (0 : ℚ) < (core w m (reach w)).length := by exact_mod_cast hlen
  have hsum : ∀ l : List ℚ, 1 / 4 * (((l.map bin).sum : ℤ) : ℚ) = (l.map (fun v => (bin v : ℚ) / 4)).sum := by
    intro l
    induction l with
    | nil => simp
    | cons a l ih => simp only [List.map_cons, List.sum_cons, ← ih]; push_cast; ring
  refine ⟨m, h1, h2, by rw [h3, hsum], by rw [h2]; exact hlen, ?_, ?_⟩
  · rw [h2]; exact List.length_filter_le _ _
  · rw [h3, hsum]
    have hb : ∀ l : List ℚ, (∀ v ∈ l, |bin v - m| ≤ 16) →
        |(l.map (fun v => (bin v : ℚ) / 4)).sum - l.length * (m / 4 : ℚ)| ≤ 4 * l.length := by
      intro l
      induction l with
      | nil => intro _; simp
      | cons a l ih =>
        intro hl
        have ha := hl a (by simp)
        have hr := ih (fun v hv => hl v (by simp [hv]))
        have ha' : |((bin a : ℚ)) - m| ≤ 16 := by exact_mod_cast ha
        rw [List.map_cons, List.sum_cons, List.length_cons]
        rw [abs_le] at *
        push_cast
        constructor <;> linarith [ha'.1, ha'.2, hr.1, hr.2]
    have hc := hb (core w m (reach w)) (fun v hv => by
      unfold core at hv
      rw [List.mem_filter] at hv
      have h := hv.2
      simp only [Bool.and_eq_true, decide_eq_true_eq] at h
      refine h.1.trans ?_
      have : reach w ≤ 16 := by unfold reach; omega
      exact_mod_cast this)
    rw [abs_le] at *
    have e : ∀ S L M : ℚ, 0 < L → S / L - M = (S - L * M) / L := by intro S L M hL; field_simp
    rw [e _ _ _ hq]
    constructor
    · rw [le_div_iff₀ hq]; linarith [hc.1]
    · rw [div_le_iff₀ hq]; linarith [hc.2]

/-- the mean of the first `k` of an ascending list is at most the mean of all -/
theorem prefix_mean_le (l : List ℚ) (hl : l.Pairwise (· ≤ ·)) (k : Nat) (hk : 0 < k) (hkl : k ≤ l.length) :
    (l.take k).sum / k ≤ l.sum / l.length := by
  have hkq : (0 : ℚ) < k := by exact_mod_cast hk
  have hlq : (0 : ℚ) < l.length := by exact_mod_cast (by omega : 0 < l.length)
  rw [div_le_div_iff₀ hkq hlq]
  have hsplit : l.sum = (l.take k).sum + (l.drop k).sum := by rw [← List.sum_append, List.take_append_drop]
  have hcast : (l.length : ℚ) = k + (l.drop k).length := by
    rw [List.length_drop]; push_cast [Nat.cast_sub hkl]; ring
  have hlow : ∀ a ∈ l.take k, ∀ b ∈ l.drop k, a ≤ b := by
    have := hl
    rw [← List.take_append_drop k l, List.pairwise_append] at this
    intro a ha b hb
    exact this.2.2 a ha b hb
  have hlen : (l.take k).length = k := by rw [List.length_take]; omega
  have key : ∀ A B : List ℚ, (∀ a ∈ A, ∀ b ∈ B, a ≤ b) → A.sum * B.length ≤ B.sum * A.length := by
    intro A B
    induction A with
    | nil => intro _; simp
    | cons a A ih =>
      intro h
      have h1 := ih (fun x hx b hb => h x (by simp [hx]) b hb)
      have h2 : ∀ B : List ℚ, (∀ b ∈ B, a ≤ b) → a * B.length ≤ B.sum := by
        intro B
        induction B with
        | nil => intro _; simp
        | cons b B ihB =>
          intro hB
          have := ihB (fun x hx => hB x (by simp [hx]))
          have hb := hB b (by simp)
          simp only [List.length_cons, List.sum_cons]; push_cast; linarith
      have h3 := h2 B (fun b hb => h a (by simp) b hb)
      simp only [List.length_cons, List.sum_cons]; push_cast; linarith
  have := key _ _ hlow
  rw [hlen] at this
  rw [hsplit, hcast]
  linarith

/-- C67: the truncated rms never exceeds the full rms (compared as squares), and both squares are not negative. -/
theorem C67_rms_ordered (w : List ℚ) (hw : w ≠ []) :
    0 ≤ (truncMean w).2.2.1 ∧ (truncMean w).2.2.1 ≤ (truncMean w).2.1 := by
  obtain ⟨m, -, h2, -, hn1, hn2, -⟩ := C67_truncated_mean w hw
  clear h2
  revert hn1 hn2
  unfold truncMean
  simp only []
  generalize modeLoop (List.map (fun v => roundQ (4 * v)) w) (fun _ => 0, 0, 0) = st
  obtain ⟨f, c, mm⟩ := st
  simp only []
  generalize meanLoop f c mm _ (0, 0) = sn
  obtain ⟨s, n⟩ := sn
  simp only []
  intro hn1 hn2
  refine ⟨le_max_left _ _, ?_⟩
  generalize hloc : (w.map (· - 1 / 4 * (s : ℚ) / n)).insertionSort (fun a b => |a| ≤ |b|) = loc
  have hlen : loc.length = w.length := by rw [← hloc, List.length_insertionSort, List.length_map]
  have hsort : (loc.map (fun x => x * x)).Pairwise (· ≤ ·) := by
    rw [List.pairwise_map]
    have : loc.Pairwise (fun a b => |a| ≤ |b|) := by
      rw [← hloc]
      haveI : Std.Total (fun a b : ℚ => |a| ≤ |b|) := ⟨fun a b => le_total _ _⟩
      haveI : IsTrans ℚ (fun a b : ℚ => |a| ≤ |b|) := ⟨fun a b c h1 h2 => le_trans h1 h2⟩
      exact List.pairwise_insertionSort _ _
    exact this.imp (fun {a b} h => by nlinarith [abs_mul_abs_self a, abs_mul_abs_self b, abs_nonneg a, abs_nonneg b])
  apply max_le_max (le_refl _)
  have := prefix_mean_le (loc.map (fun x => x * x)) hsort n hn1 (by rw [List.length_map]; omega)
  rw [List.length_map, hlen, ← List.map_take] at this
  exact this

example : (truncMean [0, 0, 0, 1 / 4, 8]).1 = 1 / 16 ∧ (truncMean [0, 0, 0, 1 / 4, 8]).2.2.2 = 4 := by decide +kernel

/-! ## C68 -/

theorem absMax_spec (w : Nat → ℚ) (a b : Nat) (hab : a < b) :
    a ≤ absMax w a b ∧ absMax w a b < b ∧ (∀ k, a ≤ k → k < b → |w k| ≤ |w (absMax w a b)|) ∧
      ∀ k, a ≤ k → k < absMax w a b → |w k| < |w (absMax w a b)| := by
  unfold absMax
  have key : ∀ (j c m : Nat), a ≤ m → m < c → (∀ k, a ≤ k → k < c → |w k| ≤ |w m|) → (∀ k, a ≤ k → k < m → |w k| < |w m|) →
      let r := (List.range' c j).foldl (fun m k => if |w m| < |w k| then k else m) m
      a ≤ r ∧ r < c + j ∧ (∀ k, a ≤ k → k < c + j → |w k| ≤ |w r|) ∧ ∀ k, a ≤ k → k < r → |w k| < |w r| := by
    intro j
    induction j with
    | zero => intro c m h1 h2 h3 h4; simpa using ⟨h1, h2, h3, h4⟩
    | succ j ih =>
      intro c m h1 h2 h3 h4
      rw [List.range'_succ, List.foldl_cons, show c + (j + 1) = c + 1 + j by omega]
      by_cases h : |w m| < |w c|
      · rw [if_pos h]
        refine ih (c + 1) c (by omega) (by omega) (fun k hk1 hk2 => ?_) (fun k hk1 hk2 => lt_of_le_of_lt (h3 k hk1 hk2) h)
        by_cases hkc : k = c
        · rw [hkc]
        · exact (h3 k hk1 (by omega)).trans h.le
      · rw [if_neg h]
        refine ih (c + 1) m h1 (by omega) (fun k hk1 hk2 => ?_) h4
        by_cases hkc : k = c
        · rw [hkc]; exact not_lt.1 h
        · exact h3 k hk1 (by omega)
  have := key (b - a - 1) (a + 1) a (le_refl _) (by omega) (fun k h1 h2 => by rw [show k = a by omega])
    (fun k h1 h2 => by omega)
  rwa [show a + 1 + (b - a - 1) = b by omega] at this

theorem rd_ok {w : List ℚ} {k : Nat} {v : ℚ} (h : rdOf w k = .ok v) : w[k]? = some v := by
  unfold rdOf at h
  cases hw : w[k]? with
  | none => rw [hw] at h; cases h
  | some x => rw [hw] at h; cases h; rfl

theorem lobeFwd_spec (w : List ℚ) (thr : ℚ) (first stop : Nat) (fuel : Nat) : ∀ t second s,
    first ≤ t → t ≤ stop → (second = first ∨ (first < second ∧ second ≤ t ∧ at' w second < -thr)) →
    lobeFwd (rdOf w) thr first stop fuel t second = .ok s → s = first ∨ (first < s ∧ s ≤ stop ∧ at' w s < -thr) := by
  induction fuel with
  | zero => intro t second s _ _ _ h; cases h
  | succ fuel ih =>
    intro t second s h1 h2 h3 h
    unfold lobeFwd at h
    by_cases ht : t = stop
    · rw [if_pos ht] at h
      cases h
      rcases h3 with h3 | ⟨a, b, c⟩
      · exact Or.inl h3
      · exact Or.inr ⟨a, by omega, c⟩
    · rw [if_neg ht] at h
      cases hv : rdOf w (t + 1) with
      | throw => rw [hv] at h; cases h
      | ub => rw [hv] at h; cases h
      | ok v =>
        rw [hv] at h
        cases hs : rdOf w second with
        | throw => rw [hs] at h; cases h
        | ub => rw [hs] at h; cases h
        | ok sv =>
          rw [hs] at h
          simp only [] at h
          by_cases hlt : v < -thr
          · rw [if_pos hlt] at h
            refine ih (t + 1) _ s (by omega) (by omega) ?_ h
            by_cases hc : v < sv
            · rw [if_pos hc]; exact Or.inr ⟨by omega, le_refl _, by rw [at_some (rd_ok hv)]; exact hlt⟩
            · rw [if_neg hc]
              rcases h3 with h3 | ⟨a, b, c⟩
              · exact Or.inl h3
              · exact Or.inr ⟨a, by omega, c⟩
          · rw [if_neg hlt] at h
            by_cases hne : second ≠ first
            · rw [if_pos hne] at h
              cases h
              rcases h3 with h3 | ⟨a, b, c⟩
              · exact absurd h3 hne
              · exact Or.inr ⟨a, by omega, c⟩
            · rw [if_neg hne] at h
              refine ih (t + 1) second s (by omega) (by omega) ?_ h
              exact Or.inl (not_not.1 hne)

theorem lobeBwd_spec (w : List ℚ) (thr : ℚ) (first start : Nat) (fuel : Nat) : ∀ t second s,
    t ≤ first → start ≤ t → (second = first ∨ (second < first ∧ t ≤ second ∧ at' w second > thr)) →
    lobeBwd (rdOf w) thr first start fuel t second = .ok s → s = first ∨ (s < first ∧ start ≤ s ∧ at' w s > thr) := by
  induction fuel with
  | zero => intro t second s _ _ _ h; cases h
  | succ fuel ih =>
    intro t second s h1 h2 h3 h
    unfold lobeBwd at h
    by_cases ht : t = start
    · rw [if_pos ht] at h
      cases h
      rcases h3 with h3 | ⟨a, b, c⟩
      · exact Or.inl h3
      · exact Or.inr ⟨a, by omega, c⟩
    · rw [if_neg ht] at h
      cases hv : rdOf w (t - 1) with
      | throw => rw [hv] at h; cases h
      | ub => rw [hv] at h; cases h
      | ok v =>
        rw [hv] at h
        cases hs : rdOf w second with
        | throw => rw [hs] at h; cases h
        | ub => rw [hs] at h; cases h
        | ok sv =>
          rw [hs] at h
          simp only [] at h
          by_cases hlt : v > thr
          · rw [if_pos hlt] at h
            refine ih (t - 1) _ s (by omega) (by omega) ?_ h
            by_cases hc : v > sv
            · rw [if_pos hc]; exact Or.inr ⟨by omega, le_refl _, by rw [at_some (rd_ok hv)]; exact hlt⟩
            · rw [if_neg hc]
              rcases h3 with h3 | ⟨a, b, c⟩
              · exact Or.inl h3
              · exact Or.inr ⟨a, by omega, c⟩
          · rw [if_neg hlt] at h
            by_cases hne : second ≠ first
            · rw [if_pos hne] at h
              cases h
              rcases h3 with h3 | ⟨a, b, c⟩
              · exact absurd h3 hne
              · exact Or.inr ⟨a, by omega, c⟩
            · rw [if_neg hne] at h
              refine ih (t - 1) second s (by omega) (by omega) ?_ h
              exact Or.inl (not_not.1 hne)

theorem backToZero_spec (w : List ℚ) (start : Nat) (fuel : Nat) : ∀ t r, start ≤ t →
    backToZero (rdOf w) start fuel t = .ok r → start ≤ r ∧ r ≤ t := by
  induction fuel with
  | zero => intro t r _ h; cases h
  | succ fuel ih =>
    intro t r h1 h
    unfold backToZero at h
    by_cases ht : t = start
    · rw [if_pos ht] at h; cases h; omega
    · rw [if_neg ht] at h
      cases hv : rdOf w (t - 1) with
      | throw => rw [hv] at h; cases h
      | ub => rw [hv] at h; cases h
      | ok v =>
        rw [hv] at h
        simp only [] at h
        by_cases hlt : v < 0
        · rw [if_pos hlt] at h; cases h; omega
        · rw [if_neg hlt] at h
          have := ih (t - 1) r (by omega) h
          omega

theorem fwdToZero_spec (w : List ℚ) (stop : Nat) (fuel : Nat) : ∀ t r, t ≤ stop →
    fwdToZero (rdOf w) stop fuel t = .ok r → t ≤ r ∧ r ≤ stop := by
  induction fuel with
  | zero => intro t r _ h; cases h
  | succ fuel ih =>
    intro t r h1 h
    unfold fwdToZero at h
    by_cases ht : t = stop
    · rw [if_pos ht] at h; cases h; omega
    · rw [if_neg ht] at h
      cases hv : rdOf w (t + 1) with
      | throw => rw [hv] at h; cases h
      | ub => rw [hv] at h; cases h
      | ok v =>
        rw [hv] at h
        simp only [] at h
        by_cases hlt : v > 0
        · rw [if_pos hlt] at h; cases h; omega
        · rw [if_neg hlt] at h
          have := ih (t + 1) r (by omega) h
          omega

/-- a peak `(first, centre, last)` is in order, inside `[start, stop]`, and contains a sample above the threshold followed by one
below minus the threshold -/
def GoodPeak (w : List ℚ) (thr : ℚ) (start stop : Nat) (p : Nat × Nat × Nat) : Prop :=
  start ≤ p.1 ∧ p.1 ≤ p.2.1 ∧ p.2.1 ≤ p.2.2 ∧ p.2.2 ≤ stop ∧
    ∃ a b, p.1 ≤ a ∧ a < b ∧ b ≤ p.2.2 ∧ at' w a > thr ∧ at' w b < -thr

theorem findPeaks_spec (w : List ℚ) (thr : ℚ) (fuel : Nat) : ∀ start stop out, stop - start < fuel → stop ≤ w.length →
    (findPeaks w thr fuel start stop out ≠ none) ∧
    ∀ r, findPeaks w thr fuel start stop out = some (.ok r) → ∃ new, r = out ++ new ∧
      (∀ p ∈ new, GoodPeak w thr start stop p) ∧ new.Pairwise (fun p q => p.2.2 ≤ q.1) := by
  induction fuel with
  | zero => intro _ _ _ h; omega
  | succ fuel ih =>
    intro start stop out hf hstop
    have done : ∀ r, (some (.ok out) : Option (Res (List (Nat × Nat × Nat)))) = some (.ok r) → ∃ new, r = out ++ new ∧
      (∀ p ∈ new, GoodPeak w thr start stop p) ∧ new.Pairwise (fun p q => p.2.2 ≤ q.1) := by
      intro r h
      injection h with h; injection h with h
      exact ⟨[], by simp [h], by simp, by simp⟩
    unfold findPeaks
    simp only []
    by_cases hd : stop - start > 4
    swap
    · rw [if_neg hd]; exact ⟨by simp, done⟩
    rw [if_pos hd]
    obtain ⟨m1, m2, -, -⟩ := absMax_spec (at' w) start stop (by omega)
    generalize absMax (at' w) start stop = m at m1 m2 ⊢
    by_cases hthr : |at' w m| > thr
    swap
    · rw [if_neg hthr]; exact ⟨by simp, done⟩
    rw [if_pos hthr]
    have hl : ∀ f s, lobes w thr start stop m = .ok (f, s) →
        f = s ∨ (start ≤ f ∧ f < s ∧ f < stop ∧ s ≤ stop ∧ at' w f > thr ∧ at' w s < -thr) := by
      intro f s h
      unfold lobes at h
      by_cases hpos : at' w m > 0
      · rw [if_pos hpos] at h
        cases hb : lobeFwd (rdOf w) thr m stop (w.length + 2) m m with
        | throw => rw [hb] at h; cases h
        | ub => rw [hb] at h; cases h
        | ok x =>
          rw [hb] at h
          cases h
          rcases lobeFwd_spec w thr _ stop _ _ _ _ (le_refl _) (by omega) (Or.inl rfl) hb with h | ⟨a, b, c⟩
          · exact Or.inl h.symm
          · exact Or.inr ⟨m1, a, m2, b, by rwa [abs_of_pos hpos] at hthr, c⟩
      · rw [if_neg hpos] at h
        cases hb : lobeBwd (rdOf w) thr m start (w.length + 2) m m with
        | throw => rw [hb] at h; cases h
        | ub => rw [hb] at h; cases h
        | ok x =>
          rw [hb] at h
          cases h
          rcases lobeBwd_spec w thr _ start _ _ _ _ (le_refl _) (by omega) (Or.inl rfl) hb with h | ⟨a, b, c⟩
          · exact Or.inl h
          · refine Or.inr ⟨b, a, by omega, by omega, c, ?_⟩
            rw [abs_of_nonpos (not_lt.1 hpos)] at hthr
            linarith
    generalize lobes w thr start stop m = lobes at hl ⊢
    cases lobes with
    | throw => exact ⟨by simp, by simp⟩
    | ub => exact ⟨by simp, by simp⟩
    | ok fs =>
      obtain ⟨f, s⟩ := fs
      simp only []
      by_cases hne : f ≠ s
      swap
      · rw [if_neg hne]; exact ⟨by simp, done⟩
      rw [if_pos hne]
      obtain ⟨l1, l2, l3, l4, l5, l6⟩ := (hl f s rfl).resolve_left hne
      cases hb : backToZero (rdOf w) start (w.length + 2) f with
      | throw => exact ⟨by simp, by simp⟩
      | ub => exact ⟨by simp, by simp⟩
      | ok f' =>
        cases hz : fwdToZero (rdOf w) stop (w.length + 2) s with
        | throw => exact ⟨by simp, by simp⟩
        | ub => exact ⟨by simp, by simp⟩
        | ok s' =>
          simp only []
          have b1 := backToZero_spec w start _ _ _ l1 hb
          have b2 := fwdToZero_spec w stop _ _ _ l4 hz
          obtain ⟨n1, p1⟩ := ih start f' out (by omega) (by omega)
          cases hL : findPeaks w thr fuel start f' out with
          | none => exact absurd hL n1
          | some rL =>
            cases rL with
            | throw => exact ⟨by simp, by simp⟩
            | ub => exact ⟨by simp, by simp⟩
            | ok out1 =>
              simp only []
              obtain ⟨new1, e1, g1, o1⟩ := p1 out1 hL
              obtain ⟨n2, p2⟩ := ih s' stop (out1 ++ [(f', f + (s - f) / 2, s')]) (by omega) hstop
              refine ⟨n2, fun r hr => ?_⟩
              obtain ⟨new2, e2, g2, o2⟩ := p2 r hr
              refine ⟨new1 ++ (f', f + (s - f) / 2, s') :: new2, by rw [e2, e1]; simp, ?_, ?_⟩
              · intro p hp
                rw [List.mem_append, List.mem_cons] at hp
                rcases hp with hp | hp | hp
                · obtain ⟨q1, q2, q3, q4, q5⟩ := g1 p hp
                  exact ⟨q1, q2, q3, by omega, q5⟩
                · subst hp
                  exact ⟨b1.1, by simp only; omega, by simp only; omega, b2.2, f, s, b1.2, l2, b2.1, l5, l6⟩
                · obtain ⟨q1, q2, q3, q4, q5⟩ := g2 p hp
                  exact ⟨by omega, q2, q3, q4, q5⟩
              · rw [List.pairwise_append, List.pairwise_cons]
                refine ⟨o1, ⟨fun q hq => (g2 q hq).1, o2⟩, ?_⟩
                intro p hp q hq
                have := (g1 p hp).2.2.2.1
                rw [List.mem_cons] at hq
                rcases hq with hq | hq
                · subst hq; exact this
                · have := (g2 q hq).1
                  omega

/-- C68 (part): the peak search terminates; when it stays inside the waveform, its peaks are in time order, do not overlap, and
each spans a sample above the threshold and a later one below minus the threshold. Missing: staying inside the waveform
(`C68_reads_past_end`). -/
theorem C68_peaks_partial (w : List ℚ) (thr : ℚ) :
    findPeaks w thr (w.length + 1) 0 w.length [] ≠ none ∧
    ∀ peaks, findPeaks w thr (w.length + 1) 0 w.length [] = some (.ok peaks) →
      (∀ p ∈ peaks, GoodPeak w thr 0 w.length p) ∧ peaks.Pairwise (fun p q => p.2.2 ≤ q.1) := by
  obtain ⟨h1, h2⟩ := findPeaks_spec w thr (w.length + 1) 0 w.length [] (by omega) (le_refl _)
  refine ⟨h1, fun peaks h => ?_⟩
  obtain ⟨new, e, g, o⟩ := h2 peaks h
  rw [List.nil_append] at e
  subst e
  exact ⟨g, o⟩

/-- C68, refuted: a positive largest sample over the threshold that is not followed by any sample below minus the threshold
makes the search read the position after the waveform. -/
theorem C68_reads_past_end (w : List ℚ) (thr : ℚ) (fuel m : Nat) (v : ℚ) (hn : 4 < w.length) (hm : w[m]? = some v) (hpos : 0 < v)
    (hthr : thr < v) (hbefore : ∀ k x, k < m → w[k]? = some x → |x| < v) (hall : ∀ (k : Nat) x, w[k]? = some x → |x| ≤ v)
    (hafter : ∀ k x, m < k → w[k]? = some x → -thr ≤ x) : findPeaks w thr (fuel + 1) 0 w.length [] = some .ub := by
  have hml : m < w.length := (List.getElem?_eq_some_iff.1 hm).1
  have hmv := at_some hm
  obtain ⟨-, a2, a3, a4⟩ := absMax_spec (at' w) 0 w.length (by omega)
  have hmax : absMax (at' w) 0 w.length = m := by
    rcases lt_trichotomy (absMax (at' w) 0 w.length) m with h | h | h
    · have := hbefore _ _ h (some_at a2)
      have h2 := a3 m (by omega) hml
      rw [hmv, abs_of_pos hpos] at h2
      exact absurd this (not_lt.2 h2)
    · exact h
    · have := a4 m (by omega) h
      rw [hmv, abs_of_pos hpos] at this
      exact absurd (hall _ _ (some_at a2)) (not_le.2 this)
  have hrun : ∀ d t f, t + d = w.length → m ≤ t → lobeFwd (rdOf w) thr m w.length f t m = .ub ∨ t = w.length := by
    intro d
    induction d with
    | zero => intro t f h _; right; omega
    | succ d ih =>
      intro t f h hmt
      left
      cases f with
      | zero => rfl
      | succ f =>
        unfold lobeFwd
        rw [if_neg (show ¬ t = w.length by omega)]
        have hrm : rdOf w m = .ok v := by unfold rdOf; rw [hm]
        by_cases hlast : t + 1 < w.length
        · have hx := some_at hlast
          have hr : rdOf w (t + 1) = .ok (at' w (t + 1)) := by unfold rdOf; rw [hx]
          rw [hr, hrm]
          simp only []
          rw [if_neg (not_lt.2 (hafter _ _ (by omega) hx)), if_neg (show ¬ m ≠ m from fun h => h rfl)]
          rcases ih (t + 1) f (by omega) (by omega) with h | h
          · exact h
          · omega
        · have hr : rdOf w (t + 1) = .ub := by
            unfold rdOf; rw [List.getElem?_eq_none (by omega)]
          rw [hr]
  unfold findPeaks
  simp only []
  rw [if_pos (show w.length - 0 > 4 by omega), hmax, hmv, if_pos (by rw [abs_of_pos hpos]; exact hthr)]
  unfold lobes
  rw [hmv, if_pos hpos]
  rcases hrun (w.length - m) m (w.length + 2) (by omega) (le_refl _) with h | h
  · rw [h]
  · omega

/-- a search that stays inside: the tail rises above zero again -/
example : (match findPeaks [0, 5, -5, 1, 0, 0] 2 7 0 6 [] with | some (.ok r) => r == [(0, 1, 3)] | _ => false) = true := by
  decide +kernel
/-- the hypotheses of the refutation hold for a single positive pulse -/
example : (match findPeaks [0, 1, 5, 1, 0] 2 6 0 5 [] with | some .ub => true | _ => false) = true := by decide +kernel

end Verif.Wave

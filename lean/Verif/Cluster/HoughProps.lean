import Verif.Cluster.HoughProofs
import Mathlib.Algebra.BigOperators.Group.List.Basic
/-!
# Properties C24–C27, C57, C58: the Hough accumulator
-/
namespace Verif.Hough
open Verif

/-! ## Specification -/

/-- one call on a counter map -/
inductive Op where
  | inc (b e : Int)
  | dec (b e : Int)
  | incMax (b e cur : Int)

/-- Spec: what the call is meant to add to counter `k` -/
def Op.effect : Op → Int → Int
  | .inc b e, k => if b ≤ k ∧ k < e then 1 else 0
  | .dec b e, k => if b ≤ k ∧ k < e then -1 else 0
  | .incMax b e _, k => if b ≤ k ∧ k < e then 1 else 0

def Op.length : Op → Nat
  | .inc b e => (e - b).toNat
  | .dec b e => (e - b).toNat
  | .incMax b e _ => (e - b).toNat

/-- Spec: net count of counter `k` after a history -/
def net (ops : List Op) (k : Int) : Int := (ops.map (fun o => o.effect k)).sum

/-- executing a call (model) -/
def apply (fuel : Nat) (m : CMap) : Op → Option CMap
  | .inc b e => increment fuel m b e
  | .dec b e => decrement fuel m b e
  | .incMax b e cur => (incrementMax fuel m b e cur).map (·.1)

def run (fuel : Nat) : CMap → List Op → Option CMap
  | m, [] => some m
  | m, o :: os => (apply fuel m o).bind (fun m' => run fuel m' os)

/-! ## C24 -/

theorem wrap8_add (v d : Int) : wrap8 (wrap8 v + d) = wrap8 (v + d) := by unfold wrap8; omega
theorem wrap8_id {v : Int} (h1 : -128 ≤ v) (h2 : v ≤ 127) : wrap8 v = v := by unfold wrap8; omega
theorem wrap8_range (v : Int) : -128 ≤ wrap8 v ∧ wrap8 v ≤ 127 := by unfold wrap8; omega

theorem good_nil : Good [] := ⟨List.Pairwise.nil, by simp⟩

theorem addRangeMax_gt (fuel : Nat) (m : CMap) (b e delta mm : Int) (h : e < b) :
    addRangeMax fuel m b e delta mm = some (m, (none, mm)) := by
  unfold addRangeMax; rw [if_pos (by omega)]

theorem addRangeMax_any (fuel : Nat) {m : CMap} (hg : Good m) (b e delta mm : Int) (hf : (e - b).toNat < fuel) :
    ∃ m' mx', addRangeMax fuel m b e delta mm = some (m', mx') ∧ Good m' ∧
      (∀ k, cnt m' k = if b ≤ k ∧ k < e then wrap8 (cnt m k + delta) else cnt m k) := by
  by_cases h : b ≤ e
  · obtain ⟨m', mx', h1, h2, h3, _⟩ := addRangeMax_spec fuel hg b e delta mm h hf
    exact ⟨m', mx', h1, h2, h3⟩
  · refine ⟨m, _, addRangeMax_gt fuel m b e delta mm (by omega), hg, fun k => ?_⟩
    rw [if_neg (by omega)]

theorem apply_spec (fuel : Nat) {m : CMap} (hg : Good m) (o : Op) (hf : o.length < fuel) :
    ∃ m', apply fuel m o = some m' ∧ Good m' ∧
      ∀ k, cnt m' k = if o.effect k = 0 then cnt m k else wrap8 (cnt m k + o.effect k) := by
  cases o with
  | inc b e =>
    obtain ⟨m', mx', h1, h2, h3⟩ := addRangeMax_any fuel hg b e 1 127 hf
    refine ⟨m', by simp [apply, increment, h1], h2, fun k => ?_⟩
    rw [h3]
    by_cases hk : b ≤ k ∧ k < e <;> simp [Op.effect, hk]
  | dec b e =>
    obtain ⟨m', mx', h1, h2, h3⟩ := addRangeMax_any fuel hg b e (-1) 127 hf
    refine ⟨m', by simp [apply, decrement, h1], h2, fun k => ?_⟩
    rw [h3]
    by_cases hk : b ≤ k ∧ k < e <;> simp [Op.effect, hk]
  | incMax b e cur =>
    obtain ⟨m', mx', h1, h2, h3⟩ := addRangeMax_any fuel hg b e 1 cur hf
    refine ⟨m', by simp [apply, incrementMax, h1], h2, fun k => ?_⟩
    rw [h3]
    by_cases hk : b ≤ k ∧ k < e <;> simp [Op.effect, hk]

theorem run_spec (fuel : Nat) (ops : List Op) (hf : ∀ o ∈ ops, o.length < fuel) {m : CMap} (hg : Good m)
    (f : Int → Int) (hm : ∀ k, cnt m k = wrap8 (f k)) :
    ∃ m', run fuel m ops = some m' ∧ Good m' ∧ ∀ k, cnt m' k = wrap8 (f k + net ops k) := by
  induction ops generalizing m f with
  | nil => exact ⟨m, rfl, hg, fun k => by simp [net, hm]⟩
  | cons o os ih =>
    obtain ⟨m1, h1, h2, h3⟩ := apply_spec fuel hg o (hf o (by simp))
    obtain ⟨m2, k1, k2, k3⟩ := ih (fun o' h => hf o' (by simp [h])) h2 (fun k => f k + o.effect k) (by
      intro k
      rw [h3, hm]
      split
      · rename_i h0; rw [h0, add_zero]
      · rw [wrap8_add])
    refine ⟨m2, by simp [run, h1, k1], k2, fun k => ?_⟩
    rw [k3]
    simp only [net, List.map_cons, List.sum_cons, add_assoc]

/-- **C24** (counters). After any history of range calls on an empty map, every call terminates and every counter is
the number of increments minus the number of decrements whose range contains it, reduced to the 8-bit counter type:
nothing outside the ranges is touched, at any block boundary. -/
theorem C24_counters (ops : List Op) (fuel : Nat) (hf : ∀ o ∈ ops, o.length < fuel) :
    ∃ m, run fuel [] ops = some m ∧ ∀ k, cnt m k = wrap8 (net ops k) := by
  obtain ⟨m, h1, _, h3⟩ := run_spec fuel ops hf good_nil (fun _ => 0) (fun k => rfl)
  exact ⟨m, h1, fun k => by rw [h3, zero_add]⟩

/-- with fewer than 128 overlapping calls the counters are exact -/
theorem C24_exact (ops : List Op) (fuel : Nat) (hf : ∀ o ∈ ops, o.length < fuel) (hn : ops.length ≤ 127) :
    ∃ m, run fuel [] ops = some m ∧ ∀ k, cnt m k = net ops k := by
  obtain ⟨m, h1, h3⟩ := C24_counters ops fuel hf
  refine ⟨m, h1, fun k => ?_⟩
  rw [h3]
  have hb : ∀ l : List Op, -(l.length : Int) ≤ net l k ∧ net l k ≤ l.length := by
    intro l
    induction l with
    | nil => simp [net]
    | cons o os ih =>
      have ho : -1 ≤ o.effect k ∧ o.effect k ≤ 1 := by
        cases o <;> simp only [Op.effect] <;> split <;> omega
      simp only [net, List.map_cons, List.sum_cons, List.length_cons] at ih ⊢
      push_cast
      omega
  have := hb ops
  exact wrap8_id (by omega) (by omega)

/-- **C24** (maximum). `increment_and_get_max` on any reachable map returns the largest updated counter above the
threshold, with the lowest key reaching it, or the "end" key and the threshold itself when none is above. -/
theorem C24_max (ops : List Op) (fuel : Nat) (hf : ∀ o ∈ ops, o.length < fuel) (b e cur : Int)
    (hl : (e - b).toNat < fuel) (m : CMap) (hm : run fuel [] ops = some m) :
    ∃ m' mx, incrementMax fuel m b e cur = some (m', mx) ∧
      ((∀ k, b ≤ k → k < e → cnt m' k ≤ cur) → mx = (none, cur)) ∧
      ((∃ k, b ≤ k ∧ k < e ∧ cnt m' k > cur) → ∃ k, mx = (some k, cnt m' k) ∧ b ≤ k ∧ k < e ∧ cnt m' k > cur ∧
        ∀ k', b ≤ k' → k' < e → cnt m' k' ≤ cnt m' k ∧ (cnt m' k' = cnt m' k → k ≤ k')) := by
  obtain ⟨m0, h1, h2, _⟩ := run_spec fuel ops hf good_nil (fun _ => 0) (fun k => rfl)
  rw [hm] at h1
  cases h1
  by_cases hbe : b ≤ e
  · obtain ⟨m', mx, k1, _, k3, k4⟩ := addRangeMax_spec fuel h2 b e 1 cur hbe hl
    refine ⟨m', mx, k1, ?_, ?_⟩
    · intro hall
      rw [k4]
      apply (best_spec _ _).1
      intro x hx
      obtain ⟨k, hk, rfl⟩ := List.mem_map.1 hx
      have hk' := mem_keysFrom.1 hk
      have := hall k hk'.1 (by omega)
      rw [k3, if_pos (by omega)] at this
      exact this
    · rintro ⟨k0, a1, a2, a3⟩
      have hval : ∀ k, b ≤ k → k < e → cnt m' k = wrap8 (cnt m k + 1) := fun k p q => by rw [k3, if_pos ⟨p, q⟩]
      have hmem : ∀ k, b ≤ k → k < e →
          (k, wrap8 (cnt m k + 1)) ∈ (keysFrom b (e - b).toNat).map (fun k => (k, wrap8 (cnt m k + 1))) := by
        intro k p q
        exact List.mem_map.2 ⟨k, mem_keysFrom.2 ⟨p, by omega⟩, rfl⟩
      obtain ⟨k, b1, b2, b3, b4⟩ := (best_spec ((keysFrom b (e - b).toNat).map (fun k => (k, wrap8 (cnt m k + 1))))
        (none, cur)).2 ⟨_, hmem k0 a1 a2, by rw [hval k0 a1 a2] at a3; exact a3⟩
      have bf := best_first _ (keysFrom_pairwise b (e - b).toNat (fun k => wrap8 (cnt m k + 1))) (none, cur) k b1 rfl
      rw [← k4] at b1 b2 b3 b4 bf
      obtain ⟨k', hk', heq⟩ := List.mem_map.1 b2
      have hk2 := mem_keysFrom.1 hk'
      simp only [Prod.mk.injEq] at heq
      obtain ⟨rfl, hv⟩ := heq
      have hin : b ≤ k' ∧ k' < e := ⟨hk2.1, by omega⟩
      rw [← hval k' hin.1 hin.2] at hv
      refine ⟨k', Prod.ext b1 hv.symm, hin.1, hin.2, by rw [hv]; exact b3, ?_⟩
      intro k'' p q
      have := b4 _ (hmem k'' p q)
      have := bf _ (hmem k'' p q)
      rw [hval k'' p q, hv]
      exact ⟨by assumption, fun h => this h⟩
  · refine ⟨m, (none, cur), addRangeMax_gt fuel m b e 1 cur (by omega), fun _ => rfl, ?_⟩
    rintro ⟨k, p, q, _⟩
    omega

/-- concrete history across the block boundary at 64 and at a negative key, and its maximum -/
example : (run 20 [] [.inc 60 70, .incMax 62 66 (-128), .dec (-3) 2, .inc 63 64]).map
      (fun m => [cnt m 61, cnt m 63, cnt m 64, cnt m 69, cnt m 70, cnt m (-3), cnt m 1]) = some [1, 3, 2, 1, 0, -1, -1] ∧
    ((run 20 [] [.inc 60 70]).bind (fun m => incrementMax 20 m 62 72 0)).map (fun r => r.2) = some (some 62, 2) := by
  decide +kernel

/-! ## The transform -/

/-- Spec: `c` is one of the cells between the previous distance `last` (included) and the present distance `d`
(excluded unless it is equal to `last`) -/
def Between (last d c : Int) : Prop := c = last ∨ (last < c ∧ c < d) ∨ (d < c ∧ c < last)

instance (a b c : Int) : Decidable (Between a b c) := by unfold Between; infer_instance

theorem range_iff (last d c : Int) : ((range last d).1 ≤ c ∧ c < (range last d).2) ↔ Between last d c := by
  unfold range Between
  by_cases h : last = d
  · simp only [h, if_true]; omega
  · rw [if_neg h]
    by_cases h2 : d > last
    · simp only [h2, if_true]; omega
    · simp only [h2, if_false]; omega

theorem range_len (last d : Int) : (range last d).1 ≤ (range last d).2 ∧
    ((range last d).2 - (range last d).1).toNat ≤ (d - last).natAbs + 1 := by
  unfold range
  by_cases h : last = d
  · simp only [h, if_true]; omega
  · rw [if_neg h]
    by_cases h2 : d > last
    · simp only [h2, if_true]; omega
    · simp only [h2, if_false]; omega

/-- Spec: cells of the curve of the point with distance cells `dist`, for `n` angle steps -/
def OnCurve (n : Nat) (dist : Nat → Int) (row : Nat) (col : Int) : Prop :=
  1 ≤ row ∧ row < n ∧ Between (dist (row - 1)) (dist row) col

instance (n : Nat) (dist : Nat → Int) (r : Nat) (c : Int) : Decidable (OnCurve n dist r c) := by
  unfold OnCurve; infer_instance

theorem angleLoop_sub (fuel : Nat) (dist : Nat → Int) (n i : Nat) (acc : Nat → CMap) (mx : Int × Int × Int)
    (mval : Int) (hi : 1 ≤ i) (hf : ∀ j, i ≤ j → j < i + n → (dist j - dist (j - 1)).natAbs + 1 < fuel)
    (hg : ∀ j, Good (acc j)) :
    ∃ acc', angleLoop fuel dist true n i acc mx mval (dist (i - 1)) = some (acc', mx) ∧ (∀ j, Good (acc' j)) ∧
      ∀ r c, cnt (acc' r) c = if i ≤ r ∧ r < i + n ∧ Between (dist (r - 1)) (dist r) c then wrap8 (cnt (acc r) c - 1)
        else cnt (acc r) c := by
  induction n generalizing i acc with
  | zero => exact ⟨acc, rfl, hg, fun r c => by rw [if_neg (by omega)]⟩
  | succ n ih =>
    have hl := range_len (dist (i - 1)) (dist i)
    have hfi := hf i (le_refl _) (by omega)
    obtain ⟨m', mx', h1, h2, h3⟩ := addRangeMax_any fuel (hg i) (range (dist (i - 1)) (dist i)).1
      (range (dist (i - 1)) (dist i)).2 (-1) 127 (by omega)
    obtain ⟨acc', k1, k2, k3⟩ := ih (i + 1) (setRow acc i m') (by omega)
      (fun j a b => hf j (by omega) (by omega)) (by
        intro j; unfold setRow; split
        · exact h2
        · exact hg j)
    refine ⟨acc', ?_, k2, ?_⟩
    · unfold angleLoop
      simp only [if_true, decrement, h1, Option.map_some]
      exact k1
    · intro r c
      rw [k3]
      unfold setRow
      by_cases hr : r = i
      · subst hr
        rw [if_neg (by omega), if_pos rfl, h3]
        by_cases hb : Between (dist (r - 1)) (dist r) c
        · rw [if_pos ((range_iff _ _ _).2 hb), if_pos ⟨le_refl _, by omega, hb⟩]; rfl
        · rw [if_neg (fun h => hb ((range_iff _ _ _).1 h)), if_neg (fun h => hb h.2.2)]
      · rw [if_neg hr]
        by_cases hx : i + 1 ≤ r ∧ r < i + 1 + n ∧ Between (dist (r - 1)) (dist r) c
        · rw [if_pos hx, if_pos ⟨by omega, by omega, hx.2.2⟩]
        · rw [if_neg hx, if_neg (fun h => hx ⟨by omega, by omega, h.2.2⟩)]

/-- Spec of the reported maximum over the visited cells `P row col` with new values `v` and threshold `t` -/
def IsBest (P : Nat → Int → Prop) (v : Nat → Int → Int) (t : Int) (default res : Int × Int × Int) : Prop :=
  ((∀ r c, P r c → v r c ≤ t) → res = default) ∧
  ((∃ r c, P r c ∧ v r c > t) → ∃ r c, P r c ∧ res = (v r c, c, (r : Int)) ∧ v r c > t ∧
    ∀ r' c', P r' c' → v r' c' ≤ v r c ∧ (v r' c' = v r c → r < r' ∨ (r = r' ∧ c ≤ c')))

theorem angleLoop_add (fuel : Nat) (dist : Nat → Int) (n i : Nat) (acc : Nat → CMap) (mx : Int × Int × Int)
    (mval : Int) (hi : 1 ≤ i) (hf : ∀ j, i ≤ j → j < i + n → (dist j - dist (j - 1)).natAbs + 1 < fuel)
    (hg : ∀ j, Good (acc j)) :
    ∃ acc' res, angleLoop fuel dist false n i acc mx mval (dist (i - 1)) = some (acc', res) ∧ (∀ j, Good (acc' j)) ∧
      (∀ r c, cnt (acc' r) c = if i ≤ r ∧ r < i + n ∧ Between (dist (r - 1)) (dist r) c then wrap8 (cnt (acc r) c + 1)
        else cnt (acc r) c) ∧
      IsBest (fun r c => i ≤ r ∧ r < i + n ∧ Between (dist (r - 1)) (dist r) c) (fun r c => cnt (acc' r) c) mval mx res := by
  induction n generalizing i acc mx mval with
  | zero =>
    exact ⟨acc, mx, rfl, hg, fun r c => by rw [if_neg (by omega)], fun _ => rfl, fun ⟨r, c, h, _⟩ => by omega⟩
  | succ n ih =>
    have hl := range_len (dist (i - 1)) (dist i)
    have hfi := hf i (le_refl _) (by omega)
    obtain ⟨m', pm, h1, h2, h3, h4⟩ := addRangeMax_spec fuel (hg i) (range (dist (i - 1)) (dist i)).1
      (range (dist (i - 1)) (dist i)).2 1 mval hl.1 (by omega)
    obtain ⟨acc', res, k1, k2, k3, k4⟩ := ih (i + 1) (setRow acc i m')
      (if pm.2 > mval then (pm.2, pm.1.getD 0, (i : Int)) else mx) (if pm.2 > mval then pm.2 else mval) (by omega)
      (fun j a b => hf j (by omega) (by omega)) (by
        intro j; unfold setRow; split
        · exact h2
        · exact hg j)
    have hcell : ∀ r c, cnt (acc' r) c = if i ≤ r ∧ r < i + (n + 1) ∧ Between (dist (r - 1)) (dist r) c then
        wrap8 (cnt (acc r) c + 1) else cnt (acc r) c := by
      intro r c
      rw [k3]
      unfold setRow
      by_cases hr : r = i
      · subst hr
        rw [if_neg (by omega), if_pos rfl, h3]
        by_cases hb : Between (dist (r - 1)) (dist r) c
        · rw [if_pos ((range_iff _ _ _).2 hb), if_pos ⟨le_refl _, by omega, hb⟩]
        · rw [if_neg (fun h => hb ((range_iff _ _ _).1 h)), if_neg (fun h => hb h.2.2)]
      · rw [if_neg hr]
        by_cases hx : i + 1 ≤ r ∧ r < i + 1 + n ∧ Between (dist (r - 1)) (dist r) c
        · rw [if_pos hx, if_pos ⟨by omega, by omega, hx.2.2⟩]
        · rw [if_neg hx, if_neg (fun h => hx ⟨by omega, by omega, h.2.2⟩)]
    refine ⟨acc', res, ?_, k2, hcell, ?_⟩
    · unfold angleLoop
      simp only [Bool.false_eq_true, if_false, incrementMax, h1]
      exact k1
    -- the first row
    have hv : ∀ c, Between (dist (i - 1)) (dist i) c → cnt (acc' i) c = wrap8 (cnt (acc i) c + 1) := by
      intro c hb
      rw [hcell, if_pos ⟨le_refl _, by omega, hb⟩]
    generalize hL : (keysFrom (range (dist (i - 1)) (dist i)).1
      ((range (dist (i - 1)) (dist i)).2 - (range (dist (i - 1)) (dist i)).1).toNat).map
        (fun k => (k, wrap8 (cnt (acc i) k + 1))) = L at h4
    have hLmem : ∀ x, x ∈ L ↔ Between (dist (i - 1)) (dist i) x.1 ∧ x.2 = cnt (acc' i) x.1 := by
      intro x
      rw [← hL, List.mem_map]
      constructor
      · rintro ⟨k, hk, rfl⟩
        have := mem_keysFrom.1 hk
        have hb : Between (dist (i - 1)) (dist i) k := (range_iff _ _ _).1 ⟨this.1, by omega⟩
        exact ⟨hb, (hv k hb).symm⟩
      · rintro ⟨hb, hx⟩
        have := (range_iff _ _ _).2 hb
        refine ⟨x.1, mem_keysFrom.2 ⟨this.1, by omega⟩, ?_⟩
        rw [← hv x.1 hb, ← hx]
    have hLp : L.Pairwise (fun a b => a.1 < b.1) := by rw [← hL]; exact keysFrom_pairwise _ _ (fun k => wrap8 (cnt (acc i) k + 1))
    obtain ⟨q1, q2⟩ := k4
    by_cases hrow : ∃ c, Between (dist (i - 1)) (dist i) c ∧ cnt (acc' i) c > mval
    · obtain ⟨c0, hc0, hc0v⟩ := hrow
      obtain ⟨k, b1, b2, b3, b4⟩ := (best_spec L (none, mval)).2 ⟨(c0, cnt (acc' i) c0), (hLmem _).2 ⟨hc0, rfl⟩, hc0v⟩
      have bf := best_first L hLp (none, mval) k b1 rfl
      rw [← h4] at b1 b2 b3 b4 bf
      have hkb := (hLmem _).1 b2
      simp only at hkb
      have hbetter : pm.2 > mval := b3
      simp only [hbetter, if_true, b1, Option.getD_some] at q1 q2
      refine ⟨fun hall => ?_, fun _ => ?_⟩
      · have := hall i c0 ⟨le_refl _, by omega, hc0⟩
        exact absurd hc0v (by simp only at this; omega)
      · by_cases hlat : ∃ r c, (i + 1 ≤ r ∧ r < i + 1 + n ∧ Between (dist (r - 1)) (dist r) c) ∧ cnt (acc' r) c > pm.2
        · obtain ⟨r, c, hP, hres, hgt, hmax⟩ := q2 hlat
          refine ⟨r, c, ⟨by omega, by omega, hP.2.2⟩, hres, by simp only at hgt ⊢; omega, ?_⟩
          intro r' c' hP'
          by_cases hr' : r' = i
          · subst hr'
            have := b4 (c', cnt (acc' r') c') ((hLmem _).2 ⟨hP'.2.2, rfl⟩)
            simp only at this hgt ⊢
            omega
          · exact hmax r' c' ⟨by omega, by omega, hP'.2.2⟩
        · push Not at hlat
          have hres := q1 (fun r c hP => hlat r c hP)
          refine ⟨i, k, ⟨le_refl _, by omega, hkb.1⟩, by rw [hres, hkb.2], by dsimp only; rw [← hkb.2]; exact hbetter, ?_⟩
          intro r' c' hP'
          by_cases hr' : r' = i
          · subst hr'
            have h5 := b4 (c', cnt (acc' r') c') ((hLmem _).2 ⟨hP'.2.2, rfl⟩)
            have h6 := bf (c', cnt (acc' r') c') ((hLmem _).2 ⟨hP'.2.2, rfl⟩)
            dsimp only
            rw [← hkb.2]
            exact ⟨h5, fun h => Or.inr ⟨rfl, h6 h⟩⟩
          · have := hlat r' c' ⟨by omega, by omega, hP'.2.2⟩
            dsimp only
            rw [← hkb.2]
            exact ⟨this, fun _ => Or.inl (by omega)⟩
    · push Not at hrow
      have hpm : pm = (none, mval) := by
        rw [h4]
        exact (best_spec L (none, mval)).1 (fun x hx => by
          have := (hLmem x).1 hx
          rw [this.2]
          exact hrow x.1 this.1)
      have hnb : ¬ (pm.2 > mval) := by rw [hpm]; simp
      simp only [hnb, if_false] at q1 q2
      refine ⟨fun hall => q1 (fun r c hP => hall r c ⟨by omega, by omega, hP.2.2⟩), ?_⟩
      rintro ⟨r, c, hP, hgt⟩
      have hri : r ≠ i := by
        rintro rfl
        have := hrow c hP.2.2
        simp only at hgt
        omega
      obtain ⟨r1, c1, hP1, hres, hgt1, hmax⟩ := q2 ⟨r, c, ⟨by omega, by omega, hP.2.2⟩, hgt⟩
      refine ⟨r1, c1, ⟨by omega, by omega, hP1.2.2⟩, hres, hgt1, ?_⟩
      intro r' c' hP'
      by_cases hr' : r' = i
      · subst hr'
        have := hrow c' hP'.2.2
        simp only at this hgt1 ⊢
        omega
      · exact hmax r' c' ⟨by omega, by omega, hP'.2.2⟩

/-- a fresh transform after `Init(dx, dy, …, n)`, HoughBaseAlg.cxx:665-713 -/
def init (dx dy n : Nat) (dist : Int → Int → Nat → Int) : Hough :=
  { dx := dx, dy := dy, numAngle := n, dist := dist, accum := fun _ => [], numAcc := 0 }

/-- a call on the transform -/
inductive HOp where
  | add (x y : Int)
  | sub (x y : Int)

def HOp.sign : HOp → Int
  | .add _ _ => 1
  | .sub _ _ => -1
def HOp.x : HOp → Int
  | .add x _ => x
  | .sub x _ => x
def HOp.y : HOp → Int
  | .add _ y => y
  | .sub _ y => y

def hApply (fuel : Nat) (h : Hough) : HOp → Option Hough
  | .add x y => (addPoint fuel h x y).map (·.1)
  | .sub x y => (subtractPoint fuel h x y).map (·.1)

def hRun (fuel : Nat) : Hough → List HOp → Option Hough
  | h, [] => some h
  | h, o :: os => (hApply fuel h o).bind (fun h' => hRun fuel h' os)

/-- Spec: the point is inside the declared image -/
def Inside (dx dy : Nat) (x y : Int) : Prop := 0 ≤ x ∧ x ≤ dx ∧ 0 ≤ y ∧ y ≤ dy

instance (dx dy : Nat) (x y : Int) : Decidable (Inside dx dy x y) := by unfold Inside; infer_instance

/-- Spec: number of points added minus subtracted whose curve passes through the cell -/
def hNet (dx dy n : Nat) (dist : Int → Int → Nat → Int) (ops : List HOp) (row : Nat) (col : Int) : Int :=
  (ops.map (fun o => if Inside dx dy o.x o.y ∧ OnCurve n (dist o.x o.y) row col then o.sign else 0)).sum

/-- Spec: net number of points inside the image -/
def hCount (dx dy : Nat) (ops : List HOp) : Int := (ops.map (fun o => if Inside dx dy o.x o.y then o.sign else 0)).sum

/-- loop budget: larger than every distance step of the points of the history -/
def Budget (fuel n : Nat) (dist : Int → Int → Nat → Int) (ops : List HOp) : Prop :=
  ∀ o ∈ ops, ∀ j, 1 ≤ j → j < n → (dist o.x o.y j - dist o.x o.y (j - 1)).natAbs + 1 < fuel

theorem outside_iff (h : Hough) (x y : Int) : outside h x y = false ↔ Inside h.dx h.dy x y := by
  unfold outside Inside
  simp only [Bool.or_eq_false_iff, decide_eq_false_iff_not, not_lt, gt_iff_lt]
  omega

theorem hApply_spec (fuel : Nat) (h : Hough) (hg : ∀ j, Good (h.accum j)) (o : HOp)
    (hf : ∀ j, 1 ≤ j → j < h.numAngle → (h.dist o.x o.y j - h.dist o.x o.y (j - 1)).natAbs + 1 < fuel) :
    ∃ h', hApply fuel h o = some h' ∧ (∀ j, Good (h'.accum j)) ∧ h'.dx = h.dx ∧ h'.dy = h.dy ∧
      h'.numAngle = h.numAngle ∧ h'.dist = h.dist ∧
      h'.numAcc = h.numAcc + (if Inside h.dx h.dy o.x o.y then o.sign else 0) ∧
      ∀ r c, getCell h' r c = if Inside h.dx h.dy o.x o.y ∧ OnCurve h.numAngle (h.dist o.x o.y) r c then
        wrap8 (getCell h r c + o.sign) else getCell h r c := by
  have hcond : ∀ r c x y, (1 ≤ r ∧ r < 1 + (h.numAngle - 1) ∧ Between (h.dist x y (r - 1)) (h.dist x y r) c) ↔
      OnCurve h.numAngle (h.dist x y) r c := by
    intro r c x y
    unfold OnCurve
    constructor
    · rintro ⟨a, b, d⟩; exact ⟨a, by omega, d⟩
    · rintro ⟨a, b, d⟩; exact ⟨a, by omega, d⟩
  cases o with
  | add x y =>
    simp only [HOp.x, HOp.y, HOp.sign] at hf ⊢
    by_cases ho : outside h x y = true
    · have hin : ¬ Inside h.dx h.dy x y := by rw [← outside_iff]; simp [ho]
      refine ⟨h, by simp [hApply, addPoint, ho], hg, rfl, rfl, rfl, rfl, by simp [hin], fun r c => by simp [hin]⟩
    · have ho : outside h x y = false := by simpa using ho
      have hin := (outside_iff h x y).1 ho
      obtain ⟨acc', res, k1, k2, k3, _⟩ := angleLoop_add fuel (h.dist x y) (h.numAngle - 1) 1 h.accum (-1, -1, -1) 2
        (le_refl _) (fun j a b => hf j a (by omega)) hg
      refine ⟨{ h with accum := acc', numAcc := h.numAcc + 1 }, ?_, k2, rfl, rfl, rfl, rfl, by simp [hin], ?_⟩
      · simp only [hApply, addPoint, ho, Bool.false_eq_true, if_false, doAdd]
        rw [show (1 : Nat) - 1 = 0 from rfl] at k1
        rw [k1]; rfl
      · intro r c
        show cnt (acc' r) c = _
        rw [k3]
        by_cases hc : OnCurve h.numAngle (h.dist x y) r c
        · rw [if_pos ((hcond r c x y).2 hc)]; simp [hin, hc, getCell]
        · rw [if_neg (fun q => hc ((hcond r c x y).1 q))]; simp [hc, getCell]
  | sub x y =>
    simp only [HOp.x, HOp.y, HOp.sign] at hf ⊢
    by_cases ho : outside h x y = true
    · have hin : ¬ Inside h.dx h.dy x y := by rw [← outside_iff]; simp [ho]
      refine ⟨h, by simp [hApply, subtractPoint, ho], hg, rfl, rfl, rfl, rfl, by simp [hin], fun r c => by simp [hin]⟩
    · have ho : outside h x y = false := by simpa using ho
      have hin := (outside_iff h x y).1 ho
      obtain ⟨acc', k1, k2, k3⟩ := angleLoop_sub fuel (h.dist x y) (h.numAngle - 1) 1 h.accum (-1, -1, -1) 2
        (le_refl _) (fun j a b => hf j a (by omega)) hg
      refine ⟨{ h with accum := acc', numAcc := h.numAcc - 1 }, ?_, k2, rfl, rfl, rfl, rfl, by simp [hin]; rfl, ?_⟩
      · simp only [hApply, subtractPoint, ho, Bool.false_eq_true, if_false, doAdd]
        rw [show (1 : Nat) - 1 = 0 from rfl] at k1
        rw [k1]; rfl
      · intro r c
        show cnt (acc' r) c = _
        rw [k3]
        by_cases hc : OnCurve h.numAngle (h.dist x y) r c
        · rw [if_pos ((hcond r c x y).2 hc)]; simp [hin, hc, getCell, sub_eq_add_neg]
        · rw [if_neg (fun q => hc ((hcond r c x y).1 q))]; simp [hc, getCell]

theorem hRun_spec (fuel : Nat) (ops : List HOp) (h : Hough) (hg : ∀ j, Good (h.accum j))
    (hf : Budget fuel h.numAngle h.dist ops) (f : Nat → Int → Int) (hc : ∀ r c, getCell h r c = wrap8 (f r c)) :
    ∃ h', hRun fuel h ops = some h' ∧ (∀ j, Good (h'.accum j)) ∧ h'.dx = h.dx ∧ h'.dy = h.dy ∧
      h'.numAngle = h.numAngle ∧ h'.dist = h.dist ∧ h'.numAcc = h.numAcc + hCount h.dx h.dy ops ∧
      ∀ r c, getCell h' r c = wrap8 (f r c + hNet h.dx h.dy h.numAngle h.dist ops r c) := by
  induction ops generalizing h f with
  | nil => exact ⟨h, rfl, hg, rfl, rfl, rfl, rfl, by simp [hCount], fun r c => by simp [hNet, hc]⟩
  | cons o os ih =>
    obtain ⟨h1, a1, a2, a3, a4, a5, a6, a7, a8⟩ := hApply_spec fuel h hg o (hf o (by simp))
    obtain ⟨h2, b1, b2, b3, b4, b5, b6, b7, b8⟩ := ih h1 a2
      (by rw [a5, a6]; exact fun o' ho' => hf o' (by simp [ho']))
      (fun r c => f r c + (if Inside h.dx h.dy o.x o.y ∧ OnCurve h.numAngle (h.dist o.x o.y) r c then o.sign else 0))
      (by
        intro r c
        rw [a8, hc]
        split
        · rw [wrap8_add]
        · rw [add_zero])
    refine ⟨h2, by simp [hRun, a1, b1], b2, b3.trans a3, b4.trans a4, b5.trans a5, b6.trans a6, ?_, ?_⟩
    · rw [b7, a7, a3, a4]
      simp only [hCount, List.map_cons, List.sum_cons]
      ring
    · intro r c
      rw [b8, a3, a4, a5, a6]
      simp only [hNet, List.map_cons, List.sum_cons, add_assoc]

/-- **C25** (histories). After any sequence of additions and subtractions of points on a fresh transform, each cell
holds the number of added minus subtracted points (inside the image) whose curve passes through the cell, in the 8-bit
counter type, and the point count is the net number of points inside the image. -/
theorem C25_history (fuel dx dy n : Nat) (dist : Int → Int → Nat → Int) (ops : List HOp)
    (hf : Budget fuel n dist ops) :
    ∃ h, hRun fuel (init dx dy n dist) ops = some h ∧ h.numAcc = hCount dx dy ops ∧
      ∀ r c, getCell h r c = wrap8 (hNet dx dy n dist ops r c) := by
  obtain ⟨h, h1, _, _, _, _, _, h7, h8⟩ := hRun_spec fuel ops (init dx dy n dist) (fun _ => good_nil) hf (fun _ _ => 0)
    (fun _ _ => rfl)
  refine ⟨h, h1, ?_, ?_⟩
  · rw [h7]; exact zero_add _
  · intro r c
    rw [h8, zero_add]
    rfl

theorem sum_cancel {α : Type} (w : α → Int) (l1 l2 l3 : List α) (a b : α) (h : w a + w b = 0) :
    ((l1 ++ a :: l2 ++ b :: l3).map w).sum = ((l1 ++ l2 ++ l3).map w).sum := by
  simp only [List.map_append, List.map_cons, List.sum_append, List.sum_cons]
  linarith

/-- **C25**. Adding a point and later subtracting it (whatever happens in between) leaves every cell and the point
count as if it had not been added. -/
theorem C25_add_subtract (fuel dx dy n : Nat) (dist : Int → Int → Nat → Int) (before between after : List HOp) (x y : Int)
    (hf : Budget fuel n dist (before ++ HOp.add x y :: between ++ HOp.sub x y :: after)) :
    ∃ h h', hRun fuel (init dx dy n dist) (before ++ HOp.add x y :: between ++ HOp.sub x y :: after) = some h ∧
      hRun fuel (init dx dy n dist) (before ++ between ++ after) = some h' ∧
      h.numAcc = h'.numAcc ∧ ∀ r c, getCell h r c = getCell h' r c := by
  obtain ⟨h, a1, a2, a3⟩ := C25_history fuel dx dy n dist _ hf
  obtain ⟨h', b1, b2, b3⟩ := C25_history fuel dx dy n dist (before ++ between ++ after)
    (fun o ho => hf o (by simp only [List.mem_append, List.mem_cons] at ho ⊢; tauto))
  refine ⟨h, h', a1, b1, ?_, ?_⟩
  · rw [a2, b2]
    exact sum_cancel _ _ _ _ _ _ (by by_cases hh : Inside dx dy x y <;> simp [HOp.x, HOp.y, HOp.sign, hh])
  · intro r c
    rw [a3, b3]
    congr 1
    exact sum_cancel _ _ _ _ _ _ (by
      by_cases hh : Inside dx dy x y <;> by_cases h2 : OnCurve n (dist x y) r c <;> simp [HOp.x, HOp.y, HOp.sign, hh, h2])

/-- **C25**. The order of the calls is irrelevant. -/
theorem C25_order (fuel dx dy n : Nat) (dist : Int → Int → Nat → Int) (ops ops' : List HOp) (hp : ops.Perm ops')
    (hf : Budget fuel n dist ops) :
    ∃ h h', hRun fuel (init dx dy n dist) ops = some h ∧ hRun fuel (init dx dy n dist) ops' = some h' ∧
      h.numAcc = h'.numAcc ∧ ∀ r c, getCell h r c = getCell h' r c := by
  obtain ⟨h, a1, a2, a3⟩ := C25_history fuel dx dy n dist _ hf
  obtain ⟨h', b1, b2, b3⟩ := C25_history fuel dx dy n dist ops' (fun o ho => hf o (hp.mem_iff.2 ho))
  refine ⟨h, h', a1, b1, ?_, ?_⟩
  · rw [a2, b2]
    exact (hp.map _).sum_eq
  · intro r c
    rw [a3, b3]
    congr 1
    exact (hp.map _).sum_eq

/-- **C25**. Points outside the image are refused and change nothing. -/
theorem C25_outside (fuel : Nat) (h : Hough) (x y : Int) (ho : ¬ Inside h.dx h.dy x y) :
    addPoint fuel h x y = some (h, (0, 0, 0)) ∧ subtractPoint fuel h x y = some (h, false) := by
  have : outside h x y = true := by
    by_contra hc
    exact ho ((outside_iff h x y).1 (by simpa using hc))
  simp [addPoint, subtractPoint, this]

/-- a distance table used in the examples -/
def exDist : Int → Int → Nat → Int := fun x y i => 100 + x - (i : Int) * y

example : (hRun 50 (init 20 20 4 exDist) [.add 3 5, .add 4 2, .add 21 0, .add 3 5, .sub 4 2]).map
    (fun h => (h.numAcc, [getCell h 1 103, getCell h 1 99, getCell h 1 98, getCell h 2 98, getCell h 1 104])) =
      some (2, [2, 2, 0, 2, 0]) := by decide +kernel

example : Budget 50 4 exDist [.add 3 5, .add 4 2, .sub 4 2] := by
  intro o ho j h1 h2
  simp only [List.mem_cons, List.not_mem_nil, or_false] at ho
  rcases ho with rfl | rfl | rfl <;> simp only [HOp.x, HOp.y, exDist] <;> omega

/-- **C58**. `AddPointReturnMax` reports the largest cell among those just incremented if it exceeds two, with its
distance and angle (the lowest angle and then the lowest distance on ties), and `(-1,-1,-1)` otherwise. -/
theorem C58_reported_max (fuel : Nat) (dx dy n : Nat) (dist : Int → Int → Nat → Int) (ops : List HOp) (x y : Int)
    (hf : Budget fuel n dist (ops ++ [HOp.add x y])) (hin : Inside dx dy x y) (h : Hough)
    (hr : hRun fuel (init dx dy n dist) ops = some h) :
    ∃ h' res, addPoint fuel h x y = some (h', res) ∧
      IsBest (OnCurve n (dist x y)) (getCell h') 2 (-1, -1, -1) res := by
  obtain ⟨h0, a1, a2, a3, a4, a5, a6, _, _⟩ := hRun_spec fuel ops (init dx dy n dist) (fun _ => good_nil)
    (fun o ho => hf o (by simp [ho])) (fun _ _ => 0) (fun _ _ => rfl)
  rw [hr] at a1
  cases a1
  simp only [init] at a3 a4 a5 a6
  have ho : outside h x y = false := (outside_iff h x y).2 (by rw [a3, a4]; exact hin)
  obtain ⟨acc', res, k1, _, _, k4⟩ := angleLoop_add fuel (h.dist x y) (h.numAngle - 1) 1 h.accum (-1, -1, -1) 2
    (le_refl _) (fun j a b => by rw [a6]; exact hf (HOp.add x y) (by simp) j a (by rw [a5] at b; omega)) a2
  refine ⟨{ h with accum := acc', numAcc := h.numAcc + 1 }, res, ?_, ?_⟩
  · simp only [addPoint, ho, Bool.false_eq_true, if_false, doAdd]
    rw [show (1 : Nat) - 1 = 0 from rfl] at k1
    rw [k1]
  · have hcond : (fun r c => 1 ≤ r ∧ r < 1 + (h.numAngle - 1) ∧ Between (h.dist x y (r - 1)) (h.dist x y r) c) =
        OnCurve n (dist x y) := by
      funext r c
      rw [a5, a6]
      unfold OnCurve
      apply propext
      constructor
      · rintro ⟨a, b, d⟩; exact ⟨a, by omega, d⟩
      · rintro ⟨a, b, d⟩; exact ⟨a, by omega, d⟩
    rw [hcond] at k4
    exact k4

example : ((hRun 50 (init 20 20 4 exDist) [.add 3 5, .add 3 5]).bind (fun h => addPoint 50 h 3 5)).map (·.2) =
    some (3, 99, 1) := by decide +kernel
example : ((hRun 50 (init 20 20 4 exDist) [.add 3 5]).bind (fun h => addPoint 50 h 3 5)).map (·.2) =
    some (-1, -1, -1) := by decide +kernel

/-! ## C26 -/

/-- **C26**. The curve of a point has no gaps: at each angle step its cells form a non-empty interval of distances
containing the previous step's distance; and the intervals of consecutive steps have cells at most one apart. -/
theorem C26_connected (n : Nat) (dist : Nat → Int) (r : Nat) (h1 : 1 ≤ r) (h2 : r < n) :
    OnCurve n dist r (dist (r - 1)) ∧
    (∀ a b c, OnCurve n dist r a → OnCurve n dist r c → a ≤ b → b ≤ c → OnCurve n dist r b) ∧
    (r + 1 < n → ∃ a b, OnCurve n dist r a ∧ OnCurve n dist (r + 1) b ∧ |a - b| ≤ 1) := by
  refine ⟨⟨h1, h2, Or.inl rfl⟩, ?_, ?_⟩
  · rintro a b c ⟨_, _, ha⟩ ⟨_, _, hc⟩ hab hbc
    refine ⟨h1, h2, ?_⟩
    unfold Between at *
    omega
  · intro h3
    have hb : OnCurve n dist (r + 1) (dist r) := ⟨by omega, h3, Or.inl rfl⟩
    rcases lt_trichotomy (dist (r - 1)) (dist r) with h | h | h
    · exact ⟨dist r - 1, dist r, ⟨h1, h2, by unfold Between; omega⟩, hb, by rw [abs_le]; omega⟩
    · exact ⟨dist r, dist r, ⟨h1, h2, by unfold Between; omega⟩, hb, by rw [abs_le]; omega⟩
    · exact ⟨dist r + 1, dist r, ⟨h1, h2, by unfold Between; omega⟩, hb, by rw [abs_le]; omega⟩

/-- the cells actually incremented by `AddPointReturnMax` on a fresh transform are the curve -/
theorem C26_cells (fuel dx dy n : Nat) (dist : Int → Int → Nat → Int) (x y : Int) (hin : Inside dx dy x y)
    (hf : Budget fuel n dist [HOp.add x y]) :
    ∃ h res, addPoint fuel (init dx dy n dist) x y = some (h, res) ∧
      ∀ r c, getCell h r c = if OnCurve n (dist x y) r c then 1 else 0 := by
  obtain ⟨h, h1, _, h3⟩ := C25_history fuel dx dy n dist [HOp.add x y] hf
  simp only [hRun, hApply] at h1
  cases hp : addPoint fuel (init dx dy n dist) x y with
  | none => rw [hp] at h1; simp at h1
  | some p =>
    rw [hp] at h1
    simp only [Option.map_some, Option.bind_some, Option.some.injEq] at h1
    refine ⟨p.1, p.2, rfl, fun r c => ?_⟩
    rw [h1, h3]
    simp only [hNet, List.map_cons, List.map_nil, List.sum_cons, List.sum_nil, HOp.x, HOp.y, HOp.sign, add_zero, hin,
      true_and]
    split <;> rfl

example : OnCurve 4 (exDist 3 5) 2 98 ∧ OnCurve 4 (exDist 3 5) 2 94 ∧ ¬ OnCurve 4 (exDist 3 5) 2 93 := by decide

/-! ## C27: range assignment and maximum search -/

theorem setLoop_one (value : Int) (fuel : Nat) (pre suf : CMap) (blk : Int) (ctr left : Nat) (hz : Zip pre suf blk)
    (hc : ctr < N) :
    ∃ m', setLoop value (fuel + 1) pre suf blk ctr left = some m' ∧
      ∀ k, cnt m' k = if blk + ctr ≤ k ∧ k < blk + ctr + left ∧ k < blk + N then value else cnt (pre ++ suf) k := by
  obtain ⟨B, t, e1, g1, g2, g3⟩ := ensure_spec hz
  unfold setLoop
  rw [e1]
  dsimp only
  have hne : subSize left (if min left (N - ctr) ≤ 0 then 1 else 0) ≠ 0 := by
    unfold subSize
    have hcN : 0 < N - ctr := by omega
    by_cases hl : left = 0
    · subst hl; simp
    · have : ¬ (min left (N - ctr) ≤ 0) := by omega
      rw [if_neg this, if_pos (by omega)]
      omega
  rw [if_pos hne]
  refine ⟨_, rfl, fun k => ?_⟩
  rw [cnt_mid hz.before hz.blk0, ← g3 k, cnt_mid hz.before hz.blk0]
  by_cases hk : blk ≤ k ∧ k < blk + N
  · rw [if_pos hk, if_pos hk]
    by_cases hin : blk + ctr ≤ k ∧ k < blk + ctr + left ∧ k < blk + N
    · rw [if_pos hin, if_pos (by omega)]
    · rw [if_neg hin, if_neg (by omega)]
  · rw [if_neg hk, if_neg hk, if_neg (by omega)]

/-- what range assignment does: only the part of the range in the first block is written -/
theorem C27_set_actual (fuel : Nat) (m : CMap) (hg : Good m) (b e v : Int) :
    ∃ m', setRange (fuel + 1) m b e v = some m' ∧
      ∀ k, cnt m' k = if b ≤ k ∧ k < e ∧ k < b - b % N + N then v else cnt m k := by
  unfold setRange
  by_cases hbe : b > e
  · rw [if_pos hbe]
    exact ⟨m, rfl, fun k => by rw [if_neg (by omega)]⟩
  · rw [if_neg hbe]
    have hb0 : (b - b % N) % N = 0 := by simp only [N]; omega
    obtain ⟨m', h1, h2⟩ := setLoop_one v fuel _ _ _ (b % N).toNat (e - b).toNat (zip_lower hg (b - b % N) hb0)
      (by simp only [N]; omega)
    refine ⟨m', h1, fun k => ?_⟩
    rw [h2, List.takeWhile_append_dropWhile]
    have hs : b - b % N + ((b % N).toNat : Int) = b := by simp only [N]; omega
    rw [hs]
    by_cases hk : b ≤ k ∧ k < e ∧ k < b - b % N + N
    · rw [if_pos hk, if_pos ⟨hk.1, by omega, hk.2.2⟩]
    · rw [if_neg hk, if_neg (by omega)]

/-- **C27** (set, partial). Range assignment always returns, and it writes exactly the counters of the range when the
range does not cross a block boundary. -/
theorem C27_set_partial (ops : List Op) (fuel : Nat) (hf : ∀ o ∈ ops, o.length < fuel) (m : CMap)
    (hm : run fuel [] ops = some m) (b e v : Int) (hfuel : 0 < fuel) :
    ∃ m', setRange fuel m b e v = some m' ∧
      (e ≤ b - b % N + N → ∀ k, cnt m' k = if b ≤ k ∧ k < e then v else cnt m k) := by
  obtain ⟨m0, h1, h2, _⟩ := run_spec fuel ops hf good_nil (fun _ => 0) (fun k => rfl)
  rw [hm] at h1
  cases h1
  obtain ⟨f, rfl⟩ : ∃ f, fuel = f + 1 := ⟨fuel - 1, by omega⟩
  obtain ⟨m', k1, k2⟩ := C27_set_actual f m h2 b e v
  refine ⟨m', k1, fun he k => ?_⟩
  rw [k2]
  by_cases hk : b ≤ k ∧ k < e
  · rw [if_pos hk, if_pos ⟨hk.1, hk.2, by omega⟩]
  · rw [if_neg hk, if_neg (fun h => hk ⟨h.1, h.2.1⟩)]

/-- **C27** (set, refuted in general). `set(60, 70, 5)` on an empty map leaves counters 64 to 69 at zero. -/
theorem C27_set_refuted : ∃ (m' : CMap) (k : Int), setRange 100 [] 60 70 5 = some m' ∧ (60 : Int) ≤ k ∧ k < 70 ∧
    cnt m' k = 0 ∧ cnt m' 63 = 5 := by
  obtain ⟨m', h1, h2⟩ := C27_set_actual 99 [] good_nil 60 70 5
  refine ⟨m', 64, h1, by omega, by omega, ?_, ?_⟩
  · rw [h2]; decide
  · rw [h2]; decide

theorem getMaxInner_short (B : Block) (n i : Nat) (it : CMap) (mx : Max) (h : it.length < n) :
    getMaxInner B n i it mx = .ub := by
  induction n generalizing i it mx with
  | zero => omega
  | succ n ih =>
    cases it with
    | nil => rfl
    | cons hd t =>
      obtain ⟨k, X⟩ := hd
      exact ih (i + 1) t _ (by simpa using h)

theorem getMaxInner_long (B : Block) (n i : Nat) (it : CMap) (mx : Max) (h : n ≤ it.length) :
    ∃ mx', getMaxInner B n i it mx = .ok (it.drop n, mx') := by
  induction n generalizing i it mx with
  | zero => exact ⟨mx, rfl⟩
  | succ n ih =>
    cases it with
    | nil => simp at h
    | cons hd t =>
      obtain ⟨k, X⟩ := hd
      exact ih (i + 1) t _ (by simpa using h)

theorem getMaxLoop_ub (fuel : Nat) (m : CMap) (mx : Max) (hf : m.length ≤ fuel) (hm : m.length % 64 ≠ 0) :
    getMaxLoop fuel m mx = .ub := by
  induction fuel generalizing m mx with
  | zero =>
    have : m.length = 0 := by omega
    simp [this] at hm
  | succ fuel ih =>
    cases m with
    | nil => simp at hm
    | cons hd t =>
      obtain ⟨k, B⟩ := hd
      unfold getMaxLoop
      by_cases hl : ((k, B) :: t).length < 64
      · rw [getMaxInner_short B 64 0 _ mx hl]
      · obtain ⟨mx', h⟩ := getMaxInner_long B 64 0 ((k, B) :: t) mx (by omega)
        rw [h]
        exact ih _ _ (by rw [List.length_drop]; omega) (by rw [List.length_drop]; omega)

/-- **C27** (get_max, refuted). The search advances the block iterator at every counter: on every map whose number of
blocks is not a multiple of 64 (in particular on every map with 1 to 63 blocks) it runs past the end of the map, which
is undefined behaviour. -/
theorem C27_get_max_undefined (m : CMap) (cur : Int) (hm : m.length % 64 ≠ 0) : getMax m cur = .ub :=
  getMaxLoop_ub m.length m (none, cur) (le_refl _) hm

/-- an empty map is searched correctly -/
theorem C27_get_max_partial (cur : Int) : getMax [] cur = .ok (none, cur) := rfl

/-- one increment is enough to make the search undefined -/
example : (run 20 [] [.inc 3 5]).map (fun m => getMax m (-128)) = some .ub := by decide +kernel

/-! ## C57 -/

/-- **C57** (refuted). Two points need not share a cell, although HoughBaseAlg.cxx (comment before the fill) relies on
crossing curves: with two angle steps, points (0,1) and (1,0) at unit resolution (distances `x` at step 0 and `y` at
step 1) have disjoint curves. -/
theorem C57_shared_cell_refuted : ∃ (dist : Int → Int → Nat → Int), (∀ x y, dist x y 0 = x) ∧ (∀ x y, dist x y 1 = y) ∧
    ¬ ∃ r c, OnCurve 2 (dist 0 1) r c ∧ OnCurve 2 (dist 1 0) r c := by
  refine ⟨fun x y i => if i = 0 then x else y, fun _ _ => rfl, fun _ _ => rfl, ?_⟩
  rintro ⟨r, c, ⟨h1, h2, h3⟩, ⟨_, _, h4⟩⟩
  have : r = 1 := by omega
  subst this
  unfold Between at h3 h4
  simp at h3 h4
  omega

/-- **C57** (partial). Two points whose distances agree at some angle step followed by another step share a cell. -/
theorem C57_shared_cell_partial (n : Nat) (d1 d2 : Nat → Int) (i : Nat) (hi : i + 1 < n) (h : d1 i = d2 i) :
    ∃ r c, OnCurve n d1 r c ∧ OnCurve n d2 r c :=
  ⟨i + 1, d1 i, ⟨by omega, hi, Or.inl rfl⟩, ⟨by omega, hi, Or.inl h⟩⟩

/-- **C57** (partial). Two curves that cross within an angle step and end it more than one cell apart share a cell. What
is missing from the full claim are crossings that end the step exactly one cell apart (the refuted case) and pairs of
curves that never cross. -/
theorem C57_crossing_partial (n : Nat) (d1 d2 : Nat → Int) (i : Nat) (hi : i + 1 < n) (h : d1 i ≤ d2 i)
    (h' : d2 (i + 1) + 1 < d1 (i + 1)) : ∃ r c, OnCurve n d1 r c ∧ OnCurve n d2 r c := by
  suffices hc : ∃ c, Between (d1 i) (d1 (i + 1)) c ∧ Between (d2 i) (d2 (i + 1)) c by
    obtain ⟨c, a, b⟩ := hc
    exact ⟨i + 1, c, ⟨by omega, hi, a⟩, ⟨by omega, hi, b⟩⟩
  unfold Between
  by_cases h1 : d2 i < d1 (i + 1)
  · exact ⟨d2 i, by omega, by omega⟩
  · by_cases h2 : d1 (i + 1) ≤ d1 i
    · exact ⟨d1 i, by omega, by omega⟩
    · by_cases h3 : d1 i ≤ d1 (i + 1) - 1
      · exact ⟨d1 (i + 1) - 1, by omega, by omega⟩
      · omega

example : exDist 3 5 2 = exDist 1 4 2 := by decide
example : exDist 0 (-5) 1 ≤ exDist 7 0 1 ∧ exDist 7 0 2 + 1 < exDist 0 (-5) 2 := by decide

end Verif.Hough

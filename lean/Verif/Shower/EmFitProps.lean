import Verif.Shower.EmShowerModel
import Mathlib.Tactic.Ring
import Mathlib.Tactic.Linarith
import Mathlib.Tactic.NormNum
import Mathlib.Tactic.FieldSimp
import Mathlib.Tactic.Positivity
import Mathlib.Data.List.Induction
import Mathlib.Data.List.Infix

/-!
Theorems on the shower object, the hits near a vertex and the fits of `EMShowerAlg` (C233-C239).
-/

namespace Verif.EmShower

/-! ### The shower -/

theorem best_range (sizes : Nat → Nat) (n : Nat) :
    ((∀ p < n, sizes p = 0) ∧ (List.range n).foldl (bestStep sizes) (-1, 0) = (-1, 0)) ∨
    ∃ p < n, 0 < sizes p ∧ (∀ q < n, sizes q ≤ sizes p) ∧ (∀ q < p, sizes q < sizes p) ∧
      (List.range n).foldl (bestStep sizes) (-1, 0) = ((p : Int), sizes p) := by
  induction n with
  | zero => left; simp
  | succ n ih =>
    rw [List.range_succ, List.foldl_append, List.foldl_cons, List.foldl_nil]
    rcases ih with ⟨h1, h2⟩ | ⟨p, hp, h0, h1, h2, h3⟩
    · rw [h2]
      unfold bestStep
      dsimp only
      by_cases hn : sizes n > 0
      · rw [if_pos hn]
        right
        refine ⟨n, by omega, hn, ?_, ?_, rfl⟩
        · intro q hq
          rcases Nat.lt_succ_iff_lt_or_eq.1 hq with h | h
          · rw [h1 q h]; exact Nat.zero_le _
          · rw [h]
        · intro q hq
          rw [h1 q hq]; exact hn
      · rw [if_neg hn]
        left
        refine ⟨?_, rfl⟩
        intro q hq
        rcases Nat.lt_succ_iff_lt_or_eq.1 hq with h | h
        · exact h1 q h
        · rw [h]; omega
    · rw [h3]
      unfold bestStep
      dsimp only
      right
      by_cases hn : sizes n > sizes p
      · rw [if_pos hn]
        refine ⟨n, by omega, by omega, ?_, ?_, rfl⟩
        · intro q hq
          rcases Nat.lt_succ_iff_lt_or_eq.1 hq with h | h
          · have := h1 q h; omega
          · rw [h]
        · intro q hq
          have := h1 q hq
          omega
      · rw [if_neg hn]
        refine ⟨p, by omega, h0, ?_, h2, rfl⟩
        intro q hq
        rcases Nat.lt_succ_iff_lt_or_eq.1 hq with h | h
        · exact h1 q h
        · rw [h]; omega

/-- C233 (partial): if every plane with hits is among the initial hits, the shower has a value for every plane, computed
exactly for the planes with hits, and its best plane is the first one with the most hits, -1 if there is no hit.  Missing:
planes without initial hits, see the refutation. -/
theorem C233_shower_partial (n : Nat) (sizes : Nat → Nat) (init : Nat → Bool)
    (hi : ∀ p < n, 0 < sizes p → init p = true) :
    ∃ vs best, makeShower n sizes init = some (vs, best) ∧ vs.length = n ∧
      (∀ p < n, vs[p]? = some (if 0 < sizes p then some p else none)) ∧
      (((∀ p < n, sizes p = 0) ∧ best = -1) ∨
        ∃ p < n, best = p ∧ 0 < sizes p ∧ (∀ q < n, sizes q ≤ sizes p) ∧ ∀ q < p, sizes q < sizes p) := by
  unfold makeShower
  rw [if_neg]
  · refine ⟨_, _, rfl, by simp, ?_, ?_⟩
    · intro p hp
      rw [List.getElem?_map, List.getElem?_range hp]
      rfl
    · rcases best_range sizes n with ⟨h1, h2⟩ | ⟨p, hp, h0, h1, h2, h3⟩
      · exact Or.inl ⟨h1, by rw [h2]⟩
      · exact Or.inr ⟨p, hp, by rw [h3], h0, h1, h2⟩
  · intro hc
    rw [List.any_eq_true] at hc
    obtain ⟨p, hp, hc⟩ := hc
    rw [Bool.and_eq_true, decide_eq_true_eq] at hc
    rw [hi p (List.mem_range.1 hp) hc.1] at hc
    simp at hc

/-- C233: a plane with hits but without initial hits: an exception. -/
theorem C233_throws_iff (n : Nat) (sizes : Nat → Nat) (init : Nat → Bool) :
    makeShower n sizes init = none ↔ ∃ p < n, 0 < sizes p ∧ init p = false := by
  unfold makeShower
  constructor
  · intro h
    split at h
    · rename_i hc
      rw [List.any_eq_true] at hc
      obtain ⟨p, hp, hc⟩ := hc
      rw [Bool.and_eq_true, decide_eq_true_eq] at hc
      exact ⟨p, List.mem_range.1 hp, hc.1, by simpa using hc.2⟩
    · exact absurd h (by simp)
  · rintro ⟨p, hp, h1, h2⟩
    rw [if_pos]
    rw [List.any_eq_true]
    exact ⟨p, List.mem_range.2 hp, by simp [h1, h2]⟩

/-- C233: three planes, hits in all, initial hits in two of them: no shower. -/
theorem C233_refuted : makeShower 3 (fun _ => 4) (fun p => p != 2) = none := by decide +kernel

example : makeShower 3 (fun p => if p = 1 then 5 else 2) (fun _ => true) = some ([some 0, some 1, some 2], 1) := by
  decide +kernel

/-- the state after planes `l` -/
def TopInv (l : List (Nat × Nat)) (s : Top) : Prop :=
  match l with
  | [] => s = ⟨none, 0, none, 0⟩
  | [q] => s = ⟨some q.1, q.2, none, 0⟩
  | _ => ∃ a b, (a, s.n0) ∈ l ∧ (b, s.n1) ∈ l ∧ a ≠ b ∧ s.p0 = some a ∧ s.p1 = some b ∧ s.n1 ≤ s.n0 ∧
      ∀ q ∈ l, q.1 ≠ a → q.2 ≤ s.n1

theorem top_inv (l : List (Nat × Nat)) (hpos : ∀ q ∈ l, 0 < q.2) (hnd : (l.map Prod.fst).Nodup) :
    TopInv l (l.foldl topStep ⟨none, 0, none, 0⟩) := by
  induction l using List.reverseRecOn with
  | nil => rfl
  | append_singleton l q ih =>
    rw [List.foldl_append, List.foldl_cons, List.foldl_nil]
    have hq : 0 < q.2 := hpos q (by simp)
    have hnd' : (l.map Prod.fst).Nodup := by
      rw [List.map_append] at hnd
      exact hnd.of_append_left
    have hnew : ∀ r ∈ l, r.1 ≠ q.1 := by
      rw [List.map_append, List.nodup_append] at hnd
      intro r hr
      exact hnd.2.2 r.1 (List.mem_map_of_mem hr) q.1 (by simp)
    have ih := ih (fun r hr => hpos r (by simp [hr])) hnd'
    generalize l.foldl topStep ⟨none, 0, none, 0⟩ = s at ih
    match l, ih, hnew, hpos with
    | [], ih, _, _ =>
      have ih : s = ⟨none, 0, none, 0⟩ := ih
      subst ih
      show topStep _ q = _
      unfold topStep
      rw [if_pos (by simpa using hq)]
      simp
    | [r], ih, hnew, hpos =>
      have ih : s = ⟨some r.1, r.2, none, 0⟩ := ih
      subst ih
      have hr : 0 < r.2 := hpos r (by simp)
      have hne := hnew r (by simp)
      show ∃ a b, _
      unfold topStep
      dsimp only
      by_cases h1 : q.2 > r.2
      · rw [if_pos h1, if_pos (by simp)]
        refine ⟨q.1, r.1, by simp, by simp, hne.symm, rfl, rfl, h1.le, ?_⟩
        intro x hx hxa
        simp only [List.cons_append, List.nil_append, List.mem_cons, List.not_mem_nil, or_false] at hx
        rcases hx with rfl | rfl
        · exact le_refl _
        · exact absurd rfl hxa
      · rw [if_neg h1, if_pos hq]
        refine ⟨r.1, q.1, by simp, by simp, hne, rfl, rfl, by dsimp only; omega, ?_⟩
        intro x hx hxa
        simp only [List.cons_append, List.nil_append, List.mem_cons, List.not_mem_nil, or_false] at hx
        rcases hx with rfl | rfl
        · exact absurd rfl hxa
        · exact le_refl _
    | r :: t :: l, ih, hnew, hpos =>
      obtain ⟨a, b, ha, hb, hab, e0, e1, hle, hmax⟩ := ih
      show ∃ a b, _
      have haq : a ≠ q.1 := hnew (a, s.n0) ha
      have hbq : b ≠ q.1 := hnew (b, s.n1) hb
      unfold topStep
      by_cases h1 : q.2 > s.n0
      · rw [if_pos h1, if_pos (by rw [e0]; simp)]
        refine ⟨q.1, a, List.mem_append_right _ (by simp), List.mem_append_left _ ha, haq.symm, rfl, e0, h1.le, ?_⟩
        intro x hx hxa
        rcases List.mem_append.1 hx with hx | hx
        · by_cases hxe : x.1 = a
          · have : x = (a, s.n0) := List.inj_on_of_nodup_map hnd' hx ha hxe
            rw [this]
          · exact (hmax x hx hxe).trans hle
        · rw [List.mem_singleton] at hx
          subst hx
          exact absurd rfl hxa
      · rw [if_neg h1]
        by_cases h2 : q.2 > s.n1
        · rw [if_pos h2]
          refine ⟨a, q.1, List.mem_append_left _ ha, List.mem_append_right _ (by simp), haq, e0, rfl,
            by dsimp only; omega, ?_⟩
          intro x hx hxa
          rcases List.mem_append.1 hx with hx | hx
          · exact (hmax x hx hxa).trans h2.le
          · rw [List.mem_singleton] at hx
            subst hx
            exact le_refl _
        · rw [if_neg h2]
          refine ⟨a, b, List.mem_append_left _ ha, List.mem_append_left _ hb, hab, e0, e1, hle, ?_⟩
          intro x hx hxa
          rcases List.mem_append.1 hx with hx | hx
          · exact hmax x hx hxa
          · rw [List.mem_singleton] at hx
            subst hx
            omega

/-- C234: of at least two planes with hits the two chosen are different and have the most hits: the first at least as many
as the second, every other plane at most as many as the second.  With one plane (or none) there is no second. -/
theorem C234_two_planes (l : List (Nat × Nat)) (hpos : ∀ q ∈ l, 0 < q.2) (hnd : (l.map Prod.fst).Nodup) :
    (2 ≤ l.length → ∃ a b na nb, topTwo l = (some a, some b) ∧ (a, na) ∈ l ∧ (b, nb) ∈ l ∧ a ≠ b ∧ nb ≤ na ∧
      ∀ q ∈ l, q.1 ≠ a → q.2 ≤ nb) ∧ (l.length < 2 → (topTwo l).2 = none) := by
  have h := top_inv l hpos hnd
  unfold topTwo
  dsimp only
  generalize l.foldl topStep ⟨none, 0, none, 0⟩ = s at h
  match l, h with
  | [], h =>
    have h : s = ⟨none, 0, none, 0⟩ := h
    subst h
    simp
  | [q], h =>
    have h : s = ⟨some q.1, q.2, none, 0⟩ := h
    subst h
    simp
  | r :: t :: l, h =>
    obtain ⟨a, b, ha, hb, hab, e0, e1, hle, hmax⟩ := h
    refine ⟨fun _ => ⟨a, b, s.n0, s.n1, by rw [e0, e1], ha, hb, hab, hle, hmax⟩, ?_⟩
    intro h2
    simp only [List.length_cons] at h2
    omega

example : topTwo [(0, 5), (1, 9), (2, 7)] = (some 1, some 2) ∧ topTwo [(0, 5), (1, 5), (2, 5)] = (some 0, some 1) := by
  decide +kernel

/-- C234: the start is an end of the points, not farther from the vertex than the other end; the direction aims at the
fifth point after it, or the other end if there are fewer. -/
theorem C234_start (d : V → ℚ) (pts : List V) (h2 : 2 ≤ pts.length) (a b : V) (ha : pts.head? = some a)
    (hb : pts.getLast? = some b) :
    ∃ q, ((startDir d pts = some (a, q) ∧ d a < d b ∧ pts[min 5 (pts.length - 1)]? = some q) ∨
      (startDir d pts = some (b, q) ∧ d b ≤ d a ∧ pts.reverse[min 5 (pts.length - 1)]? = some q)) := by
  unfold startDir
  rw [if_neg (by omega), ha, hb]
  dsimp only
  by_cases hd : d a < d b
  · rw [if_pos hd]
    have e : (if pts.length - 1 < 5 then pts.length - 1 else 5) = min 5 (pts.length - 1) := by
      split <;> omega
    rw [e]
    have hl : min 5 (pts.length - 1) < pts.length := by omega
    exact ⟨pts[min 5 (pts.length - 1)], Or.inl ⟨by rw [List.getElem?_eq_getElem hl]; rfl, hd, List.getElem?_eq_getElem hl⟩⟩
  · rw [if_neg hd]
    have hl : min 5 (pts.length - 1) < pts.length := by omega
    have e : (if pts.length > 6 then pts.length - 6 else 0) = pts.length - 1 - min 5 (pts.length - 1) := by
      split <;> omega
    rw [e]
    have hl' : pts.length - 1 - min 5 (pts.length - 1) < pts.length := by omega
    refine ⟨pts[pts.length - 1 - min 5 (pts.length - 1)], Or.inr ⟨by rw [List.getElem?_eq_getElem hl']; rfl,
      not_lt.1 hd, ?_⟩⟩
    rw [List.getElem?_reverse hl, List.getElem?_eq_getElem hl']

/-- C234: the order of the points does not matter unless both ends are equally far from the vertex. -/
theorem C234_symmetric (d : V → ℚ) (pts : List V) (h2 : 2 ≤ pts.length) (a b : V) (ha : pts.head? = some a)
    (hb : pts.getLast? = some b) (hne : d a ≠ d b) : startDir d pts.reverse = startDir d pts := by
  obtain ⟨q, hq⟩ := C234_start d pts h2 a b ha hb
  obtain ⟨q', hq'⟩ := C234_start d pts.reverse (by simpa using h2) b a (by rw [List.head?_reverse]; exact hb)
    (by rw [List.getLast?_reverse]; exact ha)
  rw [List.reverse_reverse, List.length_reverse] at hq'
  rcases hq with ⟨h1, h3, h4⟩ | ⟨h1, h3, h4⟩ <;> rcases hq' with ⟨k1, k3, k4⟩ | ⟨k1, k3, k4⟩
  · exact absurd h3 (by linarith)
  · rw [h4] at k4
    injection k4 with k4
    rw [h1, k1, k4]
  · rw [h4] at k4
    injection k4 with k4
    rw [h1, k1, k4]
  · exact absurd (le_antisymm k3 h3) hne

example : startDir (fun v => v.x) [⟨1, 0, 0⟩, ⟨2, 0, 0⟩, ⟨3, 1, 0⟩] = some (⟨1, 0, 0⟩, ⟨3, 1, 0⟩) ∧
    startDir (fun v => v.x) [⟨8, 0, 0⟩, ⟨7, 0, 0⟩, ⟨6, 0, 0⟩, ⟨5, 0, 0⟩, ⟨4, 0, 0⟩, ⟨3, 0, 0⟩, ⟨2, 0, 0⟩] =
      some (⟨2, 0, 0⟩, ⟨7, 0, 0⟩) := by decide +kernel

theorem pitch_range (pitch : Nat → ℚ) (pl0 n : Nat) :
    ((∀ p < n, pitch p = 0 ∨ 1000 ≤ pitch p) ∧ (List.range n).foldl (pitchStep pitch) (pl0, 1000) = (pl0, 1000)) ∨
    ∃ p < n, pitch p ≠ 0 ∧ pitch p < 1000 ∧ (∀ q < n, pitch q = 0 ∨ pitch p ≤ pitch q) ∧
      (∀ q < p, pitch q = 0 ∨ pitch p < pitch q) ∧
      (List.range n).foldl (pitchStep pitch) (pl0, 1000) = (p, pitch p) := by
  induction n with
  | zero => left; simp
  | succ n ih =>
    rw [List.range_succ, List.foldl_append, List.foldl_cons, List.foldl_nil]
    rcases ih with ⟨h1, h2⟩ | ⟨p, hp, h0, hlt, h1, h2, h3⟩
    · rw [h2]
      unfold pitchStep
      dsimp only
      by_cases hn : pitch n ≠ 0 ∧ pitch n < 1000
      · rw [if_pos hn]
        right
        refine ⟨n, by omega, hn.1, hn.2, ?_, ?_, rfl⟩
        · intro q hq
          rcases Nat.lt_succ_iff_lt_or_eq.1 hq with h | h
          · rcases h1 q h with h | h
            · exact Or.inl h
            · exact Or.inr (by linarith [hn.2])
          · rw [h]; exact Or.inr (le_refl _)
        · intro q hq
          rcases h1 q hq with h | h
          · exact Or.inl h
          · exact Or.inr (by linarith [hn.2])
      · rw [if_neg hn]
        left
        refine ⟨?_, rfl⟩
        intro q hq
        rcases Nat.lt_succ_iff_lt_or_eq.1 hq with h | h
        · exact h1 q h
        · rw [h]
          by_cases h0 : pitch n = 0
          · exact Or.inl h0
          · right
            by_contra hc
            exact hn ⟨h0, not_le.1 hc⟩
    · rw [h3]
      unfold pitchStep
      dsimp only
      right
      by_cases hn : pitch n ≠ 0 ∧ pitch n < pitch p
      · rw [if_pos hn]
        refine ⟨n, by omega, hn.1, by linarith [hn.2], ?_, ?_, rfl⟩
        · intro q hq
          rcases Nat.lt_succ_iff_lt_or_eq.1 hq with h | h
          · rcases h1 q h with h | h
            · exact Or.inl h
            · exact Or.inr (by linarith [hn.2])
          · rw [h]; exact Or.inr (le_refl _)
        · intro q hq
          rcases h1 q hq with h | h
          · exact Or.inl h
          · exact Or.inr (by linarith [hn.2])
      · rw [if_neg hn]
        refine ⟨p, by omega, h0, hlt, ?_, h2, rfl⟩
        intro q hq
        rcases Nat.lt_succ_iff_lt_or_eq.1 hq with h | h
        · exact h1 q h
        · rw [h]
          by_cases h0 : pitch n = 0
          · exact Or.inl h0
          · right
            by_contra hc
            exact hn ⟨h0, not_le.1 hc⟩

/-- C234: the best plane is the first one with the smallest pitch below 1000 cm among those with a pitch; without any, the
plane with the most hits. -/
theorem C234_best_plane (n pl0 : Nat) (pitch : Nat → ℚ) :
    ((∀ p < n, pitch p = 0 ∨ 1000 ≤ pitch p) ∧ bestPitch n pl0 pitch = pl0) ∨
    ∃ p < n, bestPitch n pl0 pitch = p ∧ pitch p ≠ 0 ∧ pitch p < 1000 ∧ (∀ q < n, pitch q = 0 ∨ pitch p ≤ pitch q) ∧
      ∀ q < p, pitch q = 0 ∨ pitch p < pitch q := by
  unfold bestPitch
  rcases pitch_range pitch pl0 n with ⟨h1, h2⟩ | ⟨p, hp, h0, hlt, h1, h2, h3⟩
  · exact Or.inl ⟨h1, by rw [h2]⟩
  · exact Or.inr ⟨p, hp, by rw [h3], h0, hlt, h1, h2⟩

example : bestPitch 3 2 (fun p => if p = 0 then 0 else if p = 1 then 3/10 else 1/2) = 1 ∧
    bestPitch 3 2 (fun _ => 0) = 2 := by decide +kernel

/-! ### Hits near a vertex -/

/-- C235: the hits keep their order or are reversed; in the TPC of the vertex (the TPC of the first hit if the vertex is in
none) the first hit is then not farther from the vertex than the last one. -/
theorem C235_order (d : H → ℚ) (vt : Option Nat) (hits : List H) :
    (orderVtx d vt hits = hits ∨ orderVtx d vt hits = hits.reverse) ∧
    ∀ t, (vt = some t ∨ (vt = none ∧ hits.head?.map H.tpc = some t)) →
      ∀ a b, ((orderVtx d vt hits).filter fun h => h.tpc = t).head? = some a →
        ((orderVtx d vt hits).filter fun h => h.tpc = t).getLast? = some b → d a ≤ d b := by
  have key : ∀ t, vt.or (hits.head?.map H.tpc) = some t →
      (orderVtx d vt hits = hits ∨ orderVtx d vt hits = hits.reverse) ∧
      ∀ a b, ((orderVtx d vt hits).filter fun h => h.tpc = t).head? = some a →
        ((orderVtx d vt hits).filter fun h => h.tpc = t).getLast? = some b → d a ≤ d b := by
    intro t ht
    unfold orderVtx
    rw [ht]
    dsimp only
    match hh : (hits.filter fun h => h.tpc = t).head?, hg : (hits.filter fun h => h.tpc = t).getLast? with
    | some x, some y =>
      simp only [hh, hg]
      by_cases hd : d y < d x
      · rw [if_pos hd]
        refine ⟨Or.inr rfl, ?_⟩
        intro a b ha hb
        rw [List.filter_reverse, List.head?_reverse, hg] at ha
        rw [List.filter_reverse, List.getLast?_reverse, hh] at hb
        injection ha with ha
        injection hb with hb
        subst ha hb
        exact hd.le
      · rw [if_neg hd]
        refine ⟨Or.inl rfl, ?_⟩
        intro a b ha hb
        rw [hh] at ha
        rw [hg] at hb
        injection ha with ha
        injection hb with hb
        subst ha hb
        exact not_lt.1 hd
    | none, _ =>
      simp [hh]
    | some x, none =>
      rw [List.getLast?_eq_none_iff] at hg
      rw [hg] at hh
      simp at hh
  constructor
  · match hm : vt.or (hits.head?.map H.tpc) with
    | some t => exact (key t hm).1
    | none =>
      left
      unfold orderVtx
      rw [hm]
  · rintro t (rfl | ⟨rfl, ht⟩)
    · exact (key t rfl).2
    · exact (key t ht).2

theorem passes_last (tpc : Nat) (dist : ℚ × ℚ → H → ℚ) (hits : List H) (q : Nat × Option ℚ) (ps : List (Nat × Option ℚ)) :
    ∀ fit, ∃ fit', fitPasses tpc dist hits fit (ps ++ [q]) = passHits tpc (closeTo dist q.2 fit') q.1 hits := by
  induction ps with
  | nil => intro fit; exact ⟨fit, rfl⟩
  | cons p ps ih =>
    intro fit
    match ps, ih with
    | [], ih =>
      show ∃ fit', fitPasses tpc dist hits fit (p :: q :: []) = _
      unfold fitPasses
      exact ih _
    | r :: ps, ih =>
      show ∃ fit', fitPasses tpc dist hits fit (p :: r :: (ps ++ [q])) = _
      unfold fitPasses
      exact ih _

/-- C235: the initial hits of the last pass: hits of the shower in their order, all in one TPC, at most as many as asked for;
they are the first hits of the TPC that are close to some line, or the first ones of the TPC if the fit failed or there is
one pass. -/
theorem C235_initial (dist : ℚ × ℚ → H → ℚ) (vt : Option Nat) (hits : List H) (ps : List (Nat × Option ℚ)) (n : Nat)
    (tol : Option ℚ) (t : Nat) (ht : vt = some t ∨ (vt = none ∧ maxTpc hits = some t)) :
    (initialHits dist vt (ps ++ [(n, tol)]) hits).Sublist hits ∧
    (initialHits dist vt (ps ++ [(n, tol)]) hits).length ≤ n ∧
    (∀ h ∈ initialHits dist vt (ps ++ [(n, tol)]) hits, h.tpc = t) ∧
    (initialHits dist vt (ps ++ [(n, tol)]) hits = (hits.filter fun h => h.tpc = t).take n ∨
      ∃ f e, tol = some e ∧ initialHits dist vt (ps ++ [(n, tol)]) hits =
        (hits.filter fun h => h.tpc = t ∧ dist f h < e).take n) := by
  have he : ∃ fit, initialHits dist vt (ps ++ [(n, tol)]) hits = passHits t (closeTo dist tol fit) n hits := by
    obtain ⟨fit, hf⟩ := passes_last t dist hits (n, tol) ps none
    refine ⟨fit, ?_⟩
    rw [← hf]
    unfold initialHits
    rcases ht with rfl | ⟨rfl, ht⟩
    · rfl
    · rw [ht]
      rfl
  obtain ⟨fit, he⟩ := he
  rw [he]
  refine ⟨?_, ?_, ?_, ?_⟩
  · exact (List.take_sublist _ _).trans List.filter_sublist
  · exact List.length_take_le _ _
  · intro h hh
    have := List.mem_of_mem_take hh
    rw [List.mem_filter, Bool.and_eq_true, decide_eq_true_eq] at this
    exact this.2.1
  · unfold passHits
    match tol, fit with
    | some e, some f =>
      right
      refine ⟨f, e, rfl, ?_⟩
      congr 1
      apply List.filter_congr
      intro h _
      simp [closeTo]
    | none, _ =>
      left
      congr 1
      apply List.filter_congr
      intro h _
      simp [closeTo]
    | some e, none =>
      left
      congr 1
      apply List.filter_congr
      intro h _
      simp [closeTo]

theorem maxTpc_fold (hits : List H) (ks : List Nat) (hs : ks.Pairwise (· < ·)) (hpos : ∀ k ∈ ks, 0 < hits.countP fun h => h.tpc = k) :
    (ks = [] ∧ ks.foldl (fun (s : Option Nat × Nat) t =>
      let n := hits.countP fun h => h.tpc = t
      if n > s.2 then (some t, n) else s) (none, 0) = (none, 0)) ∨
    ∃ t ∈ ks, ks.foldl (fun (s : Option Nat × Nat) t =>
        let n := hits.countP fun h => h.tpc = t
        if n > s.2 then (some t, n) else s) (none, 0) = (some t, hits.countP fun h => h.tpc = t) ∧
      (∀ u ∈ ks, (hits.countP fun h => h.tpc = u) ≤ hits.countP fun h => h.tpc = t) ∧
      ∀ u ∈ ks, u < t → (hits.countP fun h => h.tpc = u) < hits.countP fun h => h.tpc = t := by
  induction ks using List.reverseRecOn with
  | nil => left; exact ⟨rfl, rfl⟩
  | append_singleton ks k ih =>
    right
    rw [List.pairwise_append] at hs
    have hk := hpos k (by simp)
    rcases ih hs.1 (fun x hx => hpos x (by simp [hx])) with ⟨h1, h2⟩ | ⟨t, h1, h2, h3, h4⟩
    · subst h1
      refine ⟨k, by simp, ?_, ?_, ?_⟩
      · rw [List.nil_append, List.foldl_cons, List.foldl_nil]
        dsimp only
        rw [if_pos hk]
      · intro u hu
        simp at hu; subst hu; exact le_refl _
      · intro u hu hlt
        simp at hu; omega
    · rw [List.foldl_append, h2, List.foldl_cons, List.foldl_nil]
      dsimp only
      have htk : t < k := hs.2.2 t h1 k (by simp)
      by_cases hc : (hits.countP fun h => h.tpc = k) > hits.countP fun h => h.tpc = t
      · rw [if_pos hc]
        refine ⟨k, by simp, rfl, ?_, ?_⟩
        · intro u hu
          rcases List.mem_append.1 hu with hu | hu
          · exact (h3 u hu).trans hc.le
          · simp at hu; subst hu; exact le_refl _
        · intro u hu hlt
          rcases List.mem_append.1 hu with hu | hu
          · exact lt_of_le_of_lt (h3 u hu) hc
          · simp at hu; omega
      · rw [if_neg hc]
        refine ⟨t, by simp [h1], rfl, ?_, ?_⟩
        · intro u hu
          rcases List.mem_append.1 hu with hu | hu
          · exact h3 u hu
          · simp at hu; subst hu; exact not_lt.1 hc
        · intro u hu hlt
          rcases List.mem_append.1 hu with hu | hu
          · exact h4 u hu hlt
          · simp at hu; omega

/-- C235: outside every TPC, the first TPC with the most hits is used; without hits there is none. -/
theorem C235_tpc (hits : List H) : (hits = [] ∧ maxTpc hits = none) ∨
    ∃ t, maxTpc hits = some t ∧ (∃ h ∈ hits, h.tpc = t) ∧
      (∀ u, (hits.countP fun h => h.tpc = u) ≤ hits.countP fun h => h.tpc = t) ∧
      ∀ u < t, (hits.countP fun h => h.tpc = u) < hits.countP fun h => h.tpc = t := by
  have hmem : ∀ k, k ∈ ((hits.map H.tpc).dedup).insertionSort (· ≤ ·) ↔ ∃ h ∈ hits, h.tpc = k := by
    intro k
    rw [(List.perm_insertionSort _ _).mem_iff, List.mem_dedup, List.mem_map]
  have hsort : (((hits.map H.tpc).dedup).insertionSort (· ≤ ·)).Pairwise (· < ·) := by
    have h1 : (((hits.map H.tpc).dedup).insertionSort (· ≤ ·)).Pairwise (· ≤ ·) := List.pairwise_insertionSort _ _
    have h2 : (((hits.map H.tpc).dedup).insertionSort (· ≤ ·)).Nodup :=
      (List.perm_insertionSort _ _).nodup_iff.2 (List.nodup_dedup _)
    exact (h1.and h2).imp fun h => lt_of_le_of_ne h.1 h.2
  have hpos : ∀ k ∈ ((hits.map H.tpc).dedup).insertionSort (· ≤ ·), 0 < hits.countP fun h => h.tpc = k := by
    intro k hk
    obtain ⟨h, hh, he⟩ := (hmem k).1 hk
    rw [List.countP_pos_iff]
    exact ⟨h, hh, by simpa using he⟩
  have hzero : ∀ u, u ∉ ((hits.map H.tpc).dedup).insertionSort (· ≤ ·) → (hits.countP fun h => h.tpc = u) = 0 := by
    intro u hu
    rw [List.countP_eq_zero]
    intro h hh he
    exact hu ((hmem u).2 ⟨h, hh, by simpa using he⟩)
  rcases maxTpc_fold hits _ hsort hpos with ⟨h1, h2⟩ | ⟨t, h1, h2, h3, h4⟩
  · left
    have hnil : hits = [] := by
      match hits, hmem, h1 with
      | [], _, _ => rfl
      | a :: l, hmem, h1 =>
        have := (hmem a.tpc).2 ⟨a, by simp, rfl⟩
        rw [h1] at this
        simp at this
    refine ⟨hnil, ?_⟩
    unfold maxTpc
    dsimp only
    rw [h2]
  · right
    refine ⟨t, ?_, (hmem t).1 h1, ?_, ?_⟩
    · unfold maxTpc
      dsimp only
      rw [h2]
    · intro u
      by_cases hu : u ∈ ((hits.map H.tpc).dedup).insertionSort (· ≤ ·)
      · exact h3 u hu
      · rw [hzero u hu]; exact Nat.zero_le _
    · intro u hut
      by_cases hu : u ∈ ((hits.map H.tpc).dedup).insertionSort (· ≤ ·)
      · exact h4 u hu hut
      · rw [hzero u hu]; exact hpos t h1

/-! ### Fits -/

/-- weighted sum of squares about a line -/
def SS (l : List (ℚ × ℚ × ℚ)) (a b : ℚ) : ℚ := (l.map fun p => p.2.2 * (p.2.1 - a - b * p.1) ^ 2).sum

theorem SS_sums (l : List (ℚ × ℚ × ℚ)) (a b : ℚ) : SS l a b = (l.map fun p => p.2.1 * p.2.1 * p.2.2).sum -
    2 * a * (l.map fun p => p.2.1 * p.2.2).sum - 2 * b * (l.map fun p => p.1 * p.2.1 * p.2.2).sum +
    a ^ 2 * (l.map fun p => p.2.2).sum + 2 * a * b * (l.map fun p => p.1 * p.2.2).sum +
    b ^ 2 * (l.map fun p => p.1 * p.1 * p.2.2).sum := by
  unfold SS
  induction l with
  | nil => simp
  | cons p l ih =>
    simp only [List.map_cons, List.sum_cons]
    rw [ih]
    ring

theorem quad_nonneg (l : List (ℚ × ℚ × ℚ)) (hw : ∀ p ∈ l, 0 < p.2.2) (a b : ℚ) :
    0 ≤ a ^ 2 * (l.map fun p => p.2.2).sum + 2 * a * b * (l.map fun p => p.1 * p.2.2).sum +
      b ^ 2 * (l.map fun p => p.1 * p.1 * p.2.2).sum := by
  induction l with
  | nil => simp
  | cons p l ih =>
    simp only [List.map_cons, List.sum_cons]
    have := ih fun q hq => hw q (List.mem_cons_of_mem _ hq)
    have h2 : 0 ≤ p.2.2 * (a + b * p.1) ^ 2 := mul_nonneg (hw p List.mem_cons_self).le (sq_nonneg _)
    nlinarith

theorem dev_sum (l : List (ℚ × ℚ × ℚ)) (x : ℚ) : (l.map fun p => p.2.2 * (p.1 - x) ^ 2).sum =
    (l.map fun p => p.1 * p.1 * p.2.2).sum - 2 * x * (l.map fun p => p.1 * p.2.2).sum +
      x ^ 2 * (l.map fun p => p.2.2).sum := by
  induction l with
  | nil => simp
  | cons p l ih =>
    simp only [List.map_cons, List.sum_cons]
    rw [ih]
    ring

theorem dev_nonneg (l : List (ℚ × ℚ × ℚ)) (hw : ∀ p ∈ l, 0 < p.2.2) (x : ℚ) :
    0 ≤ (l.map fun p => p.2.2 * (p.1 - x) ^ 2).sum ∧
    ((∃ p ∈ l, p.1 ≠ x) → 0 < (l.map fun p => p.2.2 * (p.1 - x) ^ 2).sum) := by
  induction l with
  | nil => simp
  | cons p l ih =>
    obtain ⟨h1, h2⟩ := ih fun q hq => hw q (List.mem_cons_of_mem _ hq)
    have hp := hw p List.mem_cons_self
    simp only [List.map_cons, List.sum_cons]
    have h3 : 0 ≤ p.2.2 * (p.1 - x) ^ 2 := mul_nonneg hp.le (sq_nonneg _)
    refine ⟨by linarith, ?_⟩
    rintro ⟨q, hq, hne⟩
    rcases List.mem_cons.1 hq with rfl | hq
    · have : 0 < q.2.2 * (q.1 - x) ^ 2 := by
        have h4 : q.1 - x ≠ 0 := sub_ne_zero.2 hne
        positivity
      linarith
    · have := h2 ⟨q, hq, hne⟩
      linarith

/-- the determinant is not negative, positive if the x differ, zero if they are equal -/
theorem det_spec (l : List (ℚ × ℚ × ℚ)) (hw : ∀ p ∈ l, 0 < p.2.2) :
    0 ≤ (l.map fun p => p.1 * p.1 * p.2.2).sum * (l.map fun p => p.2.2).sum -
      (l.map fun p => p.1 * p.2.2).sum * (l.map fun p => p.1 * p.2.2).sum ∧
    ((∃ p ∈ l, ∃ q ∈ l, p.1 ≠ q.1) → 0 < (l.map fun p => p.1 * p.1 * p.2.2).sum * (l.map fun p => p.2.2).sum -
      (l.map fun p => p.1 * p.2.2).sum * (l.map fun p => p.1 * p.2.2).sum) := by
  induction l with
  | nil => simp
  | cons p l ih =>
    obtain ⟨h1, h2⟩ := ih fun q hq => hw q (List.mem_cons_of_mem _ hq)
    obtain ⟨d1, d2⟩ := dev_nonneg l (fun q hq => hw q (List.mem_cons_of_mem _ hq)) p.1
    have hp := hw p List.mem_cons_self
    rw [dev_sum] at d1 d2
    simp only [List.map_cons, List.sum_cons]
    generalize (l.map fun p => p.1 * p.1 * p.2.2).sum = sxx at *
    generalize (l.map fun p => p.1 * p.2.2).sum = sx at *
    generalize (l.map fun p => p.2.2).sum = sw at *
    have e : (p.1 * p.1 * p.2.2 + sxx) * (p.2.2 + sw) - (p.1 * p.2.2 + sx) * (p.1 * p.2.2 + sx) =
        (sxx * sw - sx * sx) + p.2.2 * (sxx - 2 * p.1 * sx + p.1 ^ 2 * sw) := by ring
    rw [e]
    have h3 := mul_nonneg hp.le d1
    refine ⟨by linarith, ?_⟩
    rintro ⟨q, hq, r, hr, hne⟩
    by_cases hex : ∃ t ∈ l, t.1 ≠ p.1
    · have := mul_pos hp (d2 hex)
      linarith
    · push Not at hex
      have all : ∀ t ∈ p :: l, t.1 = p.1 := by
        intro t ht
        rcases List.mem_cons.1 ht with rfl | ht
        · rfl
        · exact hex t ht
      exact absurd ((all q hq).trans (all r hr).symm) hne

theorem det_zero (l : List (ℚ × ℚ × ℚ)) (x : ℚ) (hx : ∀ p ∈ l, p.1 = x) :
    (l.map fun p => p.1 * p.1 * p.2.2).sum = x * x * (l.map fun p => p.2.2).sum ∧
      (l.map fun p => p.1 * p.2.2).sum = x * (l.map fun p => p.2.2).sum := by
  induction l with
  | nil => simp
  | cons p l ih =>
    obtain ⟨h1, h2⟩ := ih fun q hq => hx q (List.mem_cons_of_mem _ hq)
    simp only [List.map_cons, List.sum_cons]
    rw [h1, h2, hx p List.mem_cons_self]
    exact ⟨by ring, by ring⟩

/-- C236: with positive weights and points that are not all at one x the fit succeeds, and no line is better. -/
theorem C236_fit (l : List (ℚ × ℚ × ℚ)) (hw : ∀ p ∈ l, 0 < p.2.2) (hx : ∃ p ∈ l, ∃ q ∈ l, p.1 ≠ q.1) :
    ∃ a b, weightedFit l = some (a, b) ∧ ∀ a' b', SS l a b ≤ SS l a' b' := by
  have hdet := (det_spec l hw).2 hx
  have hq := quad_nonneg l hw
  have hswpos : 0 < (l.map fun p => p.2.2).sum := by
    have := quad_nonneg l hw 1 0
    simp at this
    rcases this.lt_or_eq with h | h
    · exact h
    · rw [← h] at hdet
      nlinarith [mul_self_nonneg ((l.map fun p => p.1 * p.2.2).sum)]
  unfold weightedFit
  simp only [SS_sums]
  generalize (l.map fun p => p.1 * p.1 * p.2.2).sum = sxx at *
  generalize (l.map fun p => p.1 * p.2.2).sum = sx at *
  generalize (l.map fun p => p.2.2).sum = sw at *
  generalize (l.map fun p => p.2.1 * p.2.2).sum = sy
  generalize (l.map fun p => p.1 * p.2.1 * p.2.2).sum = sxy
  generalize (l.map fun p => p.2.1 * p.2.1 * p.2.2).sum = syy
  have hd2 : sxx - sx * sx / sw = (sxx * sw - sx * sx) / sw := by field_simp
  have hsxx : 0 ≤ sxx := by
    have := hq 0 1
    simpa using this
  have hpos2 : 0 < sxx - sx * sx / sw := by rw [hd2]; exact div_pos hdet hswpos
  rw [if_neg hdet.ne', if_neg hpos2.ne', if_neg (by
    rw [not_or]
    exact ⟨not_lt.2 (mul_nonneg hsxx hdet.le), not_lt.2 hpos2.le⟩)]
  refine ⟨_, _, rfl, ?_⟩
  intro a' b'
  have hD : sxx * sw - sx * sx ≠ 0 := hdet.ne'
  have hS : sw ≠ 0 := hswpos.ne'
  have hb : (sxy - sx * sy / sw) / (sxx - sx * sx / sw) = (sw * sxy - sx * sy) / (sxx * sw - sx * sx) := by
    rw [hd2]; field_simp
  rw [hb]
  have n1 : (sy * sxx - sx * sxy) / (sxx * sw - sx * sx) * sw + (sw * sxy - sx * sy) / (sxx * sw - sx * sx) * sx = sy := by
    rw [div_mul_eq_mul_div, div_mul_eq_mul_div, ← add_div, div_eq_iff hD]; ring
  have n2 : (sy * sxx - sx * sxy) / (sxx * sw - sx * sx) * sx + (sw * sxy - sx * sy) / (sxx * sw - sx * sx) * sxx = sxy := by
    rw [div_mul_eq_mul_div, div_mul_eq_mul_div, ← add_div, div_eq_iff hD]; ring
  generalize (sy * sxx - sx * sxy) / (sxx * sw - sx * sx) = a at *
  generalize (sw * sxy - sx * sy) / (sxx * sw - sx * sx) = b at *
  have := hq (a' - a) (b' - b)
  rw [← n1, ← n2]
  nlinarith

/-- C236: points at one x (or no points) give no line. -/
theorem C236_no_fit (l : List (ℚ × ℚ × ℚ)) (x : ℚ) (hx : ∀ p ∈ l, p.1 = x) : weightedFit l = none := by
  obtain ⟨h1, h2⟩ := det_zero l x hx
  unfold weightedFit
  dsimp only
  rw [h1, h2, if_pos (by ring)]

example : weightedFit [(0, 1, 1), (1, 3, 1), (2, 5, 2)] = some (1, 2) := by decide +kernel

/-- C236: the direction of a plane (weights: squares of the charges) has the slope of the best line. -/
theorem C236_gradient (l : List (ℚ × ℚ × ℚ)) (hw : ∀ p ∈ l, 0 < p.1) (hx : ∃ p ∈ l, ∃ q ∈ l, p.2.1 ≠ q.2.1) :
    ∃ a g, gradient l = some g ∧ ∀ a' b', (l.map fun p => p.1 * (p.2.2 - a - g * p.2.1) ^ 2).sum ≤
      (l.map fun p => p.1 * (p.2.2 - a' - b' * p.2.1) ^ 2).sum := by
  have hw' : ∀ p ∈ l.map (fun p => (p.2.1, p.2.2, p.1)), 0 < p.2.2 := by
    intro p hp
    obtain ⟨q, hq, rfl⟩ := List.mem_map.1 hp
    exact hw q hq
  have hx' : ∃ p ∈ l.map (fun p => (p.2.1, p.2.2, p.1)), ∃ q ∈ l.map (fun p => (p.2.1, p.2.2, p.1)), p.1 ≠ q.1 := by
    obtain ⟨p, hp, q, hq, h⟩ := hx
    exact ⟨_, List.mem_map_of_mem hp, _, List.mem_map_of_mem hq, h⟩
  have hdet := (det_spec _ hw').2 hx'
  obtain ⟨a, b, hf, hmin⟩ := C236_fit _ hw' hx'
  have e : ∀ a b, SS (l.map fun p => (p.2.1, p.2.2, p.1)) a b = (l.map fun p => p.1 * (p.2.2 - a - b * p.2.1) ^ 2).sum := by
    intro a b
    unfold SS
    rw [List.map_map]
    rfl
  simp only [e] at hmin
  refine ⟨a, b, ?_, hmin⟩
  unfold weightedFit at hf
  unfold gradient
  simp only [List.map_map] at hf hdet
  simp only [Function.comp_def] at hf hdet
  dsimp only
  have s1 : (l.map fun p => p.1 * p.2.1).sum = (l.map fun p => p.2.1 * p.1).sum := by simp only [mul_comm]
  have s2 : (l.map fun p => p.1 * p.2.2).sum = (l.map fun p => p.2.2 * p.1).sum := by simp only [mul_comm]
  have s3 : (l.map fun p => p.1 * p.2.1 * p.2.1).sum = (l.map fun p => p.2.1 * p.2.1 * p.1).sum := by
    congr 2; funext p; ring
  have s4 : (l.map fun p => p.1 * p.2.1 * p.2.2).sum = (l.map fun p => p.2.1 * p.2.2 * p.1).sum := by
    congr 2; funext p; ring
  rw [s1, s2, s3, s4]
  generalize (l.map fun p => p.2.1 * p.1).sum = sx at *
  generalize (l.map fun p => p.2.2 * p.1).sum = sy at *
  generalize (l.map fun p => p.2.1 * p.2.1 * p.1).sum = sxx at *
  generalize (l.map fun p => p.2.1 * p.2.2 * p.1).sum = sxy at *
  generalize (l.map fun p => p.1).sum = sw at *
  have hD : sw * sxx - sx * sx ≠ 0 := by rw [mul_comm]; exact hdet.ne'
  rw [if_neg hD]
  split at hf
  · exact absurd hf (by simp)
  · split at hf
    · exact absurd hf (by simp)
    · rename_i h2
      split at hf
      · exact absurd hf (by simp)
      · injection hf with hf
        injection hf with _ hf
        rw [← hf]
        congr 1
        by_cases hs : sw = 0
        · subst hs
          nlinarith [mul_self_nonneg sx]
        · have : sxx - sx * sx / sw = (sw * sxx - sx * sx) / sw := by field_simp
          rw [this]
          field_simp

/-! ### Clean showers -/

/-- C237: a shower with hits, fewer than 20 or more than 2000, is clean; with 20 to 2000 hits it is clean if the hits 3 to
20 are on at least 13 wires; without hits it is not. -/
theorem C237_clean (wires : List ℤ) : isClean wires = true ↔
    (1 ≤ wires.length ∧ wires.length < 20) ∨ 2000 < wires.length ∨
      (20 ≤ wires.length ∧ 13 ≤ (((wires.take 20).drop 2).dedup).length) := by
  unfold isClean
  split
  · rename_i h; subst h; simp
  · rename_i h
    have hpos := List.length_pos_iff.2 h
    split
    · rename_i h1; simp [h1]
    · split
      · rename_i h2
        constructor
        · intro _; exact Or.inl ⟨hpos, h2⟩
        · intro _; rfl
      · rename_i h1 h2
        dsimp only
        have hl : (wires.take 20).length = 20 := by rw [List.length_take]; omega
        rw [hl]
        have hd : 0 < (((wires.take 20).drop 2).dedup).length := by
          rw [List.length_pos_iff]
          intro hc
          rw [List.dedup_eq_nil] at hc
          have := congrArg List.length hc
          rw [List.length_drop, hl] at this
          simp at this
        generalize (((wires.take 20).drop 2).dedup).length = k at hd ⊢
        have hk : (0 : ℚ) < k := by exact_mod_cast hd
        rw [Bool.not_eq_true', decide_eq_false_iff_not, not_lt, div_le_div_iff₀ hk (by norm_num)]
        constructor
        · intro hh
          right; right
          refine ⟨by omega, ?_⟩
          have : (20 - 2 : ℕ) * 5 ≤ 7 * k := by
            have hh' : (((20 - 2 : ℕ) : ℚ)) * 5 ≤ 7 * k := hh
            exact_mod_cast hh'
          omega
        · intro hh
          have h13 : 13 ≤ k := by
            rcases hh with hh | hh | hh
            · omega
            · omega
            · exact hh.2
          have : (13 : ℚ) ≤ k := by exact_mod_cast h13
          push_cast
          linarith

example : isClean [] = false ∧ isClean [1, 1] = true ∧ isClean (List.replicate 20 5) = false ∧
    isClean ((List.range 20).map Int.ofNat) = true := by decide +kernel

/-! ### Centre -/

/-- C238: with positive charges the centre lies between the hits in both coordinates. -/
theorem C238_centre (l : List (ℚ × ℚ × ℚ)) (hne : l ≠ []) (hq : ∀ p ∈ l, 0 < p.1) (x0 x1 y0 y1 : ℚ)
    (hx : ∀ p ∈ l, x0 ≤ p.2.1 ∧ p.2.1 ≤ x1) (hy : ∀ p ∈ l, y0 ≤ p.2.2 ∧ p.2.2 ≤ y1) :
    ∃ c, centre l = some c ∧ x0 ≤ c.1 ∧ c.1 ≤ x1 ∧ y0 ≤ c.2 ∧ c.2 ≤ y1 := by
  have bound : ∀ (f : ℚ × ℚ × ℚ → ℚ) (l : List (ℚ × ℚ × ℚ)) (lo hi : ℚ), (∀ p ∈ l, 0 < p.1) →
      (∀ p ∈ l, lo ≤ f p ∧ f p ≤ hi) →
      lo * (l.map fun p => p.1).sum ≤ (l.map fun p => p.1 * f p).sum ∧
        (l.map fun p => p.1 * f p).sum ≤ hi * (l.map fun p => p.1).sum := by
    intro f l lo hi h1 h2
    induction l with
    | nil => simp
    | cons p l ih =>
      obtain ⟨i1, i2⟩ := ih (fun q hq => h1 q (List.mem_cons_of_mem _ hq)) (fun q hq => h2 q (List.mem_cons_of_mem _ hq))
      have hp := h1 p List.mem_cons_self
      obtain ⟨a, b⟩ := h2 p List.mem_cons_self
      simp only [List.map_cons, List.sum_cons]
      constructor
      · nlinarith [mul_le_mul_of_nonneg_left a hp.le]
      · nlinarith [mul_le_mul_of_nonneg_left b hp.le]
  have hpos : 0 < (l.map fun p => p.1).sum := by
    match l, hne, hq with
    | p :: l, _, hq =>
      have : 0 ≤ (l.map fun p => p.1).sum := List.sum_nonneg (by
        intro x hx
        obtain ⟨r, hr, rfl⟩ := List.mem_map.1 hx
        exact (hq r (List.mem_cons_of_mem _ hr)).le)
      have := hq p List.mem_cons_self
      simp only [List.map_cons, List.sum_cons]
      linarith
  obtain ⟨a1, a2⟩ := bound (fun p => p.2.1) l x0 x1 hq hx
  obtain ⟨b1, b2⟩ := bound (fun p => p.2.2) l y0 y1 hq hy
  unfold centre
  dsimp only
  rw [if_neg hpos.ne']
  exact ⟨_, rfl, (le_div_iff₀ hpos).2 a1, (div_le_iff₀ hpos).2 a2, (le_div_iff₀ hpos).2 b1, (div_le_iff₀ hpos).2 b2⟩

example : centre [(1, 0, 0), (3, 4, 8)] = some (3, 6) := by decide +kernel

/-! ### Segments -/

/-- C239 (partial): a hit nearer to the first one than the last one is in one of the `n` segments.  Missing: the other hits,
see the refutations. -/
theorem C239_segment_partial (n : Nat) (hn : 0 < n) (len d : ℚ) (h0 : 0 ≤ d) (hd : d < len) :
    0 ≤ segment n len d ∧ segment n len d < n := by
  have hnq : (0 : ℚ) < n := by exact_mod_cast hn
  have hl : 0 < len / n := div_pos (lt_of_le_of_lt h0 hd) hnq
  unfold segment
  constructor
  · exact Int.floor_nonneg.2 (div_nonneg h0 hl.le)
  · rw [Int.floor_lt]
    rw [div_lt_iff₀ hl]
    push_cast
    rw [mul_div_cancel₀ _ hnq.ne']
    exact hd

/-- C239: hits farther away are in the same or a later segment. -/
theorem C239_monotone (n : Nat) (hn : 0 < n) (len d d' : ℚ) (hl : 0 < len) (h : d ≤ d') :
    segment n len d ≤ segment n len d' := by
  have hnq : (0 : ℚ) < n := by exact_mod_cast hn
  unfold segment
  apply Int.floor_le_floor
  exact (div_le_div_iff_of_pos_right (div_pos hl hnq)).2 h

/-- C239: the last hit itself is in one more segment, for every shower and number of segments. -/
theorem C239_last_refuted (n : Nat) (hn : 0 < n) (len : ℚ) (hl : 0 < len) : segment n len len = n := by
  have hnq : (0 : ℚ) < n := by exact_mod_cast hn
  unfold segment
  have : len / (len / n) = n := by field_simp
  rw [this]
  exact Int.floor_natCast n

example : segment 4 10 0 = 0 ∧ segment 4 10 9 = 3 ∧ segment 4 10 10 = 4 ∧ segment 4 10 26 = 10 := by
  refine ⟨?_, ?_, ?_, ?_⟩ <;> (unfold segment; norm_num)

end Verif.EmShower

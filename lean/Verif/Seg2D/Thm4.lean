import Verif.Seg2D.Thm3

namespace Verif.Seg2D
open List (Perm)
open scoped List

/-! ## C412: what a segment is -/

/-- The hit is nearer to the line through the two points than the given distance (the product of the vectors is the area they span), and in front of the first point or within 0.1 of it. -/
def NearLine (c : Cfg) (o e : P2) (h : Hit) : Prop :=
  d2 o e ≠ 0 ∧ ((h.x - o.1) * (e.2 - o.2) - (h.y - o.2) * (e.1 - o.1)) ^ 2 < c.line ^ 2 * d2 o e ∧
  (0 ≤ (h.x - o.1) * (e.1 - o.1) + (h.y - o.2) * (e.2 - o.2) ∨ (h.x - o.1) ^ 2 + (h.y - o.2) ^ 2 < 1 / 100)

theorem onLine_iff (c : Cfg) (o e : P2) (h : Hit) : onLine c o e h = true ↔ NearLine c o e h := by
  unfold onLine NearLine
  by_cases hd : d2 o e = 0
  · simp [hd]
  · rw [if_neg hd]
    have hpos : 0 < d2 o e := lt_of_le_of_ne (d2_nonneg o e) (Ne.symm hd)
    dsimp only
    have key : d2 h.pt (o.1 + dotFrom o h.pt e / d2 o e * (e.1 - o.1), o.2 + dotFrom o h.pt e / d2 o e * (e.2 - o.2)) * d2 o e
        = ((h.x - o.1) * (e.2 - o.2) - (h.y - o.2) * (e.1 - o.1)) ^ 2 := by
      have hb : dotFrom o h.pt e / d2 o e * d2 o e = dotFrom o h.pt e := div_mul_cancel₀ _ hd
      generalize dotFrom o h.pt e / d2 o e = b at hb
      unfold dotFrom d2 at hb
      unfold d2
      simp only [Hit.pt] at *
      linear_combination (-2 * (h.x - o.1) * (e.1 - o.1) - 2 * (h.y - o.2) * (e.2 - o.2) + b * ((o.1 - e.1) * (o.1 - e.1) + (o.2 - e.2) * (o.2 - e.2)) + ((h.x - o.1) * (e.1 - o.1) + (h.y - o.2) * (e.2 - o.2))) * hb
    have e2 : (d2 h.pt (o.1 + dotFrom o h.pt e / d2 o e * (e.1 - o.1), o.2 + dotFrom o h.pt e / d2 o e * (e.2 - o.2)) < c.line * c.line)
        ↔ ((h.x - o.1) * (e.2 - o.2) - (h.y - o.2) * (e.1 - o.1)) ^ 2 < c.line ^ 2 * d2 o e := by
      rw [← key, pow_two, mul_lt_mul_iff_left₀ hpos]
    have e3 : d2 h.pt o = (h.x - o.1) ^ 2 + (h.y - o.2) ^ 2 := by unfold d2 Hit.pt; ring
    simp only [Bool.and_eq_true, Bool.or_eq_true, decide_eq_true_eq, ge_iff_le]
    rw [e2, e3]
    unfold dotFrom Hit.pt
    simp only [ne_eq, hd, not_false_eq_true, true_and]

/-- Each hit but the first touches one before it. -/
def Chain (c : Cfg) (seg : List Hit) : Prop := ∀ a h b, seg = a ++ h :: b → a ≠ [] → ∃ s ∈ a, c.touch s h = true

/-- A segment: not empty, each hit but the first touches one before it, the distance from the first does not decrease, and the hits are near one line if there is more than one. -/
structure Segment (c : Cfg) (inp seg : List Hit) : Prop where
  mem : ∀ h ∈ seg, h ∈ inp
  chain : Chain c seg
  order : ∃ h l, seg = h :: l ∧ l.Pairwise fun p q => d2 p.pt h.pt ≤ d2 q.pt h.pt
  line : seg.length = 1 ∨ ∃ o e, ∀ h ∈ seg, NearLine c o e h

theorem grow_chain (c : Cfg) : ∀ (l seg : List Hit), seg ≠ [] → Chain c seg → Chain c (grow c seg l)
  | [], seg, _, h => by unfold grow; exact h
  | x :: l, seg, hne, h => by
    unfold grow
    split
    · rename_i ht
      apply grow_chain c l _ (by simp)
      intro a y b e ha
      rcases List.eq_nil_or_concat b with rfl | ⟨b', z, rfl⟩
      · have := List.append_inj' (s₁ := seg) (t₁ := [x]) (s₂ := a) (t₂ := [y]) e rfl
        obtain ⟨rfl, e2⟩ := this
        simp only [List.cons.injEq, and_true] at e2
        subst e2
        rw [List.any_eq_true] at ht
        exact ht
      · have e' : seg ++ [x] = (a ++ y :: b') ++ [z] := by simpa using e
        have := List.append_inj' e' rfl
        exact h a y b' this.1 ha
    · exact h

theorem arrange_order (center : P2) (cand : List Hit) (hne : cand ≠ []) : ∃ h l, arrange center cand = h :: l ∧ l.Pairwise fun p q => d2 p.pt h.pt ≤ d2 q.pt h.pt := by
  cases cand with
  | nil => simp at hne
  | cons h0 t =>
    have hk : ∃ hk, (h0 :: t)[firstIdx center 0 0 (10 ^ 18) (h0 :: t)]? = some hk := by
      have := firstIdx_lt center (h0 :: t) 0 0 (10 ^ 18) (le_refl _)
      refine ⟨(h0 :: t)[firstIdx center 0 0 (10 ^ 18) (h0 :: t)]'?_, List.getElem?_eq_getElem _⟩
      simp only [List.length_cons] at this ⊢
      omega
    obtain ⟨hk, ek⟩ := hk
    unfold arrange
    dsimp only
    have e0 : (h0 :: t)[0]? = some h0 := rfl
    rw [e0, ek]
    dsimp only
    have hp := swap_perm h0 t _ hk ek
    revert hp
    generalize ((h0 :: t).set _ h0).set 0 hk = l
    intro hp
    cases l with
    | nil => exact absurd hp.symm.eq_nil (by simp)
    | cons a rest =>
      refine ⟨a, _, rfl, ?_⟩
      have : Std.Total (fun p q : Hit => d2 p.pt a.pt ≤ d2 q.pt a.pt) := ⟨fun p q => le_total _ _⟩
      have : IsTrans Hit (fun p q : Hit => d2 p.pt a.pt ≤ d2 q.pt a.pt) := ⟨fun p q r h1 h2 => le_trans h1 h2⟩
      exact List.pairwise_insertionSort (fun p q : Hit => d2 p.pt a.pt ≤ d2 q.pt a.pt) rest

theorem build_segment (c : Cfg) (inp : List Hit) (center e : P2) (hne : (build c inp center e).1 ≠ []) : Segment c inp (build c inp center e).1 := by
  have hsub := build_subperm c inp center e
  have hmem : ∀ h ∈ (build c inp center e).1, h ∈ inp ∧ onLine c center e h = true := fun h hh => List.mem_filter.1 (hsub.subset hh)
  refine ⟨fun h hh => (hmem h hh).1, ?_, ?_, Or.inr ⟨center, e, fun h hh => (onLine_iff c center e h).1 (hmem h hh).2⟩⟩
  · revert hne
    unfold build
    dsimp only
    split
    · simp
    · rename_i h l _
      intro _
      apply grow_chain c l [h] (by simp)
      intro a y b e ha
      cases a with
      | nil => simp at ha
      | cons x a =>
        have := congrArg List.length e
        simp at this
  · have hc : inp.filter (onLine c center e) ≠ [] := by
      intro h0
      rw [h0] at hsub
      exact hne (List.subperm_nil.1 hsub)
    obtain ⟨h, l, ea, hpw⟩ := arrange_order center _ hc
    unfold build
    dsimp only
    rw [ea]
    dsimp only
    have hg := grow_prefix c l [h]
    have hg2 := grow_ge c l [h]
    obtain ⟨t, et⟩ := hg2
    rw [← et] at hg ⊢
    refine ⟨h, t, rfl, ?_⟩
    have : t <+: l := by
      simpa using hg
    exact hpw.sublist this.sublist

theorem Segment.mono {c : Cfg} {inp inp' seg : List Hit} (h : Segment c inp seg) (hs : ∀ x ∈ inp, x ∈ inp') : Segment c inp' seg :=
  ⟨fun x hx => hs x (h.mem x hx), h.chain, h.order, h.line⟩

/-- The segments so far are segments, and the hits left are hits of the cluster. -/
def AllSeg (c : Cfg) (inp0 : List Hit) (st : St) : Prop := (∀ h ∈ st.inp, h ∈ inp0) ∧ ∀ s ∈ st.result, Segment c inp0 s

theorem seedLoop_seg (c : Cfg) (inp0 : List Hit) (center : P2) : ∀ (n : Nat) (seeds : List (List Hit)) (st : St), AllSeg c inp0 st → AllSeg c inp0 (seedLoop c center n seeds st)
  | 0, _, st, h => by unfold seedLoop; exact h
  | n + 1, seeds, st, h => by
    unfold seedLoop
    cases seeds with
    | nil => exact h
    | cons s0 rest =>
      dsimp only
      split
      · exact seedLoop_seg c inp0 center n _ st h
      · rename_i x _
        apply seedLoop_seg c inp0 center n
        have hp := build_perm c st.inp center x.pt
        have hm : ∀ y ∈ (build c st.inp center x.pt).2, y ∈ inp0 := fun y hy => h.1 y (hp.mem_iff.1 (by simp [hy]))
        split
        · exact ⟨hm, h.2⟩
        · rename_i hne
          refine ⟨hm, ?_⟩
          intro s hs
          simp only [List.mem_append, List.mem_singleton] at hs
          rcases hs with hs | rfl
          · exact h.2 s hs
          · exact (build_segment c st.inp center x.pt hne).mono h.1

theorem runOne_seg (c : Cfg) (inp0 : List Hit) (st : St) (h : AllSeg c inp0 st) : AllSeg c inp0 (runOne c st) := by
  unfold runOne
  split
  · exact h
  · split
    · exact h
    · rename_i x e
      split
      · exact h
      · dsimp only
        split
        · exact seedLoop_seg c inp0 x.pt _ _ _ h
        · refine ⟨fun y hy => h.1 y (List.mem_of_mem_erase hy), ?_⟩
          intro s hs
          simp only [List.mem_append, List.mem_singleton] at hs
          rcases hs with hs | rfl
          · exact h.2 s hs
          · refine ⟨?_, ?_, ⟨x, [], rfl, by simp⟩, Or.inl rfl⟩
            · intro y hy
              rw [List.mem_singleton] at hy
              subst hy
              exact h.1 y (closest_spec e).1
            · intro a y b e ha
              cases a with
              | nil => simp at ha
              | cons z a => have := congrArg List.length e; simp at this

theorem inner_seg (c : Cfg) (inp0 : List Hit) : ∀ (n : Nat) (st st' : St), AllSeg c inp0 st → inner c n st = some st' → AllSeg c inp0 st'
  | 0, st, st', h, e => by
    unfold inner at e
    split at e
    · simp at e; subst e; exact h
    · simp at e
  | n + 1, st, st', h, e => by
    unfold inner at e
    split at e
    · simp at e; subst e; exact h
    · exact inner_seg c inp0 n _ _ (runOne_seg c inp0 st h) e

theorem outer_seg (c : Cfg) (inp0 : List Hit) : ∀ (n : Nat) (inp : List Hit) (res : List (List Hit)) (left : List Hit) (segs : List (List Hit)),
    (∀ h ∈ inp, h ∈ inp0) → (∀ s ∈ res, Segment c inp0 s) → outer c n inp res = some (left, segs) → ∀ s ∈ segs, Segment c inp0 s
  | 0, inp, res, left, segs, h1, h2, h => by
    unfold outer at h
    split at h
    · simp at h
    · simp at h; obtain ⟨rfl, rfl⟩ := h; exact h2
  | n + 1, inp, res, left, segs, h1, h2, h => by
    unfold outer at h
    split at h
    · split at h
      · simp at h; obtain ⟨rfl, rfl⟩ := h; exact h2
      · split at h
        · simp at h
        · rename_i st hs
          have := inner_seg c inp0 _ _ _ ⟨h1, h2⟩ hs
          exact outer_seg c inp0 n _ _ _ _ this.1 this.2 h
    · simp at h; obtain ⟨rfl, rfl⟩ := h; exact h2

/-- C412: each segment found is not empty, is made of hits of the cluster, each hit but the first touches one before it, the distance from the first does not decrease, and if there is more than one
hit all are within the given distance of one line, in front of the point from which it was sought. -/
theorem C412_segments (c : Cfg) (n : Nat) (inp left : List Hit) (segs : List (List Hit)) (h : outer c n inp [] = some (left, segs)) : ∀ s ∈ segs, Segment c inp s :=
  outer_seg c inp n inp [] left segs (fun _ h => h) (by simp) h

example : outer exC 5 exH [] = some ([], [[⟨3, 30, 0⟩], [⟨4, 0, 3⟩], [⟨0, 0, 0⟩, ⟨1, 1, 0⟩, ⟨2, 2, 0⟩]]) := by decide +kernel

theorem firstIdx_min (center : P2) : ∀ (l : List Hit) (i b : Nat) (m : ℚ),
    (firstIdx center i b m l = b ∧ ∀ h ∈ l, m ≤ d2 h.pt center) ∨
    (∃ t x, firstIdx center i b m l = i + t ∧ l[t]? = some x ∧ d2 x.pt center < m ∧ ∀ h ∈ l, d2 x.pt center ≤ d2 h.pt center)
  | [], i, b, m => Or.inl ⟨rfl, by simp⟩
  | a :: l, i, b, m => by
    unfold firstIdx
    split
    · rename_i hlt
      right
      rcases firstIdx_min center l (i + 1) i (d2 a.pt center) with ⟨h1, h2⟩ | ⟨t, x, h1, h2, h3, h4⟩
      · exact ⟨0, a, by rw [h1, Nat.add_zero], rfl, hlt, by
          intro h hh
          rcases List.mem_cons.1 hh with rfl | hh
          · exact le_refl _
          · exact h2 h hh⟩
      · exact ⟨t + 1, x, by rw [h1]; omega, by simpa using h2, lt_trans h3 hlt, by
          intro h hh
          rcases List.mem_cons.1 hh with rfl | hh
          · exact le_of_lt h3
          · exact h4 h hh⟩
    · rename_i hlt
      rcases firstIdx_min center l (i + 1) b m with ⟨h1, h2⟩ | ⟨t, x, h1, h2, h3, h4⟩
      · left
        refine ⟨h1, ?_⟩
        intro h hh
        rcases List.mem_cons.1 hh with rfl | hh
        · exact not_lt.1 hlt
        · exact h2 h hh
      · right
        exact ⟨t + 1, x, by rw [h1]; omega, by simpa using h2, h3, by
          intro h hh
          rcases List.mem_cons.1 hh with rfl | hh
          · exact le_of_lt (lt_of_lt_of_le h3 (not_lt.1 hlt))
          · exact h4 h hh⟩

/-- C412: a segment begins with the hit nearest to the point from which it is sought, of those near the line, if one of them is nearer than 10^9. -/
theorem C412_first (c : Cfg) (inp : List Hit) (o e : P2) (s : Hit) (t : List Hit) (h : (build c inp o e).1 = s :: t) (hn : ∃ x ∈ inp, NearLine c o e x ∧ d2 x.pt o < (10 ^ 9) ^ 2) :
    ∀ x ∈ inp, NearLine c o e x → d2 s.pt o ≤ d2 x.pt o := by
  obtain ⟨y, hy1, hy2, hy3⟩ := hn
  have hyc : y ∈ inp.filter (onLine c o e) := List.mem_filter.2 ⟨hy1, (onLine_iff c o e y).2 hy2⟩
  intro x hx hxl
  have hxc : x ∈ inp.filter (onLine c o e) := List.mem_filter.2 ⟨hx, (onLine_iff c o e x).2 hxl⟩
  revert h
  unfold build
  dsimp only
  generalize inp.filter (onLine c o e) = cand at *
  intro h
  rcases firstIdx_min o cand 0 0 (10 ^ 18) with ⟨_, h2⟩ | ⟨k, z, h1, h2, h3, h4⟩
  · have := h2 y hyc
    norm_num at this hy3
    linarith
  · have : d2 z.pt o ≤ d2 x.pt o := h4 x hxc
    cases cand with
    | nil => simp at hxc
    | cons h0 tl =>
      have ea : ∃ l, arrange o (h0 :: tl) = z :: l := by
        unfold arrange
        dsimp only
        rw [h1, Nat.zero_add, h2]
        have e0 : (h0 :: tl)[0]? = some h0 := rfl
        rw [e0]
        dsimp only
        cases k with
        | zero => exact ⟨_, rfl⟩
        | succ k => exact ⟨_, rfl⟩
      obtain ⟨l, ea⟩ := ea
      rw [ea] at h
      dsimp only at h
      obtain ⟨t', et⟩ := grow_ge c l [z]
      rw [← et] at h
      simp only [List.cons_append, List.cons.injEq] at h
      rw [← h.1]
      exact this

example : (build exC exH (30, 0) (0, 0)).1 = [⟨3, 30, 0⟩] ∧ d2 (Hit.pt ⟨3, 30, 0⟩) (30, 0) < (10 ^ 9) ^ 2 := by decide +kernel

end Verif.Seg2D

import Verif.Calo.TrackCaloModel
import Mathlib.Tactic.FieldSimp
import Mathlib.Tactic.NormNum
import Mathlib.Algebra.Order.Field.Rat
/-! # Properties C163, C164: track calorimetry -/
namespace Verif.Calo
open Verif

section
variable {R : Type} [Field R] [LinearOrder R] [IsStrictOrderedRing R]

/-! ## Specification -/

/-- a usable track: some trajectory points, segments of non-negative length that add up to a positive length -/
def Good (t : Trk R) : Prop := ∃ l, t.segs = some l ∧ (∀ x ∈ l, 0 ≤ x) ∧ l.sum = t.length ∧ 0 < t.length

/-- number of trajectory points -/
def npts (t : Trk R) : Nat := match t.segs with | none => 0 | some l => l.length + 1

/-- distance along the track from its first point to point `k` -/
def fromStart (t : Trk R) (k : Nat) : R := ((t.segs.getD []).take k).sum

/-- distance along the track from point `k` to its last point -/
def toEnd (t : Trk R) (k : Nat) : R := ((t.segs.getD []).drop k).sum

/-! ## Lemmas -/

theorem cumul_get (l : List R) (a : R) (k : Nat) (hk : k < l.length) :
    (cumul a l)[k]? = some (a + (l.take (k + 1)).sum) := by
  induction l generalizing a k with
  | nil => simp at hk
  | cons x l ih =>
    cases k with
    | zero => simp [cumul]
    | succ k =>
      simp only [cumul, List.getElem?_cons_succ, List.length_cons] at hk ⊢
      rw [ih (a + x) k (by omega)]
      simp [add_assoc]

theorem cumul_length (l : List R) (a : R) : (cumul a l).length = l.length := by
  induction l generalizing a with
  | nil => rfl
  | cons x l ih => simp [cumul, ih]

theorem fracs_length (t : Trk R) : (fracs t).length = npts t := by
  unfold fracs npts
  cases t.segs with
  | none => rfl
  | some l => simp [cumul_length]

theorem fracs_get (t : Trk R) (k : Nat) (hk : k < npts t) : (fracs t)[k]? = some (fromStart t k / t.length) := by
  unfold npts at hk
  unfold fracs fromStart
  cases h : t.segs with
  | none => simp [h] at hk
  | some l =>
    simp only [h] at hk
    cases k with
    | zero => simp
    | succ k =>
      simp only [List.getElem?_cons_succ, List.getElem?_map, Option.getD_some]
      rw [cumul_get l 0 k (by omega)]
      simp

theorem firstMin_spec (f : Nat → R) (n : Nat) :
    firstMin f n ≤ n ∧ (∀ j, j ≤ n → f (firstMin f n) ≤ f j) ∧ ∀ j, j < firstMin f n → f (firstMin f n) < f j := by
  induction n with
  | zero => refine ⟨le_refl _, ?_, ?_⟩ <;> intro j hj <;> simp [firstMin] at * ; rw [hj]
  | succ n ih =>
    obtain ⟨h1, h2, h3⟩ := ih
    unfold firstMin
    split
    · rename_i hlt
      refine ⟨le_refl _, ?_, ?_⟩
      · intro j hj
        rcases Nat.lt_or_ge j (n + 1) with h | h
        · exact (lt_of_lt_of_le hlt (h2 j (by omega))).le
        · rw [show j = n + 1 by omega]
      · intro j hj
        exact lt_of_lt_of_le hlt (h2 j (by omega))
    · rename_i hlt
      refine ⟨by omega, ?_, h3⟩
      intro j hj
      rcases Nat.lt_or_ge j (n + 1) with h | h
      · exact h2 j (by omega)
      · rw [show j = n + 1 by omega]; exact not_lt.1 hlt

theorem insertProp_perm (x : HitProp R) (l : List (HitProp R)) : (insertProp x l).Perm (x :: l) := by
  induction l with
  | nil => exact List.Perm.refl _
  | cons y l ih =>
    unfold insertProp
    split
    · exact List.Perm.refl _
    · exact (ih.cons y).trans (List.Perm.swap x y l)

theorem insertProp_sorted (x : HitProp R) (l : List (HitProp R)) (h : l.Pairwise (fun a b => a.frac ≤ b.frac)) :
    (insertProp x l).Pairwise (fun a b => a.frac ≤ b.frac) := by
  induction l with
  | nil => simp [insertProp]
  | cons y l ih =>
    unfold insertProp
    rw [List.pairwise_cons] at h
    split
    · rename_i hlt
      rw [List.pairwise_cons, List.pairwise_cons]
      refine ⟨?_, h⟩
      intro b hb
      rcases List.mem_cons.1 hb with rfl | hb
      · exact hlt.le
      · exact hlt.le.trans (h.1 b hb)
    · rename_i hlt
      rw [List.pairwise_cons]
      refine ⟨?_, ih h.2⟩
      intro b hb
      rcases List.mem_cons.1 ((insertProp_perm x l).mem_iff.1 hb) with rfl | hb
      · exact not_lt.1 hlt
      · exact h.1 b hb

/-- what a hit must be given: the first trajectory point of least projected distance, and the quantities that follow -/
def Assigned (E : Env R) (it ip : Nat) (t : Trk R) (h : Nat) (x : HitProp R) : Prop :=
  x.hit = h ∧ x.point < npts t ∧
  (∀ j, j < npts t → E.dist it ip h x.point ≤ E.dist it ip h j) ∧
  (∀ j, j < x.point → E.dist it ip h x.point < E.dist it ip h j) ∧
  x.charge = E.charge h ∧ x.pitch = E.pitch it h x.point ∧ x.dQdx = E.charge h / x.pitch ∧
  x.dEdx = E.dEdx h x.pitch ∧ x.frac = fromStart t x.point / t.length

theorem analyzeHit_spec (E : Env R) (it ip : Nat) (t : Trk R) (h : Nat) (hn : 0 < npts t) :
    ∃ x, analyzeHit E it ip t h = .ok x ∧ Assigned E it ip t h x := by
  obtain ⟨n, hn'⟩ : ∃ n, npts t = n + 1 := ⟨npts t - 1, by omega⟩
  have hl : (fracs t).length = n + 1 := by rw [fracs_length, hn']
  obtain ⟨h1, h2, h3⟩ := firstMin_spec (E.dist it ip h) n
  have hg := fracs_get t (firstMin (E.dist it ip h) n) (by omega)
  refine ⟨⟨h, firstMin (E.dist it ip h) n, E.charge h, E.charge h / E.pitch it h (firstMin (E.dist it ip h) n),
    E.dEdx h (E.pitch it h (firstMin (E.dist it ip h) n)), E.pitch it h (firstMin (E.dist it ip h) n), fromStart t (firstMin (E.dist it ip h) n) / t.length⟩,
    ?_, rfl, ?_, ?_, h3, rfl, rfl, rfl, rfl, rfl⟩
  · unfold analyzeHit
    rw [hl]
    dsimp only
    rw [hg]
  · show firstMin (E.dist it ip h) n < npts t; omega
  · intro j hj; exact h2 j (by omega)

theorem analyzeAll_spec (E : Env R) (it ip : Nat) (t : Trk R) (hn : 0 < npts t) (hs : List Nat)
    (s : List (HitProp R)) (hsort : s.Pairwise (fun a b => a.frac ≤ b.frac)) :
    ∃ s' xs, analyzeAll E it ip t hs s = .ok s' ∧ List.Forall₂ (Assigned E it ip t) hs xs ∧
      s'.Perm (xs ++ s) ∧ s'.Pairwise (fun a b => a.frac ≤ b.frac) := by
  induction hs generalizing s with
  | nil => exact ⟨s, [], rfl, .nil, List.Perm.refl _, hsort⟩
  | cons h hs ih =>
    obtain ⟨x, hx, ha⟩ := analyzeHit_spec E it ip t h hn
    obtain ⟨s', xs, h1, h2, h3, h4⟩ := ih (insertProp x s) (insertProp_sorted x s hsort)
    refine ⟨s', x :: xs, ?_, .cons ha h2, ?_, h4⟩
    · unfold analyzeAll
      rw [hx]; exact h1
    · refine h3.trans (((insertProp_perm x s).append_left xs).trans ?_)
      exact List.perm_middle

theorem chargeLoop_sum (N : Nat) (l : List (HitProp R)) (c : Nat) (acc : R) (hc : c < N) :
    chargeLoop N l c acc = acc + ((l.take (N - c)).map (·.charge)).sum := by
  induction l generalizing c acc with
  | nil => simp [chargeLoop]
  | cons x l ih =>
    unfold chargeLoop
    split
    · rename_i h
      have : N - c = 1 := by omega
      simp [this]
    · rename_i h
      rw [ih (c + 1) _ (by omega)]
      have : N - c = (N - (c + 1)) + 1 := by omega
      rw [this, List.take_succ_cons]
      simp [add_assoc]

theorem foldl_ke (rows : List (Row R)) (a : R) :
    rows.foldl (fun ke r => ke + r.src.dEdx * r.src.pitch) a = a + (rows.map (fun r => r.src.dEdx * r.src.pitch)).sum := by
  induction rows generalizing a with
  | nil => simp
  | cons r l ih => simp [ih, add_assoc]

theorem sortHits_spec (E : Env R) (np : Nat) (hs : List Nat) (acc : List (List Nat)) (hl : acc.length = np)
    (h : ∀ i ∈ hs, E.plane i < np) :
    ∃ r, sortHits E hs acc = .ok r ∧ r.length = np ∧
      ∀ p, p < np → (r[p]?).getD [] = (acc[p]?).getD [] ++ hs.filter (fun i => E.plane i == p) := by
  induction hs generalizing acc with
  | nil => exact ⟨acc, rfl, hl, by simp⟩
  | cons i hs ih =>
    have hi : E.plane i < acc.length := by rw [hl]; exact h i (by simp)
    unfold sortHits
    rw [List.getElem?_eq_getElem hi]
    dsimp only
    obtain ⟨r, h1, h2, h3⟩ := ih (acc.set (E.plane i) (acc[E.plane i] ++ [i])) (by simpa using hl)
      (fun j hj => h j (by simp [hj]))
    refine ⟨r, h1, h2, ?_⟩
    intro p hp
    rw [h3 p hp]
    by_cases he : E.plane i = p
    · subst he
      rw [List.getElem?_set_self hi, List.getElem?_eq_getElem hi]
      simp
    · rw [List.getElem?_set_ne he]
      simp [he]

/-! ## What one object must be -/

/-- **Specification of one object**: for track `it` and plane `ip`, one row per hit of the track on that plane
(`xs`, with the trajectory point nearest in projection), kinetic energy the sum of dE/dx times pitch. -/
structure ObjectFor (E : Env R) (t : Trk R) (it ip : Nat) (hits : List Nat) (o : Calo R) : Prop where
  track : o.track = it
  plane : o.plane = ip
  range : o.range = t.length
  rows : ∃ xs, List.Forall₂ (Assigned E it ip t) (hits.filter (fun h => E.plane h == ip)) xs ∧ (o.rows.map (·.src)).Perm xs
  kinetic : o.kinetic = (o.rows.map (fun r => r.src.dEdx * r.src.pitch)).sum

/-- **Specification of residual ranges**: all rows measure the distance along the trajectory to the *same* end of the
track, in non-decreasing order. -/
def RangesFrom (d : Nat → R) (o : Calo R) : Prop :=
  (∀ r ∈ o.rows, r.resRange = d r.src.point) ∧ (o.rows.map (·.resRange)).Pairwise (· ≤ ·)

theorem fromStart_add_toEnd (t : Trk R) (hg : Good t) (k : Nat) : fromStart t k + toEnd t k = t.length := by
  obtain ⟨l, hl, _, hs, _⟩ := hg
  unfold fromStart toEnd
  rw [hl, Option.getD_some, ← List.sum_append, List.take_append_drop, hs]

theorem makeCalo_ranges (N : Nat) (t : Trk R) (hg : Good t) (it ip : Nat) (s : List (HitProp R))
    (hfr : ∀ x ∈ s, x.frac = fromStart t x.point / t.length) (hs : s.Pairwise (fun a b => a.frac ≤ b.frac)) :
    (isInverted N s = true → RangesFrom (fromStart t) (makeCalo N t it ip s)) ∧
    (isInverted N s = false → RangesFrom (toEnd t) (makeCalo N t it ip s)) := by
  obtain ⟨_, _, _, _, hpos⟩ := id hg
  constructor
  · intro hi
    unfold makeCalo RangesFrom
    simp only [hi, if_true]
    constructor
    · intro r hr
      simp only [List.mem_map] at hr
      obtain ⟨x, hx, rfl⟩ := hr
      simp only [hfr x hx]
      field_simp
    · rw [List.map_map, List.pairwise_map]
      exact hs.imp (fun h => mul_le_mul_of_nonneg_right h hpos.le)
  · intro hi
    unfold makeCalo RangesFrom
    simp only [hi, Bool.false_eq_true, if_false]
    constructor
    · intro r hr
      simp only [List.mem_map, List.mem_reverse] at hr
      obtain ⟨x, hx, rfl⟩ := hr
      have := fromStart_add_toEnd t hg x.point
      simp only [hfr x hx]
      rw [sub_mul, one_mul, div_mul_cancel₀ _ hpos.ne']
      linarith
    · rw [List.map_map, List.pairwise_map, List.pairwise_reverse]
      exact hs.imp (fun h => mul_le_mul_of_nonneg_right (by linarith) hpos.le)

/-! ## Property theorems -/

theorem planeLoop_spec (E : Env R) (N : Nat) (t : Trk R) (hn : 0 < npts t) (it : Nat) (hits : List Nat)
    (byPlane : List (List Nat)) (np : Nat)
    (hb : ∀ p, p < np → (byPlane[p]?).getD [] = hits.filter (fun i => E.plane i == p))
    (ips : List Nat) (hips : ∀ p ∈ ips, p < np) (out : List (Calo R)) :
    ∃ objs, planeLoop E N t it byPlane ips out = .ok (out ++ objs) ∧
      List.Forall₂ (fun ip o => ∃ s xs, o = makeCalo N t it ip s ∧
        List.Forall₂ (Assigned E it ip t) (hits.filter (fun h => E.plane h == ip)) xs ∧ s.Perm xs ∧
        s.Pairwise (fun a b => a.frac ≤ b.frac)) ips objs := by
  induction ips generalizing out with
  | nil => exact ⟨[], by simp [planeLoop], .nil⟩
  | cons ip ips ih =>
    obtain ⟨s, xs, h1, h2, h3, h4⟩ := analyzeAll_spec E it ip t hn ((byPlane[ip]?).getD []) [] (by simp)
    obtain ⟨objs, h5, h6⟩ := ih (fun p hp => hips p (by simp [hp])) (out ++ [makeCalo N t it ip s])
    refine ⟨makeCalo N t it ip s :: objs, ?_, .cons ⟨s, xs, rfl, ?_, by simpa using h3, h4⟩ h6⟩
    · unfold planeLoop
      rw [h1, Res.bind_ok, h5]
      simp
    · rw [← hb ip (hips ip (by simp))]; exact h2

theorem trackLoop_spec (E : Env R) (N np : Nat) (hitsOf : Nat → List Nat) (ts : List (Trk R)) (it : Nat)
    (hn : ∀ t ∈ ts, 0 < npts t) (hp : ∀ i, i < ts.length → ∀ h ∈ hitsOf (it + i), E.plane h < np) (out : List (Calo R)) :
    ∃ blocks : List (List (Calo R)), trackLoop E N np hitsOf ts it out = .ok (out ++ blocks.flatten) ∧
      blocks.length = ts.length ∧
      ∀ (i : Nat) (t : Trk R) (b : List (Calo R)), ts[i]? = some t → blocks[i]? = some b →
        List.Forall₂ (fun ip o => ∃ s xs, o = makeCalo N t (it + i) ip s ∧
          List.Forall₂ (Assigned E (it + i) ip t) ((hitsOf (it + i)).filter (fun h => E.plane h == ip)) xs ∧ s.Perm xs ∧
          s.Pairwise (fun a b => a.frac ≤ b.frac)) (List.range np) b := by
  induction ts generalizing it out with
  | nil => exact ⟨[], by simp [trackLoop], rfl, by simp⟩
  | cons t ts ih =>
    obtain ⟨r, h1, h2, h3⟩ := sortHits_spec E np (hitsOf it) (List.replicate np []) (by simp)
      (fun h hh => by simpa using hp 0 (by simp) h (by simpa using hh))
    obtain ⟨objs, h4, h5⟩ := planeLoop_spec E N t (hn t (by simp)) it (hitsOf it) r np
      (by
        intro p hp'
        rw [h3 p hp']
        simp [hp'])
      (List.range np) (by simp) out
    obtain ⟨blocks, h6, h7, h8⟩ := ih (it + 1) (fun t ht => hn t (by simp [ht]))
      (fun i hi h hh => hp (i + 1) (by simp; omega) h (by rwa [show it + (i + 1) = it + 1 + i by omega])) (out ++ objs)
    refine ⟨objs :: blocks, ?_, by simp [h7], ?_⟩
    · unfold trackLoop
      rw [h1, Res.bind_ok, h4, Res.bind_ok, h6]
      simp
    · intro i t' b ht hb
      cases i with
      | zero =>
        simp at ht hb
        subst ht hb
        simpa using h5
      | succ i =>
        simp only [List.getElem?_cons_succ] at ht hb
        have := h8 i t' b ht hb
        rwa [show it + 1 + i = it + (i + 1) by omega] at this

/-- **C163** For all tracks with trajectory points and hits on existing planes: `ExtractCalorimetry` appends exactly one
object per (track, plane), tracks outermost, associated with that track; it has exactly one row per hit of the
track on that plane, each hit being given the (first) trajectory point nearest to it in projection, and its kinetic
energy is the sum over rows of dE/dx times pitch. -/
theorem C163_one_object_per_track_and_plane (E : Env R) (N np : Nat) (ts : List (Trk R)) (hitsOf : Nat → List Nat)
    (out : List (Calo R)) (hn : ∀ t ∈ ts, 0 < npts t)
    (hp : ∀ i, i < ts.length → ∀ h ∈ hitsOf i, E.plane h < np) :
    ∃ blocks : List (List (Calo R)), extract E N np ts hitsOf out = .ok (out ++ blocks.flatten) ∧
      blocks.length = ts.length ∧
      ∀ (i : Nat) (t : Trk R) (b : List (Calo R)), ts[i]? = some t → blocks[i]? = some b →
        b.length = np ∧ ∀ (ip : Nat) (o : Calo R), b[ip]? = some o → ObjectFor E t i ip (hitsOf i) o := by
  obtain ⟨blocks, h1, h2, h3⟩ := trackLoop_spec E N np hitsOf ts 0 hn (by simpa using hp) out
  refine ⟨blocks, h1, h2, ?_⟩
  intro i t b ht hb
  have h := h3 i t b ht hb
  simp only [Nat.zero_add] at h
  refine ⟨by simpa using h.length_eq.symm, ?_⟩
  intro ip o ho
  obtain ⟨hlt, rfl⟩ := List.getElem?_eq_some_iff.1 ho
  have hlt' : ip < (List.range np).length := by rw [h.length_eq]; exact hlt
  have := h.get hlt' hlt
  simp only [List.get_eq_getElem, List.getElem_range] at this
  obtain ⟨s, xs, e, ha, hperm, hsort⟩ := this
  rw [e]
  refine ⟨rfl, rfl, rfl, ⟨xs, ha, ?_⟩, ?_⟩
  · simp only [makeCalo]
    split
    · simpa [List.map_map, Function.comp_def] using hperm
    · rw [List.map_map]
      simp only [Function.comp_def, List.map_id']
      exact (List.reverse_perm s).trans hperm
  · simp only [makeCalo]
    rw [foldl_ke]
    simp

/-- **C164** For every usable track: in each object the residual ranges of all rows are distances along the trajectory
to one and the same end of the track, in non-decreasing order, between 0 and the track length. If the object has
more than `N ≥ 1` rows, that end is the one with the larger charge: the first `N` rows carry at least as much charge
as the last `N`; with `N` rows or fewer it is the last trajectory point. -/
theorem C164_residual_range (E : Env R) (N np : Nat) (ts : List (Trk R)) (hitsOf : Nat → List Nat)
    (hg : ∀ t ∈ ts, Good t) (hp : ∀ i, i < ts.length → ∀ h ∈ hitsOf i, E.plane h < np) (out : List (Calo R)) :
    ∃ objs, extract E N np ts hitsOf out = .ok (out ++ objs) ∧
      ∀ o ∈ objs, ∃ t, ts[o.track]? = some t ∧
        (RangesFrom (fromStart t) o ∨ RangesFrom (toEnd t) o) ∧
        (∀ r ∈ o.rows, 0 ≤ r.resRange ∧ r.resRange ≤ t.length) ∧
        (0 < N → N < o.rows.length →
          ((o.rows.reverse.take N).map (·.src.charge)).sum ≤ ((o.rows.take N).map (·.src.charge)).sum) ∧
        (o.rows.length ≤ N → RangesFrom (toEnd t) o) := by
  have hn : ∀ t ∈ ts, 0 < npts t := by
    intro t ht
    obtain ⟨l, hl, _⟩ := hg t ht
    simp [npts, hl]
  obtain ⟨blocks, h1, h2, h3⟩ := trackLoop_spec E N np hitsOf ts 0 hn (by simpa using hp) out
  refine ⟨blocks.flatten, h1, ?_⟩
  intro o ho
  obtain ⟨b, hb, hob⟩ := List.mem_flatten.1 ho
  obtain ⟨i, hi, rfl⟩ := List.getElem_of_mem hb
  obtain ⟨ip, hip, rfl⟩ := List.getElem_of_mem hob
  have hti : i < ts.length := by omega
  have h := h3 i ts[i] blocks[i] (List.getElem?_eq_getElem hti) (List.getElem?_eq_getElem hi)
  simp only [Nat.zero_add] at h
  have hlt' : ip < (List.range np).length := by rw [h.length_eq]; exact hip
  have := h.get hlt' hip
  simp only [List.get_eq_getElem, List.getElem_range] at this
  obtain ⟨s, xs, e, ha, hperm, hsort⟩ := this
  rw [e]
  have hgt := hg _ (List.getElem_mem hti)
  have hfr : ∀ x ∈ s, x.frac = fromStart ts[i] x.point / (ts[i]).length := by
    intro x hx
    obtain ⟨j, hj, rfl⟩ := List.getElem_of_mem (hperm.mem_iff.1 hx)
    have := ha.get (by rw [ha.length_eq]; exact hj) hj
    exact this.2.2.2.2.2.2.2.2
  obtain ⟨hr1, hr2⟩ := makeCalo_ranges N ts[i] hgt i ip s hfr hsort
  have hor : RangesFrom (fromStart ts[i]) (makeCalo N ts[i] i ip s) ∨ RangesFrom (toEnd ts[i]) (makeCalo N ts[i] i ip s) := by
    cases hinv : isInverted N s
    · exact .inr (hr2 hinv)
    · exact .inl (hr1 hinv)
  have hnn : ∀ k, 0 ≤ fromStart ts[i] k ∧ 0 ≤ toEnd ts[i] k := by
    obtain ⟨l, hl, hnn, _⟩ := id hgt
    intro k
    unfold fromStart toEnd
    rw [hl, Option.getD_some]
    exact ⟨List.sum_nonneg (fun x hx => hnn x (List.mem_of_mem_take hx)),
      List.sum_nonneg (fun x hx => hnn x (List.mem_of_mem_drop hx))⟩
  have hrl : (makeCalo N ts[i] i ip s).rows.length = s.length := by
    simp only [makeCalo]; split <;> simp
  refine ⟨ts[i], List.getElem?_eq_getElem hti, hor, ?_, ?_, ?_⟩
  · intro r hr
    have hsum := fromStart_add_toEnd ts[i] hgt r.src.point
    have := hnn r.src.point
    rcases hor with h | h
    · rw [h.1 r hr]; constructor <;> linarith
    · rw [h.1 r hr]; constructor <;> linarith
  · intro hN hlen
    rw [hrl] at hlen
    have hc := chargeLoop_sum N s 0 0 hN
    have hc' := chargeLoop_sum N s.reverse 0 0 hN
    simp only [zero_add, Nat.sub_zero] at hc hc'
    cases hinv : isInverted N s
    · simp only [makeCalo, hinv, Bool.false_eq_true, if_false]
      unfold isInverted at hinv
      rw [if_neg (by omega)] at hinv
      simp only [decide_eq_false_iff_not, not_lt] at hinv
      rw [hc, hc'] at hinv
      rw [← List.map_reverse, List.reverse_reverse, ← List.map_take, ← List.map_take, List.map_map, List.map_map]
      exact hinv
    · simp only [makeCalo, hinv, if_true]
      unfold isInverted at hinv
      rw [if_neg (by omega)] at hinv
      simp only [decide_eq_true_eq] at hinv
      rw [hc, hc'] at hinv
      rw [← List.map_reverse, ← List.map_take, ← List.map_take, List.map_map, List.map_map]
      exact hinv.le
  · intro hlen
    rw [hrl] at hlen
    exact hr2 (by unfold isInverted; rw [if_pos hlen])

/-- **C163** (edge) A track without trajectory points that has a hit makes the algorithm read beyond the end of the
path fractions: undefined behaviour. -/
theorem C163_no_points_undefined (E : Env R) (it ip h : Nat) (len : R) :
    analyzeHit E it ip ⟨none, len⟩ h = .ub := rfl

end

/-! ## Concrete case -/

/-- two planes; hits 0,1,2,3 on plane 0 nearest to points 0,1,1,2 with charges 9,5,4,1; hit 4 on plane 1 -/
def demoEnv : Env Rat :=
  { plane := fun h => if h = 4 then 1 else 0
    charge := fun h => ((([9, 5, 4, 1, 7] : List Nat)[h]?).getD 0 : Nat)
    dist := fun _ _ h j => let p := ((([0, 1, 1, 2, 2] : List Nat)[h]?).getD 0); if j = p then 0 else 1
    pitch := fun _ _ _ => 2
    dEdx := fun h _ => (h : Rat) }

def demoTrk : Trk Rat := ⟨some [3, 5], 8⟩

example : Good demoTrk := ⟨[3, 5], rfl, by decide, by decide +kernel, by decide +kernel⟩

/-- more charge at the start: rows start at the first point (residual range 0) -/
example : ((extract demoEnv 1 2 [demoTrk] (fun _ => [3, 1, 0, 2, 4]) []).getD []).map
      (fun o => (o.track, o.plane, o.rows.map (fun r => (r.src.hit, r.resRange)))) =
    [(0, 0, [(0, 0), (1, 3), (2, 3), (3, 8)]), (0, 1, [(4, 0)])] := by decide +kernel

end Verif.Calo

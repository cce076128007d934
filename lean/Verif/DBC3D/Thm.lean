import Verif.DBC3D.Model
import Mathlib.Tactic.Linarith
import Mathlib.Tactic.NormNum
import Mathlib.Tactic.Ring
import Mathlib.Tactic.FieldSimp
import Mathlib.Data.List.Induction
import Mathlib.Data.Rat.Defs
import Mathlib.Algebra.Order.Field.Basic

namespace Verif.DBC3D

/-! ### Lists of lists filled by a key -/

theorem fold_key {α β : Type} (key : α → Option ℕ) (val : α → β) (xs : List α) (init : List (List β)) (k : ℕ) :
    (xs.foldl (fun s x => match key x with
      | none => s
      | some c => s.modify c (fun l => l ++ [val x])) init)[k]? =
    (init[k]?).map (fun l => l ++ xs.filterMap (fun x => if key x = some k then some (val x) else none)) := by
  induction xs generalizing init with
  | nil => simp
  | cons x xs ih =>
    rw [List.foldl_cons, ih]
    cases h : key x with
    | none => simp [h]
    | some c =>
      dsimp only
      rw [List.getElem?_modify]
      by_cases hc : c = k
      · subst hc
        simp only [if_true, h, List.filterMap_cons]
        cases init[c]? <;> simp
      · have h2 : ¬ (some c = some k) := by simpa using hc
        simp only [hc, if_false, h, h2, List.filterMap_cons]
        cases init[k]? <;> simp

/-! ### The number of slices -/

theorem max_fold (pts : List Pt) (b : Option ℤ) :
    ∃ m, pts.foldl maxStep b = m ∧
      (∀ c, b = some c → ∃ d, m = some d ∧ c ≤ d) ∧ (∀ p ∈ pts, ∃ d, m = some d ∧ p.cid ≤ d) ∧
      (∀ d, m = some d → b = some d ∨ ∃ p ∈ pts, p.cid = d) := by
  induction pts generalizing b with
  | nil => exact ⟨b, rfl, fun c h => ⟨c, h, le_refl _⟩, by simp, fun d h => Or.inl h⟩
  | cons p pts ih =>
    rw [List.foldl_cons]
    generalize hb' : maxStep b p = b'
    obtain ⟨m, e, h1, h2, h3⟩ := ih b'
    have hb1 : ∃ d, b' = some d ∧ p.cid ≤ d ∧ (∀ c, b = some c → c ≤ d) ∧ (d = p.cid ∨ b = some d) := by
      cases b with
      | none => exact ⟨p.cid, hb'.symm, le_refl _, by simp, Or.inl rfl⟩
      | some c =>
        unfold maxStep at hb'
        dsimp only at hb'
        by_cases hc : p.cid > c
        · rw [if_pos hc] at hb'
          exact ⟨p.cid, hb'.symm, le_refl _, fun c' h' => by simp at h'; omega, Or.inl rfl⟩
        · rw [if_neg hc] at hb'
          exact ⟨c, hb'.symm, not_lt.1 hc, fun c' h' => by simp at h'; omega, Or.inr rfl⟩
    obtain ⟨d, e1, e2, e3, e4⟩ := hb1
    obtain ⟨d2, f1, f2⟩ := h1 d e1
    refine ⟨m, e, fun c hc => ⟨d2, f1, le_trans (e3 c hc) f2⟩, fun q hq => ?_, fun d' hd' => ?_⟩
    · rcases List.mem_cons.1 hq with rfl | hq
      · exact ⟨d2, f1, le_trans e2 f2⟩
      · exact h2 q hq
    · rcases h3 d' hd' with h | ⟨q, hq, h⟩
      · rw [e1] at h
        simp only [Option.some.injEq] at h
        subst h
        rcases e4 with h | h
        · exact Or.inr ⟨p, by simp, h.symm⟩
        · exact Or.inl h
      · exact Or.inr ⟨q, by simp [hq], h⟩

theorem nslc_lt (pts : List Pt) (p : Pt) (hp : p ∈ pts) (h : 0 ≤ p.cid) : p.cid.toNat < nslc pts := by
  obtain ⟨m, e, _, h2, _⟩ := max_fold pts none
  obtain ⟨d, hd, hle⟩ := h2 p hp
  unfold nslc
  rw [e, hd]
  dsimp only
  rw [if_pos (by omega)]
  omega

/-- The number of slices is one more than the largest cluster number. -/
theorem nslc_least (pts : List Pt) (h : nslc pts ≠ 0) : ∃ p ∈ pts, p.cid = nslc pts - 1 := by
  obtain ⟨m, e, _, _, h3⟩ := max_fold pts none
  unfold nslc at h ⊢
  rw [e] at h ⊢
  cases m with
  | none => simp at h
  | some d =>
    dsimp only at h ⊢
    by_cases hd : d ≥ 0
    · rw [if_pos hd]
      rcases h3 d rfl with h' | ⟨p, hp, h'⟩
      · simp at h'
      · exact ⟨p, hp, by omega⟩
    · rw [if_neg hd] at h; simp at h

/-! ### Specification of the hits -/

/-- The slice that the first space point of a hit is in. -/
def InSlice (pts : List Pt) (h : Hit) (c : ℕ) : Prop :=
  ∃ s r p, h.sps = s :: r ∧ pts[s]? = some p ∧ p.cid = c

theorem own_iff (pts : List Pt) (h : Hit) (c : ℕ) : own pts h = some c ↔ InSlice pts h c := by
  unfold own InSlice
  cases h.sps with
  | nil => simp
  | cons s r =>
    dsimp only
    cases hp : pts[s]? with
    | none =>
      constructor
      · intro h; simp at h
      · rintro ⟨s', r', p, e, hp', _⟩
        simp only [List.cons.injEq] at e
        rw [← e.1, hp] at hp'; simp at hp'
    | some p =>
      dsimp only
      constructor
      · intro h
        by_cases hc : p.cid ≥ 0
        · rw [if_pos hc] at h
          simp only [Option.some.injEq] at h
          exact ⟨s, r, p, rfl, hp, by omega⟩
        · rw [if_neg hc] at h; simp at h
      · rintro ⟨s', r', p', e, hp', hc⟩
        simp only [List.cons.injEq] at e
        rw [← e.1, hp] at hp'
        simp only [Option.some.injEq] at hp'
        subst hp'
        rw [if_pos (by omega)]
        simp [hc]

theorem own_lt {pts : List Pt} {h : Hit} {c : ℕ} (e : own pts h = some c) : c < nslc pts := by
  obtain ⟨s, r, p, _, hp, hc⟩ := (own_iff pts h c).1 e
  have := nslc_lt pts p (List.mem_of_getElem? hp) (by omega)
  omega

/-- The hits with their slice, in order: what `hitmap` has. -/
def ownMap (pts : List Pt) (hits : List Hit) : List (Hit × ℕ) :=
  hits.filterMap (fun h => (own pts h).map (fun c => (h, c)))

theorem step1_fold (pts : List Pt) (l : List (Hit × ℕ)) (s : List (List ℕ)) (m : List (Hit × ℕ)) :
    l.foldl (step1 pts) (s, m) =
      (l.foldl (fun s x => match own pts x.1 with
        | none => s
        | some c => s.modify c (fun l => l ++ [x.2])) s,
       m ++ l.filterMap (fun x => (own pts x.1).map (fun c => (x.1, c)))) := by
  induction l generalizing s m with
  | nil => simp
  | cons x l ih =>
    rw [List.foldl_cons, List.foldl_cons]
    have e : step1 pts (s, m) x = match own pts x.1 with
      | none => (s, m)
      | some c => (s.modify c (fun l => l ++ [x.2]), m ++ [(x.1, c)]) := rfl
    rw [e]
    cases h : own pts x.1 with
    | none => dsimp only; rw [ih]; simp [h]
    | some c => dsimp only; rw [ih]; simp [h]

/-- The slice of a hit without one of its own: that of the closest hit, if it is close enough. -/
def near (m : ℚ) (map : List (Hit × ℕ)) (h : Hit) : Option ℕ :=
  match closest h map with
  | none => none
  | some (d, c) => if d < m then some c else none

def key2 (pts : List Pt) (m : ℚ) (map : List (Hit × ℕ)) (x : Hit × ℕ) : Option ℕ :=
  if (own pts x.1).isSome then none else near m map x.1

theorem any_iff (slc : List (List ℕ)) (i : ℕ) :
    slc.any (fun l => l.contains i) = true ↔ ∃ (k : ℕ) (l : List ℕ), slc[k]? = some l ∧ i ∈ l := by
  rw [List.any_eq_true]
  constructor
  · rintro ⟨l, hl, hi⟩
    obtain ⟨k, hk⟩ := List.mem_iff_getElem?.1 hl
    exact ⟨k, l, hk, by simpa using hi⟩
  · rintro ⟨k, l, hk, hi⟩
    exact ⟨l, List.mem_of_getElem? hk, by simpa using hi⟩

theorem step2_fold (pts : List Pt) (m : ℚ) (map : List (Hit × ℕ)) (l : List (Hit × ℕ)) (slc : List (List ℕ))
    (hn : (l.map (·.2)).Nodup)
    (hi : ∀ x ∈ l, slc.any (fun l => l.contains x.2) = (own pts x.1).isSome) :
    l.foldl (step2 m map) slc = l.foldl (fun s x => match key2 pts m map x with
        | none => s
        | some c => s.modify c (fun l => l ++ [x.2])) slc := by
  induction l generalizing slc with
  | nil => rfl
  | cons x l ih =>
    rw [List.foldl_cons, List.foldl_cons]
    rw [List.map_cons, List.nodup_cons] at hn
    have hx := hi x (by simp)
    have e : step2 m map slc x = match key2 pts m map x with
        | none => slc
        | some c => slc.modify c (fun l => l ++ [x.2]) := by
      unfold step2 key2 near
      rw [hx]
      cases h : (own pts x.1).isSome with
      | true => simp
      | false =>
        simp only [Bool.false_eq_true, if_false]
        cases closest x.1 map with
        | none => rfl
        | some d =>
          obtain ⟨d, c⟩ := d
          dsimp only
          by_cases hd : d < m
          · simp [hd]
          · simp [hd]
    rw [e]
    apply ih _ hn.2
    intro y hy
    rw [← hi y (by simp [hy])]
    cases hk : key2 pts m map x with
    | none => rfl
    | some c =>
      dsimp only
      have hne : y.2 ≠ x.2 := fun hh => hn.1 (hh ▸ List.mem_map_of_mem hy)
      rw [Bool.eq_iff_iff, any_iff, any_iff]
      constructor
      · rintro ⟨k, l', h1, h2⟩
        rw [List.getElem?_modify] at h1
        cases hs : slc[k]? with
        | none => rw [hs] at h1; simp at h1
        | some l0 =>
          rw [hs] at h1
          refine ⟨k, l0, hs, ?_⟩
          by_cases hc : c = k
          · simp only [hc, if_true, Option.map_eq_map, Option.map_some, Option.some.injEq] at h1
            subst h1
            simpa [hne] using h2
          · simp only [hc, if_false, Option.map_eq_map, Option.map_some, Option.some.injEq, id] at h1
            subst h1; exact h2
      · rintro ⟨k, l0, h1, h2⟩
        refine ⟨k, if c = k then l0 ++ [x.2] else l0, ?_, ?_⟩
        · rw [List.getElem?_modify, h1]
          by_cases hc : c = k <;> simp [hc]
        · by_cases hc : c = k <;> simp [hc, h2]

/-- The hits of slice `k`: first those with a place there, then those that are close to one of these. -/
theorem slcHits_get (hits : List Hit) (pts : List Pt) (m : ℚ) (k : ℕ) (hk : k < nslc pts) :
    (slcHits hits pts m)[k]? = some (
      hits.zipIdx.filterMap (fun x => if own pts x.1 = some k then some x.2 else none) ++
      hits.zipIdx.filterMap (fun x => if own pts x.1 = none ∧ near m (ownMap pts hits) x.1 = some k
        then some x.2 else none)) := by
  unfold slcHits
  rw [step1_fold]
  dsimp only
  have hmap : ([] : List (Hit × ℕ)) ++ hits.zipIdx.filterMap (fun x => (own pts x.1).map (fun c => (x.1, c)))
      = ownMap pts hits := by
    rw [List.nil_append]
    unfold ownMap
    have : hits = hits.zipIdx.map (·.1) := by simp
    conv_rhs => rw [this]
    rw [List.filterMap_map]
    rfl
  rw [hmap]
  have e1 : ∀ k, (hits.zipIdx.foldl (fun (s : List (List ℕ)) x => match own pts x.1 with
        | none => s
        | some c => s.modify c (fun l => l ++ [x.2])) (List.replicate (nslc pts) []))[k]? =
      if k < nslc pts then
        some (hits.zipIdx.filterMap (fun x => if own pts x.1 = some k then some x.2 else none)) else none := by
    intro k
    rw [fold_key (fun x : Hit × ℕ => own pts x.1) (fun x : Hit × ℕ => x.2)]
    rw [List.getElem?_replicate]
    by_cases hk : k < nslc pts
    · rw [if_pos hk, if_pos hk]; simp
    · rw [if_neg hk, if_neg hk]; simp
  rw [step2_fold pts m]
  · rw [fold_key (fun x : Hit × ℕ => key2 pts m (ownMap pts hits) x) (fun x : Hit × ℕ => x.2), e1, if_pos hk]
    simp only [Option.map_some, Option.some.injEq, List.append_cancel_left_eq]
    apply List.filterMap_congr
    intro x _
    unfold key2
    cases own pts x.1 <;> simp
  · simp [List.nodup_range']
  · intro x hx
    rw [Bool.eq_iff_iff, any_iff, Option.isSome_iff_exists]
    constructor
    · rintro ⟨k, l, h1, h2⟩
      rw [e1] at h1
      by_cases hk : k < nslc pts
      · rw [if_pos hk] at h1
        simp only [Option.some.injEq] at h1
        subst h1
        rw [List.mem_filterMap] at h2
        obtain ⟨y, hy, h3⟩ := h2
        by_cases hy2 : own pts y.1 = some k
        · simp only [hy2, if_true, Option.some.injEq] at h3
          refine ⟨k, ?_⟩
          rw [List.mem_zipIdx_iff_getElem?] at hx hy
          rw [h3, hx] at hy
          simp only [Option.some.injEq] at hy
          rw [hy]; exact hy2
        · simp [hy2] at h3
      · rw [if_neg hk] at h1; simp at h1
    · rintro ⟨c, hc⟩
      refine ⟨c, _, by rw [e1, if_pos (own_lt hc)], ?_⟩
      rw [List.mem_filterMap]
      exact ⟨x, hx, by simp [hc]⟩

/-! ### The closest hit -/

def cstep (h : Hit) (b : Option (ℚ × ℕ)) (g : Hit × ℕ) : Option (ℚ × ℕ) :=
  match b with
  | none => some (dis2 h g.1, g.2)
  | some c => if dis2 h g.1 < c.1 then some (dis2 h g.1, g.2) else b

/-- The first of the closest. -/
theorem cfold (h : Hit) (l : List (Hit × ℕ)) :
    (l.foldl (cstep h) none = none ↔ l = []) ∧
    ∀ d c, l.foldl (cstep h) none = some (d, c) →
      ∃ l1 g l2, l = l1 ++ (g, c) :: l2 ∧ d = dis2 h g ∧ (∀ x ∈ l1, d < dis2 h x.1) ∧
        ∀ x ∈ l2, d ≤ dis2 h x.1 := by
  induction l using List.reverseRecOn with
  | nil => simp
  | append_singleton l a ih =>
    rw [List.foldl_append, List.foldl_cons, List.foldl_nil]
    cases e : l.foldl (cstep h) none with
    | none =>
      have hl := ih.1.1 e
      subst hl
      refine ⟨by simp [cstep], fun d c hdc => ?_⟩
      simp only [cstep, Option.some.injEq, Prod.mk.injEq] at hdc
      refine ⟨[], a.1, [], by simp [← hdc.2], hdc.1.symm, by simp, by simp⟩
    | some b =>
      obtain ⟨d0, c0⟩ := b
      obtain ⟨l1, g, l2, h1, h2, h3, h4⟩ := ih.2 d0 c0 e
      by_cases hlt : dis2 h a.1 < d0
      · simp only [cstep, hlt, if_true]
        refine ⟨by simp, fun d c hdc => ?_⟩
        simp only [Option.some.injEq, Prod.mk.injEq] at hdc
        refine ⟨l, a.1, [], by simp [← hdc.2], hdc.1.symm, fun x hx => ?_, by simp⟩
        rw [← hdc.1]
        have : d0 ≤ dis2 h x.1 := by
          rw [h1] at hx
          rcases List.mem_append.1 hx with hx | hx
          · exact le_of_lt (h3 x hx)
          · rcases List.mem_cons.1 hx with rfl | hx
            · exact le_of_eq h2
            · exact h4 x hx
        linarith
      · simp only [cstep, hlt, if_false]
        refine ⟨by simp, fun d c hdc => ?_⟩
        simp only [Option.some.injEq, Prod.mk.injEq] at hdc
        rw [← hdc.1, ← hdc.2]
        refine ⟨l1, g, l2 ++ [a], by rw [h1]; simp, h2, h3, fun x hx => ?_⟩
        rcases List.mem_append.1 hx with hx | hx
        · exact h4 x hx
        · have : x = a := by simpa using hx
          rw [this]; exact not_lt.1 hlt

/-- **C444.** The distance meant: the squares of the differences in wire and in drift position, added. -/
theorem C444_distance (h g : Hit) : dis2 h g = (h.wire - g.wire) ^ 2 + (h.y - g.y) ^ 2 := by
  unfold dis2; ring

/-- Specification: a hit of the same plane with a slice of its own is the closest one to `h`, the first of
those of equal distance, closer than the limit, and in slice `k`. -/
def CloseTo (hits : List Hit) (pts : List Pt) (m : ℚ) (h : Hit) (k : ℕ) : Prop :=
  ∃ (j : ℕ) (g : Hit), hits[j]? = some g ∧ g.plane = h.plane ∧ InSlice pts g k ∧ dis2 h g < m ∧
    ∀ (i : ℕ) (x : Hit) (c : ℕ), hits[i]? = some x → x.plane = h.plane → InSlice pts x c →
      dis2 h g ≤ dis2 h x ∧ (i < j → dis2 h g < dis2 h x)

theorem filter_eq (hits : List Hit) (pts : List Pt) (h : Hit) :
    (ownMap pts hits).filter (fun g => g.1.plane = h.plane) =
      hits.filterMap (fun g => if g.plane = h.plane then (own pts g).map (fun c => (g, c)) else none) := by
  unfold ownMap
  induction hits with
  | nil => rfl
  | cons x l ih =>
    rw [List.filterMap_cons, List.filterMap_cons]
    by_cases hp : x.plane = h.plane
    · cases ho : own pts x with
      | none => simp only [Option.map_none, hp, if_true]; exact ih
      | some c =>
        simp only [Option.map_some, hp, if_true]
        rw [List.filter_cons_of_pos (by simpa using hp), ih]
    · cases ho : own pts x with
      | none => simp only [Option.map_none, hp, if_false]; exact ih
      | some c =>
        simp only [Option.map_some, hp, if_false]
        rw [List.filter_cons_of_neg (by simpa using hp), ih]

theorem near_iff (hits : List Hit) (pts : List Pt) (m : ℚ) (h : Hit) (k : ℕ) :
    near m (ownMap pts hits) h = some k ↔ CloseTo hits pts m h k := by
  have hc : closest h (ownMap pts hits) =
      (hits.filterMap (fun g => if g.plane = h.plane then (own pts g).map (fun c => (g, c)) else none)).foldl
        (cstep h) none := by
    rw [← filter_eq]; rfl
  unfold near
  rw [hc]
  generalize hF : (fun g : Hit => if g.plane = h.plane then (own pts g).map (fun c => (g, c)) else none) = F
  have hFs : ∀ x y c, F x = some (y, c) ↔ x.plane = h.plane ∧ InSlice pts x c ∧ y = x := by
    intro x y c
    rw [← hF]
    dsimp only
    by_cases hp : x.plane = h.plane
    · rw [if_pos hp, ← own_iff]
      cases own pts x <;> simp [hp, eq_comm, and_comm]
    · simp [hp]
  obtain ⟨f1, f2⟩ := cfold h (hits.filterMap F)
  cases e : (hits.filterMap F).foldl (cstep h) none with
  | none =>
    constructor
    · intro hh; simp at hh
    · rintro ⟨j, g, h1, h2, h3, _⟩
      have := f1.1 e
      rw [List.filterMap_eq_nil_iff] at this
      have h4 := this g (List.mem_of_getElem? h1)
      rw [(hFs g g k).2 ⟨h2, h3, rfl⟩] at h4
      simp at h4
  | some b =>
    obtain ⟨d, c⟩ := b
    obtain ⟨l1, g, l2, h1, h2, h3, h4⟩ := f2 d c e
    rw [List.filterMap_eq_append_iff] at h1
    obtain ⟨a1, a2, e1, e2, e3⟩ := h1
    rw [List.filterMap_eq_cons_iff] at e3
    obtain ⟨b1, y, b2, e4, e5, e6, e7⟩ := e3
    obtain ⟨k1, k2, k3⟩ := (hFs y g c).1 e6
    subst k3
    have hj : hits[(a1 ++ b1).length]? = some g := by
      rw [e1, e4, ← List.append_assoc]
      simp
    have hall : ∀ (i : ℕ) (x : Hit) (c' : ℕ), hits[i]? = some x → x.plane = h.plane → InSlice pts x c' →
        dis2 h g ≤ dis2 h x ∧ (i < (a1 ++ b1).length → dis2 h g < dis2 h x) := by
      intro i x c' hi hp hin
      have hFx := (hFs x x c').2 ⟨hp, hin, rfl⟩
      have hbef : i < (a1 ++ b1).length → dis2 h g < dis2 h x := by
        intro hlt
        have hx : x ∈ a1 ++ b1 := by
          rw [e1, e4, ← List.append_assoc, List.getElem?_append_left hlt] at hi
          exact List.mem_of_getElem? hi
        rcases List.mem_append.1 hx with hx | hx
        · have : (x, c') ∈ l1 := by
            rw [← e2, List.mem_filterMap]; exact ⟨x, hx, hFx⟩
          have := h3 _ this
          rw [h2] at this; exact this
        · have := e5 x hx
          rw [hFx] at this; simp at this
      refine ⟨?_, hbef⟩
      by_cases hlt : i < (a1 ++ b1).length
      · exact le_of_lt (hbef hlt)
      · rw [e1, e4, ← List.append_assoc, List.getElem?_append_right (not_lt.1 hlt)] at hi
        have hx := List.mem_of_getElem? hi
        rcases List.mem_cons.1 hx with rfl | hx
        · exact le_refl _
        · have : (x, c') ∈ l2 := by
            rw [← e7, List.mem_filterMap]; exact ⟨x, hx, hFx⟩
          have := h4 _ this
          rw [h2] at this; exact this
    dsimp only
    rw [h2]
    constructor
    · intro hh
      by_cases hd : dis2 h g < m
      · rw [if_pos hd] at hh
        simp only [Option.some.injEq] at hh
        subst hh
        exact ⟨_, g, hj, k1, k2, hd, hall⟩
      · rw [if_neg hd] at hh; simp at hh
    · rintro ⟨j, g', q1, q2, q3, q4, q5⟩
      have r1 := hall j g' k q1 q2 q3
      have r2 := q5 _ g c hj k1 k2
      have hjj : j = (a1 ++ b1).length := by
        rcases lt_trichotomy j (a1 ++ b1).length with hl | hl | hl
        · have := r1.2 hl; have := r2.1; linarith
        · exact hl
        · have := r2.2 hl; have := r1.1; linarith
      rw [hjj, hj] at q1
      simp only [Option.some.injEq] at q1
      subst q1
      rw [if_pos q4]
      obtain ⟨s, r, p, w1, w2, w3⟩ := q3
      obtain ⟨s', r', p', v1, v2, v3⟩ := k2
      rw [w1] at v1
      simp only [List.cons.injEq] at v1
      rw [← v1.1, w2] at v2
      simp only [Option.some.injEq] at v2
      subst v2
      rw [w3] at v3
      simp only [Option.some.injEq]
      omega

/-- **C444**: the hits of slice `k` are those whose first space point is in the slice, in order, and then
those whose first space point is in no slice and that are close to a hit of the first kind. -/
theorem C444_hits (hits : List Hit) (pts : List Pt) (m : ℚ) (k : ℕ) (l : List ℕ)
    (hl : (slcHits hits pts m)[k]? = some l) :
    ∃ a b, l = a ++ b ∧ a.Pairwise (· < ·) ∧ b.Pairwise (· < ·) ∧
      (∀ i, i ∈ a ↔ ∃ h, hits[i]? = some h ∧ InSlice pts h k) ∧
      (∀ i, i ∈ b ↔ ∃ h, hits[i]? = some h ∧ (∀ c, ¬ InSlice pts h c) ∧ CloseTo hits pts m h k) := by
  have hlen : (slcHits hits pts m).length = nslc pts := by
    unfold slcHits
    have a1 : ∀ (l : List (Hit × ℕ)) s, (l.foldl (step1 pts) s).1.length = s.1.length := by
      intro l
      induction l with
      | nil => intro s; rfl
      | cons x l ih =>
        intro s
        rw [List.foldl_cons, ih]
        unfold step1
        cases own pts x.1 <;> simp
    have a2 : ∀ (mp : List (Hit × ℕ)) (l : List (Hit × ℕ)) s, (l.foldl (step2 m mp) s).length = s.length := by
      intro mp l
      induction l with
      | nil => intro s; rfl
      | cons x l ih =>
        intro s
        rw [List.foldl_cons, ih]
        unfold step2
        split
        · rfl
        · split
          · rfl
          · split <;> simp
    dsimp only
    rw [a2, a1]; simp
  have hk : k < nslc pts := by
    rw [← hlen]
    exact (List.getElem?_eq_some_iff.1 hl).1
  rw [slcHits_get hits pts m k hk] at hl
  simp only [Option.some.injEq] at hl
  have hord : ∀ (P : Hit → Prop) [DecidablePred P] (l : List Hit) (n : ℕ),
      ((l.zipIdx n).filterMap (fun x => if P x.1 then some x.2 else none)).Pairwise (· < ·) ∧
      ∀ i ∈ (l.zipIdx n).filterMap (fun x => if P x.1 then some x.2 else none), n ≤ i := by
    intro P _ l
    induction l with
    | nil => intro n; simp
    | cons x l ih =>
      intro n
      obtain ⟨i1, i2⟩ := ih (n + 1)
      rw [List.zipIdx_cons, List.filterMap_cons]
      by_cases hp : P x
      · simp only [hp, if_true]
        refine ⟨List.pairwise_cons.2 ⟨fun a ha => ?_, i1⟩, fun i hi => ?_⟩
        · have := i2 a ha; omega
        · rcases List.mem_cons.1 hi with rfl | hi
          · exact le_refl _
          · have := i2 i hi; omega
      · simp only [hp, if_false]
        exact ⟨i1, fun i hi => by have := i2 i hi; omega⟩
  have hmem : ∀ (P : Hit → Prop) [DecidablePred P] (i : ℕ),
      i ∈ hits.zipIdx.filterMap (fun x => if P x.1 then some x.2 else none) ↔
        ∃ h, hits[i]? = some h ∧ P h := by
    intro P _ i
    rw [List.mem_filterMap]
    constructor
    · rintro ⟨x, hx, h⟩
      rw [List.mem_zipIdx_iff_getElem?] at hx
      by_cases hp : P x.1
      · simp only [hp, if_true, Option.some.injEq] at h
        subst h; exact ⟨x.1, hx, hp⟩
      · simp [hp] at h
    · rintro ⟨h, hi, hp⟩
      exact ⟨(h, i), by rw [List.mem_zipIdx_iff_getElem?]; exact hi, by simp [hp]⟩
  refine ⟨_, _, hl.symm, (hord (fun h => own pts h = some k) hits 0).1,
    (hord (fun h => own pts h = none ∧ near m (ownMap pts hits) h = some k) hits 0).1, fun i => ?_, fun i => ?_⟩
  · rw [hmem (fun h => own pts h = some k)]
    simp only [own_iff]
  · rw [hmem (fun h => own pts h = none ∧ near m (ownMap pts hits) h = some k)]
    have hn : ∀ h, own pts h = none ↔ ∀ c, ¬ InSlice pts h c := by
      intro h
      rw [Option.eq_none_iff_forall_ne_some]
      exact forall_congr' (fun c => not_congr (own_iff pts h c))
    simp only [hn, near_iff]

end Verif.DBC3D

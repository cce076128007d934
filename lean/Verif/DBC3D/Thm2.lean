import Verif.DBC3D.Thm
import Mathlib.Data.List.Nodup

namespace Verif.DBC3D

/-- **C445**: no hit is in two slices, and each hit whose first space point is in a slice is in this one. -/
theorem C445_disjoint (hits : List Hit) (pts : List Pt) (m : ℚ) :
    (slcHits hits pts m).flatten.Nodup ∧
    ∀ (i : ℕ) (h : Hit) (k : ℕ), hits[i]? = some h → InSlice pts h k →
      ∃ l, (slcHits hits pts m)[k]? = some l ∧ i ∈ l := by
  have inj : ∀ h k k', InSlice pts h k → InSlice pts h k' → k = k' := by
    intro h k k' h1 h2
    rw [← own_iff] at h1 h2
    rw [h1] at h2; simpa using h2
  have injC : ∀ h k k', CloseTo hits pts m h k → CloseTo hits pts m h k' → k = k' := by
    intro h k k' h1 h2
    rw [← near_iff] at h1 h2
    rw [h1] at h2; simpa using h2
  constructor
  · rw [List.nodup_flatten]
    constructor
    · intro l hl
      obtain ⟨k, hk⟩ := List.mem_iff_getElem?.1 hl
      obtain ⟨a, b, e, h1, h2, h3, h4⟩ := C444_hits hits pts m k l hk
      subst e
      rw [List.nodup_append]
      refine ⟨h1.imp (fun h => ne_of_lt h), h2.imp (fun h => ne_of_lt h), fun i hi j hj hij => ?_⟩
      subst hij
      obtain ⟨h, e1, e2⟩ := (h3 i).1 hi
      obtain ⟨h', e3, e4, _⟩ := (h4 i).1 hj
      rw [e1] at e3
      simp only [Option.some.injEq] at e3
      subst e3
      exact e4 k e2
    · rw [List.pairwise_iff_getElem]
      intro k k' hk hk' hlt
      intro i hi hi'
      obtain ⟨a, b, e, h1, h2, h3, h4⟩ := C444_hits hits pts m k _ (List.getElem?_eq_getElem hk)
      obtain ⟨a', b', e', h1', h2', h3', h4'⟩ := C444_hits hits pts m k' _ (List.getElem?_eq_getElem hk')
      rw [e] at hi
      rw [e'] at hi'
      have hne : k ≠ k' := by omega
      rcases List.mem_append.1 hi with q | q <;> rcases List.mem_append.1 hi' with q' | q'
      · obtain ⟨h, w1, w2⟩ := (h3 i).1 q
        obtain ⟨h', v1, v2⟩ := (h3' i).1 q'
        rw [w1] at v1; simp only [Option.some.injEq] at v1; subst v1
        exact hne (inj _ _ _ w2 v2)
      · obtain ⟨h, w1, w2⟩ := (h3 i).1 q
        obtain ⟨h', v1, v2, _⟩ := (h4' i).1 q'
        rw [w1] at v1; simp only [Option.some.injEq] at v1; subst v1
        exact v2 _ w2
      · obtain ⟨h, w1, w2, _⟩ := (h4 i).1 q
        obtain ⟨h', v1, v2⟩ := (h3' i).1 q'
        rw [w1] at v1; simp only [Option.some.injEq] at v1; subst v1
        exact w2 _ v2
      · obtain ⟨h, w1, _, w2⟩ := (h4 i).1 q
        obtain ⟨h', v1, _, v2⟩ := (h4' i).1 q'
        rw [w1] at v1; simp only [Option.some.injEq] at v1; subst v1
        exact hne (injC _ _ _ w2 v2)
  · intro i h k hi hk
    have hlt := own_lt ((own_iff pts h k).2 hk)
    have hg := slcHits_get hits pts m k hlt
    obtain ⟨a, b, e, h1, h2, h3, h4⟩ := C444_hits hits pts m k _ hg
    exact ⟨_, hg, by rw [e]; exact List.mem_append_left _ ((h3 i).2 ⟨h, hi, hk⟩)⟩

/-! ### Space points -/

theorem slcSps_get (pts : List Pt) (k : ℕ) :
    (slcSps pts)[k]? = if k < nslc pts then some
      (pts.zipIdx.filterMap (fun p => if p.1.cid = (k : ℤ) then some (p.1.pos, p.2) else none)) else none := by
  unfold slcSps
  have e : (fun (l : List (List (V3 × ℕ))) (p : Pt × ℕ) =>
      if p.1.cid ≥ 0 then l.modify p.1.cid.toNat (fun k => k ++ [(p.1.pos, p.2)]) else l) =
      (fun l p => match (if p.1.cid ≥ 0 then some p.1.cid.toNat else none : Option ℕ) with
        | none => l
        | some c => l.modify c (fun k => k ++ [(p.1.pos, p.2)])) := by
    funext l p
    by_cases h : p.1.cid ≥ 0
    · rw [if_pos h, if_pos h]
    · rw [if_neg h, if_neg h]
  rw [e]
  refine (fold_key (fun p : Pt × ℕ => if p.1.cid ≥ 0 then some p.1.cid.toNat else none)
    (fun p : Pt × ℕ => (p.1.pos, p.2)) pts.zipIdx (List.replicate (nslc pts) []) k).trans ?_
  rw [List.getElem?_replicate]
  by_cases hk : k < nslc pts
  · rw [if_pos hk, if_pos hk]
    simp only [Option.map_some, List.nil_append, Option.some.injEq]
    apply List.filterMap_congr
    intro x _
    by_cases h : x.1.cid ≥ 0
    · have : (x.1.cid.toNat = k) ↔ x.1.cid = k := by omega
      simp [h, this]
    · have : ¬ x.1.cid = k := by omega
      simp [h, this]
  · rw [if_neg hk, if_neg hk]; rfl

/-- **C446**: the space points of slice `k` are exactly those of cluster `k`, in order; there is a slice for
each cluster number of a space point. -/
theorem C446_points (pts : List Pt) (k : ℕ) :
    (∀ l, (slcSps pts)[k]? = some l →
      l = pts.zipIdx.filterMap (fun p => if p.1.cid = (k : ℤ) then some (p.1.pos, p.2) else none)) ∧
    ((∃ p ∈ pts, p.cid = k) → ∃ l, (slcSps pts)[k]? = some l ∧ l ≠ []) := by
  rw [slcSps_get]
  constructor
  · intro l hl
    by_cases hk : k < nslc pts
    · rw [if_pos hk] at hl; simpa using hl.symm
    · rw [if_neg hk] at hl; simp at hl
  · rintro ⟨p, hp, hc⟩
    have := nslc_lt pts p hp (by omega)
    have hk : k < nslc pts := by omega
    refine ⟨_, by rw [if_pos hk], fun h => ?_⟩
    rw [List.filterMap_eq_nil_iff] at h
    obtain ⟨i, hi⟩ := List.mem_iff_getElem?.1 hp
    have := h (p, i) (by rw [List.mem_zipIdx_iff_getElem?]; exact hi)
    simp [hc] at this

/-! ### Fit -/

/-- The sum of a quantity over the points. -/
def S (g : V3 → ℚ) (l : List V3) : ℚ := (l.map g).sum

theorem S_cons (g : V3 → ℚ) (p : V3) (l : List V3) : S g (p :: l) = g p + S g l := by simp [S]

theorem centre_eq (l : List V3) :
    centre l = ⟨S (·.x) l / l.length, S (·.y) l / l.length, S (·.z) l / l.length⟩ := by
  have e : ∀ (l : List V3) (c : V3), l.foldl (fun (c : V3) p => (⟨c.x + p.x, c.y + p.y, c.z + p.z⟩ : V3)) c =
      ⟨c.x + S (·.x) l, c.y + S (·.y) l, c.z + S (·.z) l⟩ := by
    intro l
    induction l with
    | nil => intro c; simp [S]
    | cons p l ih =>
      intro c
      rw [List.foldl_cons, ih]
      simp only [S_cons, V3.mk.injEq]
      refine ⟨by ring, by ring, by ring⟩
  unfold centre
  rw [e]
  simp

theorem fitSums_eq (c : V3) (l : List V3) :
    fitSums c l = (S (fun p => p.x - c.x) l, S (fun p => p.y - c.y) l, S (fun p => p.z - c.z) l,
      S (fun p => (p.x - c.x) * (p.x - c.x)) l, S (fun p => (p.x - c.x) * (p.y - c.y)) l,
      S (fun p => (p.x - c.x) * (p.z - c.z)) l) := by
  have e : ∀ (l : List V3) (s : ℚ × ℚ × ℚ × ℚ × ℚ × ℚ), l.foldl (fun s p =>
      (s.1 + (p.x - c.x), s.2.1 + (p.y - c.y), s.2.2.1 + (p.z - c.z),
        s.2.2.2.1 + (p.x - c.x) * (p.x - c.x), s.2.2.2.2.1 + (p.x - c.x) * (p.y - c.y),
      s.2.2.2.2.2 + (p.x - c.x) * (p.z - c.z))) s =
      (s.1 + S (fun p => p.x - c.x) l, s.2.1 + S (fun p => p.y - c.y) l, s.2.2.1 + S (fun p => p.z - c.z) l,
        s.2.2.2.1 + S (fun p => (p.x - c.x) * (p.x - c.x)) l,
        s.2.2.2.2.1 + S (fun p => (p.x - c.x) * (p.y - c.y)) l,
        s.2.2.2.2.2 + S (fun p => (p.x - c.x) * (p.z - c.z)) l) := by
    intro l
    induction l with
    | nil => intro s; simp [S]
    | cons p l ih =>
      intro s
      rw [List.foldl_cons, ih]
      simp only [S_cons, Prod.mk.injEq]
      refine ⟨by ring, by ring, by ring, by ring, by ring, by ring⟩
  unfold fitSums
  rw [e]
  simp

theorem S_sub (g : V3 → ℚ) (a : ℚ) (l : List V3) : S (fun p => g p - a) l = S g l - l.length * a := by
  induction l with
  | nil => simp [S]
  | cons p l ih => rw [S_cons, S_cons, ih]; push_cast [List.length_cons]; ring

theorem S_centred (g : V3 → ℚ) (l : List V3) (hl : l ≠ []) :
    S (fun p => g p - S g l / l.length) l = 0 := by
  rw [S_sub]
  have : (l.length : ℚ) ≠ 0 := by
    have := List.length_pos_of_ne_nil hl
    exact_mod_cast (by omega : l.length ≠ 0)
  field_simp
  ring

theorem S_sq_nonneg (g : V3 → ℚ) (l : List V3) : 0 ≤ S (fun p => g p * g p) l := by
  induction l with
  | nil => simp [S]
  | cons p l ih => rw [S_cons]; nlinarith [mul_self_nonneg (g p)]

theorem S_sq_zero (g : V3 → ℚ) (l : List V3) (h : S (fun p => g p * g p) l ≤ 0) : ∀ p ∈ l, g p = 0 := by
  induction l with
  | nil => simp
  | cons p l ih =>
    rw [S_cons] at h
    have h1 := mul_self_nonneg (g p)
    have h2 := S_sq_nonneg g l
    intro q hq
    rcases List.mem_cons.1 hq with rfl | hq
    · exact mul_self_eq_zero.1 (by linarith)
    · exact ih (by linarith) q hq

theorem delta_eq (l : List V3) (hl : l ≠ []) :
    delta (centre l) l = l.length * S (fun p => (p.x - (centre l).x) * (p.x - (centre l).x)) l := by
  unfold delta
  rw [fitSums_eq]
  dsimp only
  have : S (fun p => p.x - (centre l).x) l = 0 := by
    rw [centre_eq]; exact S_centred (·.x) l hl
  rw [this]; ring

/-- The fit is made exactly if two points differ in x. -/
theorem delta_pos (l : List V3) : 0 < delta (centre l) l ↔ ∃ p ∈ l, ∃ q ∈ l, p.x ≠ q.x := by
  by_cases hl : l = []
  · subst hl
    simp [delta, fitSums]
  · rw [delta_eq l hl]
    have hlen : (0 : ℚ) < l.length := by
      have := List.length_pos_of_ne_nil hl
      exact_mod_cast this
    constructor
    · intro h
      by_contra hc
      push Not at hc
      obtain ⟨p0, hp0⟩ := List.exists_mem_of_ne_nil l hl
      have hconst : ∀ p ∈ l, p.x - (centre l).x = p0.x - (centre l).x := fun p hp => by
        rw [hc p hp p0 hp0]
      have hz : S (fun p => p.x - (centre l).x) l = 0 := by
        rw [centre_eq]; exact S_centred (·.x) l hl
      have hS : ∀ (l' : List V3), (∀ p ∈ l', p.x - (centre l).x = p0.x - (centre l).x) →
          S (fun p => p.x - (centre l).x) l' = l'.length * (p0.x - (centre l).x) ∧
          S (fun p => (p.x - (centre l).x) * (p.x - (centre l).x)) l' =
            l'.length * ((p0.x - (centre l).x) * (p0.x - (centre l).x)) := by
        intro l'
        induction l' with
        | nil => intro _; simp [S]
        | cons p l' ih =>
          intro hp
          obtain ⟨i1, i2⟩ := ih (fun q hq => hp q (by simp [hq]))
          rw [S_cons, S_cons, i1, i2, hp p (by simp)]
          push_cast [List.length_cons]
          constructor <;> ring
      obtain ⟨s1, s2⟩ := hS l hconst
      rw [hz] at s1
      have : p0.x - (centre l).x = 0 := by
        rcases mul_eq_zero.1 s1.symm with h' | h'
        · linarith
        · exact h'
      rw [s2, this] at h
      simp at h
    · rintro ⟨p, hp, q, hq, hne⟩
      by_contra hc
      have h0 : S (fun p => (p.x - (centre l).x) * (p.x - (centre l).x)) l ≤ 0 := by
        by_contra h'
        exact hc (mul_pos hlen (not_le.1 h'))
      have := S_sq_zero (fun p => p.x - (centre l).x) l h0
      have h1 := this p hp
      have h2 := this q hq
      apply hne; linarith

theorem estep_spec (c : V3) (d : ℚ × ℚ) (l : List V3) :
    (ends c d l = none ↔ l = []) ∧
    ∀ a e, ends c d l = some (a, e) → a ∈ l ∧ e ∈ l ∧ ∀ p ∈ l, along c d a ≤ along c d p ∧
      along c d p ≤ along c d e := by
  unfold ends
  induction l using List.reverseRecOn with
  | nil => simp
  | append_singleton l p ih =>
    rw [List.foldl_append, List.foldl_cons, List.foldl_nil]
    generalize List.foldl _ none l = b at *
    cases b with
    | none =>
      have := ih.1.1 rfl
      subst this
      refine ⟨by simp, fun a e h => ?_⟩
      simp only [Option.some.injEq, Prod.mk.injEq] at h
      rw [← h.1, ← h.2]
      refine ⟨by simp, by simp, fun q hq => ?_⟩
      have : q = p := by simpa using hq
      rw [this]; exact ⟨le_refl _, le_refl _⟩
    | some b =>
      obtain ⟨a0, e0⟩ := b
      obtain ⟨h1, h2, h3⟩ := ih.2 a0 e0 rfl
      refine ⟨by simp, fun a e h => ?_⟩
      dsimp only at h
      simp only [Option.some.injEq, Prod.mk.injEq] at h
      obtain ⟨ha, he⟩ := h
      have ka : a ∈ l ++ [p] ∧ along c d a ≤ along c d a0 ∧ along c d a ≤ along c d p := by
        by_cases hc : along c d p < along c d a0
        · rw [if_pos hc] at ha; subst ha; exact ⟨by simp, le_of_lt hc, le_refl _⟩
        · rw [if_neg hc] at ha; subst ha; exact ⟨by simp [h1], le_refl _, not_lt.1 hc⟩
      have ke : e ∈ l ++ [p] ∧ along c d e0 ≤ along c d e ∧ along c d p ≤ along c d e := by
        by_cases hc : along c d p > along c d e0
        · rw [if_pos hc] at he; subst he; exact ⟨by simp, le_of_lt hc, le_refl _⟩
        · rw [if_neg hc] at he; subst he; exact ⟨by simp [h2], le_refl _, not_lt.1 hc⟩
      refine ⟨ka.1, ke.1, fun q hq => ?_⟩
      rcases List.mem_append.1 hq with hq | hq
      · exact ⟨le_trans ka.2.1 (h3 q hq).1, le_trans (h3 q hq).2 ke.2.1⟩
      · have : q = p := by simpa using hq
        rw [this]; exact ⟨ka.2.2, ke.2.2⟩

/-- A slice that is written. -/
theorem row_spec (isl : ℕ) (hs : List ℕ) (sps : List (V3 × ℕ)) :
    ((row isl hs sps).isSome ↔ ∃ p ∈ sps, ∃ q ∈ sps, p.1.x ≠ q.1.x) ∧
    ∀ r, row isl hs sps = some r →
      r.id = isl + 1 ∧ r.hits = hs ∧ r.sps = sps.map (·.2) ∧ r.charge = hs.length ∧
      r.centre = centre (sps.map (·.1)) ∧ r.slopes = slopes r.centre (sps.map (·.1)) ∧
      r.e0 ∈ sps.map (·.1) ∧ r.e1 ∈ sps.map (·.1) ∧ ∀ p ∈ sps.map (·.1),
        along r.centre r.slopes r.e0 ≤ along r.centre r.slopes p ∧
        along r.centre r.slopes p ≤ along r.centre r.slopes r.e1 := by
  have hd : (∃ p ∈ sps, ∃ q ∈ sps, p.1.x ≠ q.1.x) ↔ 0 < delta (centre (sps.map (·.1))) (sps.map (·.1)) := by
    rw [delta_pos]
    simp
  rw [hd]
  unfold row
  dsimp only
  generalize hl : sps.map (·.1) = l
  by_cases h : delta (centre l) l ≤ 0
  · rw [if_pos h]
    simp [h]
  · rw [if_neg h]
    obtain ⟨e1, e2⟩ := estep_spec (centre l) (slopes (centre l) l) l
    cases he : ends (centre l) (slopes (centre l) l) l with
    | none =>
      exfalso
      have := e1.1 he
      subst this
      apply h
      simp [delta, fitSums]
    | some b =>
      obtain ⟨a, e⟩ := b
      refine ⟨by simp [not_le.1 h], fun r hr => ?_⟩
      simp only [Option.some.injEq] at hr
      subst hr
      obtain ⟨k1, k2, k3⟩ := e2 a e he
      exact ⟨rfl, rfl, rfl, rfl, rfl, rfl, k1, k2, k3⟩

/-- The space points of cluster `k` with their keys, in order. -/
def cluster (pts : List Pt) (k : ℕ) : List (V3 × ℕ) :=
  pts.zipIdx.filterMap (fun p => if p.1.cid = (k : ℤ) then some (p.1.pos, p.2) else none)

theorem lens (hits : List Hit) (pts : List Pt) (m : ℚ) : (slcHits hits pts m).length = nslc pts := by
  apply le_antisymm
  · by_contra hc
    have hlt : nslc pts < (slcHits hits pts m).length := not_le.1 hc
    have a1 : ∀ (l : List (Hit × ℕ)) s, (l.foldl (step1 pts) s).1.length = s.1.length := by
      intro l
      induction l with
      | nil => intro s; rfl
      | cons x l ih =>
        intro s
        rw [List.foldl_cons, ih]
        unfold step1
        cases own pts x.1 <;> simp
    have a2 : ∀ (mp : List (Hit × ℕ)) (l : List (Hit × ℕ)) s, (l.foldl (step2 m mp) s).length = s.length := by
      intro mp l
      induction l with
      | nil => intro s; rfl
      | cons x l ih =>
        intro s
        rw [List.foldl_cons, ih]
        unfold step2
        split
        · rfl
        · split
          · rfl
          · split <;> simp
    unfold slcHits at hlt
    dsimp only at hlt
    rw [a2, a1] at hlt
    simp at hlt
  · by_contra hc
    have hlt : (slcHits hits pts m).length < nslc pts := not_le.1 hc
    have := slcHits_get hits pts m _ hlt
    rw [List.getElem?_eq_none (le_refl _)] at this
    simp at this

theorem produce_mem (hits : List Hit) (pts : List Pt) (m : ℚ) (r : Row) :
    r ∈ produce hits pts m ↔ ∃ (k : ℕ) (hs : List ℕ), (slcHits hits pts m)[k]? = some hs ∧
      row k hs (cluster pts k) = some r := by
  unfold produce
  rw [List.mem_filterMap]
  constructor
  · rintro ⟨⟨⟨hs, sp⟩, k⟩, hx, hr⟩
    rw [List.mem_zipIdx_iff_getElem?] at hx
    rw [List.getElem?_zip_eq_some] at hx
    dsimp only at hx hr
    refine ⟨k, hs, hx.1, ?_⟩
    rw [← hr]
    have := (C446_points pts k).1 sp hx.2
    rw [this]; rfl
  · rintro ⟨k, hs, h1, h2⟩
    have hk : k < nslc pts := by
      rw [← lens hits pts m]; exact (List.getElem?_eq_some_iff.1 h1).1
    refine ⟨((hs, cluster pts k), k), ?_, h2⟩
    rw [List.mem_zipIdx_iff_getElem?, List.getElem?_zip_eq_some]
    exact ⟨h1, by rw [slcSps_get, if_pos hk]; rfl⟩

/-- **C447**: the slices that are written are exactly those of the clusters in which two space points differ
in x, in ascending order, each with the number of the cluster plus 1. -/
theorem C447_written_partial (hits : List Hit) (pts : List Pt) (m : ℚ) :
    (∀ n, (∃ r ∈ produce hits pts m, r.id = n) ↔
      ∃ p ∈ pts, ∃ q ∈ pts, p.cid + 1 = n ∧ q.cid + 1 = n ∧ n ≠ 0 ∧ p.pos.x ≠ q.pos.x) ∧
    (produce hits pts m).Pairwise (fun a b => a.id < b.id) := by
  constructor
  · intro n
    have hcl : ∀ k : ℕ, (∃ p ∈ cluster pts k, ∃ q ∈ cluster pts k, p.1.x ≠ q.1.x) ↔
        ∃ p ∈ pts, ∃ q ∈ pts, p.cid = k ∧ q.cid = k ∧ p.pos.x ≠ q.pos.x := by
      intro k
      have hm : ∀ v : V3, (∃ i, (v, i) ∈ cluster pts k) ↔ ∃ p ∈ pts, p.cid = k ∧ p.pos = v := by
        intro v
        unfold cluster
        constructor
        · rintro ⟨i, hi⟩
          rw [List.mem_filterMap] at hi
          obtain ⟨x, hx, h⟩ := hi
          by_cases hc : x.1.cid = k
          · simp only [hc, if_true, Option.some.injEq, Prod.mk.injEq] at h
            rw [List.mem_zipIdx_iff_getElem?] at hx
            exact ⟨x.1, List.mem_of_getElem? hx, hc, h.1⟩
          · simp [hc] at h
        · rintro ⟨p, hp, hc, hv⟩
          obtain ⟨i, hi⟩ := List.mem_iff_getElem?.1 hp
          refine ⟨i, ?_⟩
          rw [List.mem_filterMap]
          exact ⟨(p, i), by rw [List.mem_zipIdx_iff_getElem?]; exact hi, by simp [hc, hv]⟩
      constructor
      · rintro ⟨⟨v, i⟩, hv, ⟨w, j⟩, hw, hne⟩
        obtain ⟨p, hp, h1, h2⟩ := (hm v).1 ⟨i, hv⟩
        obtain ⟨q, hq, h3, h4⟩ := (hm w).1 ⟨j, hw⟩
        exact ⟨p, hp, q, hq, h1, h3, by rw [h2, h4]; exact hne⟩
      · rintro ⟨p, hp, q, hq, h1, h2, hne⟩
        obtain ⟨i, hi⟩ := (hm p.pos).2 ⟨p, hp, h1, rfl⟩
        obtain ⟨j, hj⟩ := (hm q.pos).2 ⟨q, hq, h2, rfl⟩
        exact ⟨_, hi, _, hj, hne⟩
    constructor
    · rintro ⟨r, hr, hn⟩
      obtain ⟨k, hs, h1, h2⟩ := (produce_mem hits pts m r).1 hr
      obtain ⟨r1, r2⟩ := row_spec k hs (cluster pts k)
      have hid := (r2 r h2).1
      have := (hcl k).1 (r1.1 (by rw [h2]; rfl))
      obtain ⟨p, hp, q, hq, e1, e2, e3⟩ := this
      exact ⟨p, hp, q, hq, by omega, by omega, by omega, e3⟩
    · rintro ⟨p, hp, q, hq, e1, e2, e3, e4⟩
      have hp' : p.cid = ((n - 1 : ℕ) : ℤ) := by omega
      have hk : n - 1 < nslc pts := by
        have := nslc_lt pts p hp (by omega)
        omega
      have hk' : n - 1 < (slcHits hits pts m).length := by rw [lens]; exact hk
      obtain ⟨r1, r2⟩ := row_spec (n - 1) (slcHits hits pts m)[n - 1] (cluster pts (n - 1))
      have hsome := r1.2 ((hcl (n - 1)).2 ⟨p, hp, q, hq, hp', by omega, e4⟩)
      obtain ⟨r, hr⟩ := Option.isSome_iff_exists.1 hsome
      refine ⟨r, (produce_mem hits pts m r).2 ⟨n - 1, _, List.getElem?_eq_getElem hk', hr⟩, ?_⟩
      have := (r2 r hr).1
      omega
  · unfold produce
    rw [List.pairwise_filterMap]
    rw [List.pairwise_iff_getElem]
    intro i j hi hj hij b hb b' hb'
    simp only [List.getElem_zipIdx, Nat.zero_add] at hb hb'
    have h1 := ((row_spec _ _ _).2 b hb).1
    have h2 := ((row_spec _ _ _).2 b' hb').1
    omega

/-- **C448**: a slice that is written has the hits and the space points of its cluster, its charge is the
number of hits, and its centre is the mean of the space points. -/
theorem C448_content (hits : List Hit) (pts : List Pt) (m : ℚ) (r : Row) (hr : r ∈ produce hits pts m) :
    ∃ k : ℕ, r.id = k + 1 ∧ (slcHits hits pts m)[k]? = some r.hits ∧
      r.sps = (cluster pts k).map (·.2) ∧ r.charge = r.hits.length ∧
      ∃ l, l = (cluster pts k).map (·.1) ∧
      r.centre.x * l.length = S (·.x) l ∧ r.centre.y * l.length = S (·.y) l ∧
      r.centre.z * l.length = S (·.z) l := by
  obtain ⟨k, hs, h1, h2⟩ := (produce_mem hits pts m r).1 hr
  obtain ⟨r1, r2⟩ := row_spec k hs (cluster pts k)
  obtain ⟨e1, e2, e3, e4, e5, _⟩ := r2 r h2
  obtain ⟨p, hp, _⟩ := r1.1 (by rw [h2]; rfl)
  have hl : ((((cluster pts k).map (·.1)).length : ℕ) : ℚ) ≠ 0 := by
    have := List.length_pos_of_mem hp
    rw [List.length_map]
    exact_mod_cast (by omega : (cluster pts k).length ≠ 0)
  refine ⟨k, e1, by rw [e2]; exact h1, e3, by rw [e2]; exact e4, _, rfl, ?_⟩
  rw [e5, centre_eq]
  refine ⟨?_, ?_, ?_⟩ <;> exact div_mul_cancel₀ _ hl

theorem S_quad (a : ℚ) (b : ℚ) (u v : V3 → ℚ) (l : List V3) :
    S (fun p => (v p - a * u p - b) * (v p - a * u p - b)) l =
      S (fun p => v p * v p) l - 2 * a * S (fun p => u p * v p) l + a * a * S (fun p => u p * u p) l
        - 2 * b * S v l + 2 * a * b * S u l + l.length * (b * b) := by
  induction l with
  | nil => simp [S]
  | cons p l ih => simp only [S_cons]; rw [ih]; push_cast [List.length_cons]; ring

theorem least {u v : V3 → ℚ} {l : List V3} (hu : S u l = 0) (hv : S v l = 0)
    (hp : 0 < S (fun p => u p * u p) l) (a b : ℚ) :
    S (fun p => (v p - S (fun p => u p * v p) l / S (fun p => u p * u p) l * u p) *
      (v p - S (fun p => u p * v p) l / S (fun p => u p * u p) l * u p)) l ≤
    S (fun p => (v p - a * u p - b) * (v p - a * u p - b)) l := by
  have h1 := S_quad (S (fun p => u p * v p) l / S (fun p => u p * u p) l) 0 u v l
  simp only [sub_zero] at h1
  rw [h1, S_quad, hu, hv]
  generalize S (fun p => u p * u p) l = A at *
  generalize S (fun p => u p * v p) l = B at *
  have h2 : 0 ≤ (l.length : ℚ) * (b * b) := mul_nonneg (by positivity) (mul_self_nonneg b)
  have h3 : B / A * A = B := div_mul_cancel₀ _ (ne_of_gt hp)
  generalize hq : B / A = q at *
  have h4 : 0 ≤ A * ((a - q) * (a - q)) := mul_nonneg (le_of_lt hp) (mul_self_nonneg _)
  have h5 : B = q * A := h3.symm
  subst h5
  nlinarith

/-- **C449**: the slopes of a slice that is written are those of the lines of least squares through its space
points, `y` against `x` and `z` against `x`; no space point is outside of its ends along this axis. -/
theorem C449_fit (hits : List Hit) (pts : List Pt) (m : ℚ) (r : Row) (hr : r ∈ produce hits pts m) :
    ∃ k l, r.id = k + 1 ∧ l = (cluster pts k).map (·.1) ∧
    (∀ a b, S (fun p => ((p.y - r.centre.y) - r.slopes.1 * (p.x - r.centre.x)) ^ 2) l ≤
      S (fun p => (p.y - a * p.x - b) ^ 2) l) ∧
    (∀ a b, S (fun p => ((p.z - r.centre.z) - r.slopes.2 * (p.x - r.centre.x)) ^ 2) l ≤
      S (fun p => (p.z - a * p.x - b) ^ 2) l) ∧
    r.e0 ∈ l ∧ r.e1 ∈ l ∧ ∀ p ∈ l,
      (r.e0.x - p.x) + (r.e0.y - p.y) * r.slopes.1 + (r.e0.z - p.z) * r.slopes.2 ≤ 0 ∧
      0 ≤ (r.e1.x - p.x) + (r.e1.y - p.y) * r.slopes.1 + (r.e1.z - p.z) * r.slopes.2 := by
  obtain ⟨k, hs, h1, h2⟩ := (produce_mem hits pts m r).1 hr
  obtain ⟨r1, r2⟩ := row_spec k hs (cluster pts k)
  obtain ⟨e1, _, _, _, e5, e6, e7, e8, e9⟩ := r2 r h2
  have hdp : 0 < delta (centre ((cluster pts k).map (·.1))) ((cluster pts k).map (·.1)) := by
    rw [delta_pos]
    have := r1.1 (by rw [h2]; rfl)
    simpa using this
  generalize hl : (cluster pts k).map (·.1) = l at *
  refine ⟨k, l, e1, hl.symm, ?_⟩
  have hne : l ≠ [] := List.ne_nil_of_mem e7
  have hde := delta_eq l hne
  have hlen : (0 : ℚ) < l.length := by
    have := List.length_pos_of_ne_nil hne
    exact_mod_cast this
  rw [← e5] at hde hdp
  have cx : S (fun p => p.x - r.centre.x) l = 0 := by
    rw [e5, centre_eq]; exact S_centred (·.x) l hne
  have cy : S (fun p => p.y - r.centre.y) l = 0 := by
    rw [e5, centre_eq]; exact S_centred (·.y) l hne
  have cz : S (fun p => p.z - r.centre.z) l = 0 := by
    rw [e5, centre_eq]; exact S_centred (·.z) l hne
  have hA : 0 < S (fun p => (p.x - r.centre.x) * (p.x - r.centre.x)) l := by
    rw [hde] at hdp
    by_contra hc
    have := mul_nonpos_of_nonneg_of_nonpos (le_of_lt hlen) (not_lt.1 hc)
    linarith
  have hsl : r.slopes = (S (fun p => (p.x - r.centre.x) * (p.y - r.centre.y)) l /
        S (fun p => (p.x - r.centre.x) * (p.x - r.centre.x)) l,
      S (fun p => (p.x - r.centre.x) * (p.z - r.centre.z)) l /
        S (fun p => (p.x - r.centre.x) * (p.x - r.centre.x)) l) := by
    rw [e6]
    unfold slopes
    rw [hde, fitSums_eq]
    dsimp only
    rw [cx]
    have hl0 := ne_of_gt hlen
    have hA0 := ne_of_gt hA
    generalize S (fun p => (p.x - r.centre.x) * (p.x - r.centre.x)) l = A at *
    simp only [zero_mul, sub_zero, Prod.mk.injEq]
    constructor <;> field_simp
  refine ⟨fun a b => ?_, fun a b => ?_, e7, e8, fun p hp => ?_⟩
  · have := least cx cy hA a (b - r.centre.y + a * r.centre.x)
    rw [hsl]
    simp only [pow_two]
    refine le_trans this (le_of_eq ?_)
    congr 1
    funext p
    ring
  · have := least cx cz hA a (b - r.centre.z + a * r.centre.x)
    rw [hsl]
    simp only [pow_two]
    refine le_trans this (le_of_eq ?_)
    congr 1
    funext p
    ring
  · have := e9 p hp
    unfold along at this
    constructor <;> linarith [this.1, this.2]

/-- **C447**, counterexample: a track in a plane of equal x, three space points of one cluster with hits;
nothing is written. -/
theorem C447_refuted : ∃ (hits : List Hit) (pts : List Pt),
    (∀ p ∈ pts, p.cid = 0) ∧ pts.length = 3 ∧ (slcHits hits pts 1)[0]? = some [0, 1, 2] ∧
    produce hits pts 1 = [] :=
  ⟨[⟨0, 1, 1, [0]⟩, ⟨0, 2, 2, [1]⟩, ⟨0, 3, 3, [2]⟩],
   [⟨⟨5, 0, 0⟩, 0⟩, ⟨⟨5, 10, 20⟩, 0⟩, ⟨⟨5, 20, 40⟩, 0⟩], by decide +kernel, rfl, by decide +kernel,
   by decide +kernel⟩

/-- Two clusters and a space point in none; hit 3 has no space point and is close to hit 0. -/
example : produce
    [⟨0, 1, 1, [0]⟩, ⟨0, 20, 20, [2]⟩, ⟨1, 1, 1, [4]⟩, ⟨0, 2, 1, []⟩, ⟨1, 1, 1, []⟩, ⟨0, 10, 1, []⟩]
    [⟨⟨0, 0, 0⟩, 0⟩, ⟨⟨1, 2, 3⟩, 0⟩, ⟨⟨5, 0, 0⟩, 1⟩, ⟨⟨7, 0, 2⟩, 1⟩, ⟨⟨9, 9, 9⟩, -1⟩] 4 =
    [⟨1, ⟨1 / 2, 1, 3 / 2⟩, (2, 3), ⟨0, 0, 0⟩, ⟨1, 2, 3⟩, 2, [0, 3], [0, 1]⟩,
     ⟨2, ⟨6, 0, 1⟩, (0, 1), ⟨5, 0, 0⟩, ⟨7, 0, 2⟩, 1, [1], [2, 3]⟩] := by decide +kernel

end Verif.DBC3D

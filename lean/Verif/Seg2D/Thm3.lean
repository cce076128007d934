import Verif.Seg2D.Thm2
import Mathlib.Tactic.LinearCombination

namespace Verif.Seg2D
open List (Perm)
open scoped List

/-! ## C406: marks of dense ends -/

/-- Another part than `i` starts or ends nearer than the radius to the point. -/
def CloseTo (c : Cfg) (g : List Part) (i : Nat) (pt : P2) : Prop :=
  ∃ j q, j ≠ i ∧ g[j]? = some q ∧ (d2 q.start pt < c.vtxRadius * c.vtxRadius ∨ d2 q.stop pt < c.vtxRadius * c.vtxRadius)

/-- The parts have the same hits and at least the same marks. -/
def Le (g g' : List Part) : Prop :=
  g'.length = g.length ∧ ∀ (m : Nat) (p p' : Part), g[m]? = some p → g'[m]? = some p' → p'.hits = p.hits ∧ (p.ds = true → p'.ds = true) ∧ (p.de = true → p'.de = true)

theorem Le.refl (g : List Part) : Le g g := ⟨rfl, by intro m p p' h h'; rw [h] at h'; simp at h'; subst h'; exact ⟨rfl, id, id⟩⟩

theorem Le.trans {a b c : List Part} (h : Le a b) (k : Le b c) : Le a c := by
  refine ⟨k.1.trans h.1, ?_⟩
  intro m p p'' hp hp''
  have hlt : m < b.length := by rw [h.1]; exact (List.getElem?_eq_some_iff.1 hp).1
  have e : b[m]? = some b[m] := List.getElem?_eq_getElem hlt
  obtain ⟨h1, h2, h3⟩ := h.2 m p _ hp e
  obtain ⟨k1, k2, k3⟩ := k.2 m _ p'' e hp''
  exact ⟨k1.trans h1, k2 ∘ h2, k3 ∘ h3⟩

theorem Le.get {g g' : List Part} (h : Le g g') {m : Nat} {p' : Part} (e : g'[m]? = some p') : ∃ p, g[m]? = some p ∧ p.hits = p'.hits := by
  have hlt : m < g.length := by rw [← h.1]; exact (List.getElem?_eq_some_iff.1 e).1
  exact ⟨g[m], List.getElem?_eq_getElem hlt, ((h.2 m _ p' (List.getElem?_eq_getElem hlt) e).1).symm⟩

theorem Le.get' {g g' : List Part} (h : Le g g') {m : Nat} {p : Part} (e : g[m]? = some p) : ∃ p', g'[m]? = some p' ∧ p'.hits = p.hits := by
  have hlt : m < g'.length := by rw [h.1]; exact (List.getElem?_eq_some_iff.1 e).1
  exact ⟨g'[m], List.getElem?_eq_getElem hlt, (h.2 m p _ e (List.getElem?_eq_getElem hlt)).1⟩

theorem start_of {p q : Part} (h : p.hits = q.hits) : p.start = q.start := by unfold Part.start; rw [h]
theorem stop_of {p q : Part} (h : p.hits = q.hits) : p.stop = q.stop := by unfold Part.stop; rw [h]

theorem CloseTo.iff {c : Cfg} {g g' : List Part} (h : Le g g') (i : Nat) (pt : P2) : CloseTo c g' i pt ↔ CloseTo c g i pt := by
  constructor
  · rintro ⟨j, q, hj, e, hd⟩
    obtain ⟨p, e', hh⟩ := h.get e
    exact ⟨j, p, hj, e', by rw [start_of hh, stop_of hh]; exact hd⟩
  · rintro ⟨j, q, hj, e, hd⟩
    obtain ⟨p, e', hh⟩ := h.get' e
    exact ⟨j, p, hj, e', by rw [start_of hh, stop_of hh]; exact hd⟩

/-- Each mark is right. -/
def Sound (c : Cfg) (g : List Part) : Prop :=
  ∀ (m : Nat) (p : Part), g[m]? = some p → (p.ds = true → CloseTo c g m p.start) ∧ (p.de = true → CloseTo c g m p.stop)

/-- The marks of `j` that follow from `i` are there. -/
def Done (c : Cfg) (g : List Part) (i j : Nat) : Prop :=
  ∀ pi pj : Part, g[i]? = some pi → g[j]? = some pj →
    ((d2 pj.start pi.start < c.vtxRadius * c.vtxRadius ∨ d2 pj.start pi.stop < c.vtxRadius * c.vtxRadius) → pj.ds = true) ∧
    ((d2 pj.stop pi.start < c.vtxRadius * c.vtxRadius ∨ d2 pj.stop pi.stop < c.vtxRadius * c.vtxRadius) → pj.de = true)

theorem Done.mono {c : Cfg} {g g' : List Part} (h : Le g g') {i j : Nat} (d : Done c g i j) : Done c g' i j := by
  intro pi pj ei ej
  obtain ⟨qi, ei', hi⟩ := h.get ei
  obtain ⟨qj, ej', hj⟩ := h.get ej
  obtain ⟨d1, d2'⟩ := d qi qj ei' ej'
  obtain ⟨_, m1, m2⟩ := h.2 j qj pj ej' ej
  rw [← start_of hi, ← stop_of hi, ← start_of hj, ← stop_of hj]
  exact ⟨m1 ∘ d1, m2 ∘ d2'⟩

theorem set_le (g : List Part) (j : Nat) (pj : Part) (ej : g[j]? = some pj) (a b : Bool) (t e : Bool) :
    Le g (g.set j ⟨pj.hits, t, pj.ds || a, pj.de || b, e⟩) := by
  refine ⟨by simp, ?_⟩
  intro m p p' h h'
  rw [List.getElem?_set] at h'
  split at h'
  · rename_i hm
    subst hm
    rw [ej] at h
    simp only [Option.some.injEq] at h
    subst h
    split at h'
    · simp only [Option.some.injEq] at h'
      subst h'
      exact ⟨rfl, by intro hh; simp [hh], by intro hh; simp [hh]⟩
    · simp at h'
  · rw [h] at h'
    simp at h'
    subst h'
    exact ⟨rfl, id, id⟩

/-- One other part: the marks grow, stay right, and those of the other part are complete. -/
theorem tagOne_ok (c : Cfg) (i : Nat) (st : List Part × Bool × Bool) (j : Nat) (pi : Part) (ei : st.1[i]? = some pi) (hs : Sound c st.1)
    (h1 : st.2.1 = true → CloseTo c st.1 i pi.start) (h2 : st.2.2 = true → CloseTo c st.1 i pi.stop) :
    Le st.1 (tagOne c i st j).1 ∧ Sound c (tagOne c i st j).1 ∧ ((tagOne c i st j).2.1 = true → CloseTo c st.1 i pi.start) ∧ ((tagOne c i st j).2.2 = true → CloseTo c st.1 i pi.stop) ∧
    (i ≠ j → Done c (tagOne c i st j).1 i j) := by
  unfold tagOne
  by_cases hij : i = j
  · rw [if_pos hij]
    exact ⟨Le.refl _, hs, h1, h2, fun h => absurd hij h⟩
  · rw [if_neg hij]
    cases ej : st.1[j]? with
    | none =>
      rw [ei]
      refine ⟨Le.refl _, hs, h1, h2, ?_⟩
      intro _ p q _ e
      rw [ej] at e
      simp at e
    | some pj =>
      rw [ei]
      dsimp only
      have hji : j ≠ i := fun e => hij e.symm
      have hle := set_le st.1 j pj ej ((!pj.ds && decide (d2 pj.start pi.start < c.vtxRadius * c.vtxRadius)) || (!pj.ds && decide (d2 pj.start pi.stop < c.vtxRadius * c.vtxRadius)))
        ((!pj.de && decide (d2 pj.stop pi.start < c.vtxRadius * c.vtxRadius)) || (!pj.de && decide (d2 pj.stop pi.stop < c.vtxRadius * c.vtxRadius))) pj.tag pj.em
      simp only [← Bool.or_assoc] at hle
      refine ⟨hle, ?_, ?_, ?_, ?_⟩
      · intro m p hp
        rw [CloseTo.iff hle, CloseTo.iff hle]
        rw [List.getElem?_set] at hp
        split at hp
        · rename_i hm
          subst hm
          split at hp
          · simp only [Option.some.injEq] at hp
            subst hp
            obtain ⟨s1, s2⟩ := hs j pj ej
            constructor
            · intro hds
              simp only [Bool.or_eq_true, Bool.and_eq_true, decide_eq_true_eq] at hds
              rcases hds with (hd | hd) | hd
              · exact s1 hd
              · exact ⟨i, pi, hij, ei, Or.inl (by rw [d2_comm]; exact hd.2)⟩
              · exact ⟨i, pi, hij, ei, Or.inr (by rw [d2_comm]; exact hd.2)⟩
            · intro hds
              simp only [Bool.or_eq_true, Bool.and_eq_true, decide_eq_true_eq] at hds
              rcases hds with (hd | hd) | hd
              · exact s2 hd
              · exact ⟨i, pi, hij, ei, Or.inl (by rw [d2_comm]; exact hd.2)⟩
              · exact ⟨i, pi, hij, ei, Or.inr (by rw [d2_comm]; exact hd.2)⟩
          · simp at hp
        · exact hs m p hp
      · intro hh
        simp only [Bool.or_eq_true, Bool.and_eq_true, decide_eq_true_eq] at hh
        rcases hh with (hd | hd) | hd
        · exact h1 hd
        · exact ⟨j, pj, hji, ej, Or.inl hd.2⟩
        · exact ⟨j, pj, hji, ej, Or.inr hd.2⟩
      · intro hh
        simp only [Bool.or_eq_true, Bool.and_eq_true, decide_eq_true_eq] at hh
        rcases hh with (hd | hd) | hd
        · exact h2 hd
        · exact ⟨j, pj, hji, ej, Or.inl hd.2⟩
        · exact ⟨j, pj, hji, ej, Or.inr hd.2⟩
      · intro _ qi qj fi fj
        rw [List.getElem?_set_ne hji, ei] at fi
        simp only [Option.some.injEq] at fi
        subst fi
        rw [List.getElem?_set_self (List.getElem?_eq_some_iff.1 ej).1] at fj
        simp only [Option.some.injEq] at fj
        subst fj
        constructor
        · intro hd
          change d2 pj.start pi.start < _ ∨ d2 pj.start pi.stop < _ at hd
          cases pj.ds
          · rcases hd with hd | hd <;> simp [hd]
          · simp
        · intro hd
          change d2 pj.stop pi.start < _ ∨ d2 pj.stop pi.stop < _ at hd
          cases pj.de
          · rcases hd with hd | hd <;> simp [hd]
          · simp

theorem tagFold_ok (c : Cfg) (i : Nat) : ∀ (js : List Nat) (st : List Part × Bool × Bool) (pi : Part), st.1[i]? = some pi → Sound c st.1 →
    (st.2.1 = true → CloseTo c st.1 i pi.start) → (st.2.2 = true → CloseTo c st.1 i pi.stop) →
    Le st.1 (js.foldl (tagOne c i) st).1 ∧ Sound c (js.foldl (tagOne c i) st).1 ∧ ((js.foldl (tagOne c i) st).2.1 = true → CloseTo c st.1 i pi.start) ∧
    ((js.foldl (tagOne c i) st).2.2 = true → CloseTo c st.1 i pi.stop) ∧ ∀ j ∈ js, i ≠ j → Done c (js.foldl (tagOne c i) st).1 i j
  | [], st, pi, ei, hs, h1, h2 => ⟨Le.refl _, hs, h1, h2, by simp⟩
  | j :: js, st, pi, ei, hs, h1, h2 => by
    obtain ⟨a1, a2, a3, a4, a5⟩ := tagOne_ok c i st j pi ei hs h1 h2
    obtain ⟨p', e', hh⟩ := a1.get' ei
    have b := tagFold_ok c i js (tagOne c i st j) p' e' a2 (fun x => by rw [start_of hh, CloseTo.iff a1]; exact a3 x) (fun x => by rw [stop_of hh, CloseTo.iff a1]; exact a4 x)
    obtain ⟨b1, b2, b3, b4, b5⟩ := b
    rw [List.foldl_cons]
    refine ⟨a1.trans b1, b2, ?_, ?_, ?_⟩
    · intro x; have := b3 x; rw [start_of hh, CloseTo.iff a1] at this; exact this
    · intro x; have := b4 x; rw [stop_of hh, CloseTo.iff a1] at this; exact this
    · intro k hk hik
      rcases List.mem_cons.1 hk with rfl | hk
      · exact (a5 hik).mono b1
      · exact b5 k hk hik

theorem modify_le (g : List Part) (i : Nat) (a b : Bool) : Le g (g.modify i fun p => ⟨p.hits, p.tag, p.ds || a, p.de || b, p.em⟩) := by
  refine ⟨by simp, ?_⟩
  intro m p p' h h'
  rw [List.getElem?_modify, h] at h'
  simp only [Option.map_eq_map, Option.map_some, Option.some.injEq] at h'
  subst h'
  split
  · exact ⟨rfl, by intro hh; simp [hh], by intro hh; simp [hh]⟩
  · exact ⟨rfl, id, id⟩

theorem tagPart_ok (c : Cfg) (g : List Part) (i : Nat) (hi : i < g.length) (hs : Sound c g) :
    Le g (tagPart c g i) ∧ Sound c (tagPart c g i) ∧ ∀ j < g.length, i ≠ j → Done c (tagPart c g i) i j := by
  have ei := List.getElem?_eq_getElem hi
  obtain ⟨b1, b2, b3, b4, b5⟩ := tagFold_ok c i (List.range g.length) (g, false, false) g[i] ei hs (by simp) (by simp)
  unfold tagPart
  dsimp only
  revert b1 b2 b3 b4 b5
  generalize (List.range g.length).foldl (tagOne c i) (g, false, false) = r
  intro b1 b2 b3 b4 b5
  have hle := modify_le r.1 i r.2.1 r.2.2
  refine ⟨b1.trans hle, ?_, ?_⟩
  · intro m p hp
    rw [CloseTo.iff hle, CloseTo.iff hle]
    rw [List.getElem?_modify] at hp
    cases e : r.1[m]? with
    | none => rw [e] at hp; simp at hp
    | some q =>
      rw [e] at hp
      simp only [Option.map_eq_map, Option.map_some, Option.some.injEq] at hp
      subst hp
      obtain ⟨s1, s2⟩ := b2 m q e
      split
      · rename_i him
        subst him
        obtain ⟨p0, e0, hh⟩ := b1.get e
        rw [ei] at e0
        simp only [Option.some.injEq] at e0
        subst e0
        have t1 : Part.start ⟨q.hits, q.tag, q.ds || r.2.1, q.de || r.2.2, q.em⟩ = g[i].start := start_of hh.symm
        have t2 : Part.stop ⟨q.hits, q.tag, q.ds || r.2.1, q.de || r.2.2, q.em⟩ = g[i].stop := stop_of hh.symm
        rw [t1, t2, CloseTo.iff b1, CloseTo.iff b1]
        rw [← start_of hh, CloseTo.iff b1] at s1
        rw [← stop_of hh, CloseTo.iff b1] at s2
        constructor
        · intro x
          simp only [Bool.or_eq_true] at x
          rcases x with x | x
          · exact s1 x
          · exact b3 x
        · intro x
          simp only [Bool.or_eq_true] at x
          rcases x with x | x
          · exact s2 x
          · exact b4 x
      · exact ⟨s1, s2⟩
  · intro j hj hij
    exact (b5 j (List.mem_range.2 hj) hij).mono hle

theorem tagParts_ok (c : Cfg) : ∀ (is : List Nat) (g : List Part), (∀ i ∈ is, i < g.length) → Sound c g →
    Le g (is.foldl (tagPart c) g) ∧ Sound c (is.foldl (tagPart c) g) ∧ ∀ i ∈ is, ∀ j < g.length, i ≠ j → Done c (is.foldl (tagPart c) g) i j
  | [], g, _, hs => ⟨Le.refl _, hs, by simp⟩
  | i :: is, g, hi, hs => by
    obtain ⟨a1, a2, a3⟩ := tagPart_ok c g i (hi i (by simp)) hs
    obtain ⟨b1, b2, b3⟩ := tagParts_ok c is (tagPart c g i) (by intro k hk; rw [a1.1]; exact hi k (by simp [hk])) a2
    rw [List.foldl_cons]
    refine ⟨a1.trans b1, b2, ?_⟩
    intro k hk j hj hkj
    rcases List.mem_cons.1 hk with rfl | hk
    · exact (a3 j hj hkj).mono b1
    · exact b3 k hk j (by rw [a1.1]; exact hj) hkj

/-- C406: the start (the end) of a part is marked exactly if another part starts or ends within the radius; the parts are not changed otherwise. -/
theorem C406_dense (c : Cfg) (g : List Part) (h0 : ∀ p ∈ g, p.ds = false ∧ p.de = false) :
    (tagDense c g).map (fun p => (p.hits, p.tag, p.em)) = g.map (fun p => (p.hits, p.tag, p.em)) ∧
    ∀ (i : Nat) (p : Part), (tagDense c g)[i]? = some p → (p.ds = true ↔ CloseTo c g i p.start) ∧ (p.de = true ↔ CloseTo c g i p.stop) := by
  refine ⟨tagDense_map c _ (fun _ _ _ => rfl) g, ?_⟩
  have hs : Sound c g := by
    intro m p hp
    have := h0 p (List.mem_of_getElem? hp)
    simp [this]
  obtain ⟨a1, a2, a3⟩ := tagParts_ok c (List.range g.length) g (by simp) hs
  intro i p hp
  unfold tagDense at hp
  obtain ⟨s1, s2⟩ := a2 i p hp
  rw [CloseTo.iff a1] at s1 s2
  have hi : i < g.length := by rw [← a1.1]; exact (List.getElem?_eq_some_iff.1 hp).1
  refine ⟨⟨s1, ?_⟩, ⟨s2, ?_⟩⟩
  · rintro ⟨j, q, hj, e, hd⟩
    have hjl := (List.getElem?_eq_some_iff.1 e).1
    obtain ⟨q', e', hh⟩ := a1.get' e
    have := (a3 j (List.mem_range.2 hjl) i hi hj q' p e' hp).1
    rw [start_of hh, stop_of hh, d2_comm p.start, d2_comm p.start] at this
    exact this hd
  · rintro ⟨j, q, hj, e, hd⟩
    have hjl := (List.getElem?_eq_some_iff.1 e).1
    obtain ⟨q', e', hh⟩ := a1.get' e
    have := (a3 j (List.mem_range.2 hjl) i hi hj q' p e' hp).2
    rw [start_of hh, stop_of hh, d2_comm p.stop, d2_comm p.stop] at this
    exact this hd

example : ∀ p ∈ ([⟨[⟨0, 0, 0⟩, ⟨1, 9, 0⟩], false, false, false, false⟩, ⟨[⟨2, 0, 1⟩, ⟨3, 0, 9⟩], false, false, false, false⟩] : List Part), p.ds = false ∧ p.de = false := by decide
example : (tagDense exC [⟨[⟨0, 0, 0⟩, ⟨1, 9, 0⟩], false, false, false, false⟩, ⟨[⟨2, 0, 1⟩, ⟨3, 0, 9⟩], false, false, false, false⟩]).map (fun p => (p.ds, p.de)) = [(true, false), (true, false)] := by decide +kernel

/-! ## C409: what is merged -/

theorem setTags_get : ∀ (idxs : List Nat) (g : List Part) (j : Nat), (setTags g idxs)[j]? = g[j]?.map fun p => if j ∈ idxs then { p with tag := true } else p
  | [], g, j => by simp [setTags]
  | i :: l, g, j => by
    have := setTags_get l (g.modify i fun p => { p with tag := true }) j
    unfold setTags at this ⊢
    rw [List.foldl_cons, this, List.getElem?_modify]
    cases g[j]? with
    | none => simp
    | some p =>
      simp only [Option.map_eq_map, Option.map_some, Option.some.injEq, List.mem_cons]
      by_cases h1 : i = j
      · subst h1; simp
      · have : ¬ j = i := fun e => h1 e.symm
        simp [h1, this]

/-- C409: if no part has a tag and the first of the chosen parts has the smallest index, then the parts before it stay, it takes the hits of the other chosen parts in order and is a shower, and the
parts that are not chosen stay. -/
theorem C409_merge_partial (g : List Part) (k k' : Nat) (l : List Nat) (pk : Part) (hk : g[k]? = some pk) (ht : ∀ p ∈ g, p.tag = false) (hmin : ∀ i ∈ k' :: l, k ≤ i) :
    mergeParts g (k :: k' :: l) = g.take k
      ++ [⟨pk.hits ++ ((List.range' (k + 1) (g.length - (k + 1))).filter (· ∈ k' :: l)).flatMap (fun i => (g.getD i pk).hits), false, pk.ds, pk.de, true⟩]
      ++ ((List.range' (k + 1) (g.length - (k + 1))).filter (· ∉ k' :: l)).map (fun i => g.getD i pk) := by
  have hlt := (List.getElem?_eq_some_iff.1 hk).1
  unfold mergeParts
  dsimp only
  have hget := setTags_get (k :: k' :: l) g
  have e : (setTags g (k :: k' :: l))[k]? = some { pk with tag := true } := by rw [hget, hk]; simp
  rw [e]
  dsimp only
  rw [absorb_eq]
  have htk : (setTags g (k :: k' :: l)).take k = g.take k := by
    apply List.ext_getElem?
    intro j
    rw [List.getElem?_take, List.getElem?_take]
    split
    · rename_i hj
      rw [hget]
      have : j ∉ k :: k' :: l := by
        intro hm
        rcases List.mem_cons.1 hm with rfl | hm
        · omega
        · have := hmin j hm; omega
      simp [this]
    · rfl
  have hdr : (setTags g (k :: k' :: l)).drop (k + 1) = (List.range' (k + 1) (g.length - (k + 1))).map fun i => if i ∈ k' :: l then { g.getD i pk with tag := true } else g.getD i pk := by
    apply List.ext_getElem?
    intro j
    rw [List.getElem?_drop, hget, List.getElem?_map]
    by_cases hj : k + 1 + j < g.length
    · rw [List.getElem?_eq_getElem hj, List.getElem?_range' (by omega)]
      simp only [Option.map_some, Option.some.injEq, one_mul]
      have : (k + 1 + j ∈ k :: k' :: l) ↔ (k + 1 + j ∈ k' :: l) := by
        rw [List.mem_cons]
        constructor
        · rintro (h | h)
          · omega
          · exact h
        · exact Or.inr
      rw [List.getD_eq_getElem _ _ hj]
      by_cases hm : k + 1 + j ∈ k' :: l
      · rw [if_pos (this.2 hm), if_pos hm]
      · rw [if_neg (fun h => hm (this.1 h)), if_neg hm]
    · rw [List.getElem?_eq_none (by omega), List.getElem?_eq_none (by simp; omega)]
      rfl
  rw [htk, hdr]
  have hin : ∀ i ∈ List.range' (k + 1) (g.length - (k + 1)), (g.getD i pk).tag = false := by
    intro i hi
    rw [List.mem_range'_1] at hi
    have : i < g.length := by omega
    rw [List.getD_eq_getElem _ _ this]
    exact ht _ (List.getElem_mem this)
  have f1 : ((List.range' (k + 1) (g.length - (k + 1))).map fun i => if i ∈ k' :: l then { g.getD i pk with tag := true } else g.getD i pk).filter Part.tag
      = ((List.range' (k + 1) (g.length - (k + 1))).filter (· ∈ k' :: l)).map fun i => { g.getD i pk with tag := true } := by
    revert hin
    generalize List.range' (k + 1) (g.length - (k + 1)) = R
    intro hin
    induction R with
    | nil => rfl
    | cons a R ih =>
      have ih' := ih (fun i hi => hin i (by simp [hi]))
      rw [List.map_cons, List.filter_cons, List.filter_cons, ih']
      by_cases ha : a ∈ k' :: l
      · simp only [ha, if_true, decide_true]; rfl
      · simp only [ha, if_false, decide_false, hin a (by simp)]; simp
  have f2 : ((List.range' (k + 1) (g.length - (k + 1))).map fun i => if i ∈ k' :: l then { g.getD i pk with tag := true } else g.getD i pk).filter (fun p => !p.tag)
      = ((List.range' (k + 1) (g.length - (k + 1))).filter (· ∉ k' :: l)).map fun i => g.getD i pk := by
    revert hin
    generalize List.range' (k + 1) (g.length - (k + 1)) = R
    intro hin
    induction R with
    | nil => rfl
    | cons a R ih =>
      have ih' := ih (fun i hi => hin i (by simp [hi]))
      rw [List.map_cons, List.filter_cons, List.filter_cons, ih']
      by_cases ha : a ∈ k' :: l
      · simp only [ha, if_true, not_true, decide_false]; simp
      · simp only [ha, if_false, not_false_eq_true, decide_true, hin a (by simp)]; simp
  rw [f1, f2]
  simp only [List.flatMap_map]

example : (∀ p ∈ exG, p.tag = false) ∧ (∀ i ∈ [1], 0 ≤ i) ∧ (mergeParts exG [0, 1]).length = 2 := by decide +kernel

/-- C409: a part with two neighbours of larger index is chosen with them, but is not merged and does not become a shower. -/
theorem C409_refuted : (mergeDense exC 3 exG).map (fun g => g.map fun p => (p.hits.map Hit.id, p.em)) = some [([0, 1], false), ([2, 3, 4, 5], true)] := by decide +kernel

/-- Parts that start near (100, 0): 0, 1 and 6; parts that start near (0, 0): 2, 3, 4, 5. -/
def exG2 : List Part := [⟨[⟨0, 100, 0⟩, ⟨1, 109, 0⟩], false, true, false, false⟩, ⟨[⟨2, 100, 1⟩, ⟨3, 100, 9⟩], false, true, false, false⟩,
  ⟨[⟨4, 0, 0⟩, ⟨5, 9, 0⟩], false, true, false, false⟩, ⟨[⟨6, 0, 1⟩, ⟨7, 0, 9⟩], false, true, false, false⟩, ⟨[⟨8, 1, 0⟩, ⟨9, 9, 9⟩], false, true, false, false⟩,
  ⟨[⟨10, 1, 1⟩, ⟨11, -9, 0⟩], false, true, false, false⟩, ⟨[⟨12, 101, 0⟩, ⟨13, 109, 9⟩], false, true, false, false⟩]

/-- C409: a part that is left out keeps its tag, and a later merging at another place takes it: hits 4 and 5, far from (100, 0), are in the shower of hits 2, 3, 12, 13. -/
theorem C409_refuted_tag : (mergeDense exC 7 exG2).map (fun g => g.map fun p => (p.hits.map Hit.id, p.em)) =
    some [([0, 1], false), ([2, 3, 4, 5, 12, 13], true), ([6, 7, 8, 9, 10, 11], true)] := by decide +kernel

/-- C409: between the densest start and the densest end the one of larger index is taken, not the denser one. -/
theorem C409_refuted_choice (n m : Nat) (i j : Nat) (a b : List Nat) (h : i < j) : choose (⟨n, some i, a⟩, ⟨m, some j, b⟩) = some (b ++ [j]) := by
  unfold choose
  simp [h]

/-! ## C410, C411: hits of tracks and of showers -/

theorem splitHits_eq (g : List Part) : splitHits g = (hitsOf (g.filter fun p => !p.em), hitsOf (g.filter fun p => p.em)) := by
  have key : ∀ (g : List Part) (a b : List Hit), g.foldl (fun st p => if p.hits = [] then st else if p.em then (st.1, st.2 ++ p.hits) else (st.1 ++ p.hits, st.2)) (a, b)
      = (a ++ hitsOf (g.filter fun p => !p.em), b ++ hitsOf (g.filter fun p => p.em)) := by
    intro g
    induction g with
    | nil => intro a b; simp [hitsOf]
    | cons p g ih =>
      intro a b
      rw [List.foldl_cons]
      by_cases h0 : p.hits = []
      · rw [if_pos h0, ih]
        cases hp : p.em <;> simp [hitsOf, hp, h0]
      · rw [if_neg h0]
        cases hp : p.em
        · simp only [Bool.false_eq_true, if_false]
          rw [ih]
          simp [hitsOf, hp]
        · simp only [if_true]
          rw [ih]
          simp [hitsOf, hp]
  have := key g [] []
  unfold splitHits
  rw [this]
  simp

/-- C410: the hits of showers are those of the parts marked so, the hits of tracks are the others, in order; together they are all hits of the parts. -/
theorem C410_split (g : List Part) : splitHits g = (hitsOf (g.filter fun p => !p.em), hitsOf (g.filter fun p => p.em)) ∧ (splitHits g).1 ++ (splitHits g).2 ~ hitsOf g := by
  refine ⟨splitHits_eq g, ?_⟩
  rw [splitHits_eq]
  unfold hitsOf
  rw [← List.flatMap_append]
  have := (List.filter_append_perm (fun p : Part => !p.em) g).flatMap_right Part.hits
  simpa using this

example : splitHits [⟨[⟨0, 0, 0⟩], false, false, false, true⟩, ⟨[⟨1, 0, 0⟩], false, false, false, false⟩] = ([⟨1, 0, 0⟩], [⟨0, 0, 0⟩]) := by decide

/-- C404 and C410: the hits of tracks, of showers and the hit left are the hits of the cluster. -/
theorem C410_all (c : Cfg) (inp left : List Hit) (g : List Part) (h : run c inp = some (left, g)) : (splitHits g).1 ++ (splitHits g).2 ++ left ~ inp :=
  ((C410_split g).2.append_right _).trans (C404_hits_partial c inp left g h).1

/-- The number of other hits nearer than the radius. -/
def others (c : Cfg) (l : List Hit) (h : Hit) : Nat := (l.filter fun k => decide (k.id ≠ h.id) && decide (d2 h.pt k.pt < c.hitRadius * c.hitRadius)).length

/-- C411: a hit is of a shower exactly if more than the given number of other hits are near, and the order is kept. -/
theorem C411_naive (c : Cfg) (l : List Hit) : splitNaive c l = (l.filter (fun h => decide (others c l h ≤ c.minHits)), l.filter (fun h => decide (c.minHits < others c l h))) := by
  have hc : ∀ (h : Hit) (m : List Hit) (n : Nat), m.foldl (fun n k => if h.id = k.id then n else if d2 h.pt k.pt < c.hitRadius * c.hitRadius then n + 1 else n) n = n + others c m h := by
    intro h m
    induction m with
    | nil => intro n; rfl
    | cons k m ih =>
      intro n
      rw [List.foldl_cons, ih]
      unfold others
      rw [List.filter_cons]
      by_cases h1 : h.id = k.id
      · simp [h1]
      · have h1' : ¬ k.id = h.id := fun e => h1 e.symm
        by_cases h2 : d2 h.pt k.pt < c.hitRadius * c.hitRadius
        · simp [h1, h1', h2]; omega
        · simp [h1, h2]
  have key : ∀ (m a b : List Hit), m.foldl (fun (st : List Hit × List Hit) h =>
      let n := l.foldl (fun n k => if h.id = k.id then n else if d2 h.pt k.pt < c.hitRadius * c.hitRadius then n + 1 else n) 0
      if n > c.minHits then (st.1, st.2 ++ [h]) else (st.1 ++ [h], st.2)) (a, b) =
      (a ++ m.filter (fun h => decide (others c l h ≤ c.minHits)), b ++ m.filter (fun h => decide (c.minHits < others c l h))) := by
    intro m
    induction m with
    | nil => intro a b; simp
    | cons h m ih =>
      intro a b
      rw [List.foldl_cons]
      dsimp only
      rw [hc, Nat.zero_add]
      by_cases hn : others c l h > c.minHits
      · rw [if_pos hn, ih]
        have : ¬ others c l h ≤ c.minHits := by omega
        simp [hn, this]
      · rw [if_neg hn, ih]
        have h2 : others c l h ≤ c.minHits := by omega
        have h3 : ¬ c.minHits < others c l h := by omega
        simp [h2]
  have := key l [] []
  unfold splitNaive
  rw [this]
  simp

example : splitNaive exC [⟨0, 0, 0⟩, ⟨1, 1, 0⟩, ⟨2, 0, 1⟩, ⟨3, 30, 0⟩] = ([⟨3, 30, 0⟩], [⟨0, 0, 0⟩, ⟨1, 1, 0⟩, ⟨2, 0, 1⟩]) := by decide +kernel

end Verif.Seg2D

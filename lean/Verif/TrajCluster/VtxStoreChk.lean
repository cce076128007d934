import Verif.TrajCluster.Vertex3
/-!
# Storing vertices, the trajectories of a vertex, the check of the tables
-/
namespace Verif.TC

/-- at least one end of the trajectory carries the number -/
def Attached (t : Traj) (v : Nat) : Prop := ∃ e, t.vtxAt e = v

theorem attached_iff {t : Traj} {v : Nat} : Attached t v ↔ v = t.vtx.1 ∨ v = t.vtx.2 := by
  constructor
  · rintro ⟨e, h⟩
    cases e
    · left; simpa [Traj.vtxAt] using h.symm
    · right; simpa [Traj.vtxAt] using h.symm
  · rintro (h | h)
    · exact ⟨false, by simp [Traj.vtxAt, h]⟩
    · exact ⟨true, by simp [Traj.vtxAt, h]⟩

instance (t : Traj) (v : Nat) : Decidable (Attached t v) := decidable_of_iff _ attached_iff.symm

theorem filter_length_eq {α : Type} (p : α → Bool) : ∀ l : List α, (l.filter p).length = l.length → ∀ a ∈ l, p a = true := by
  intro l h a ha
  have := List.filter_eq_self.1 (List.Sublist.eq_of_length (List.filter_sublist (l := l) (p := p)) h)
  exact this a ha

/-- **C124.** A vertex whose number has been given to ends of trajectories is stored exactly when the number is the next
one and all trajectories (not killed) that carry it lie in its plane; it is then the last of the list and counts these
trajectories. When it is refused because of the plane, the number is removed from all of them. In both cases the tables
agree; nothing else changes. -/
theorem C124_store_vertex {s : Slice} {v : Vtx} (hs : VtxOKBut v.id s) (h3 : v.vx3 = 0)
    (hnext : v.id = s.vtxs.length + 1) :
    ∃ r s' v', storeVertex s v = (r, s', v') ∧ VtxOK s' ∧ s'.own = s.own ∧ s'.n = s.n ∧ s'.vtx3s = s.vtx3s ∧
      (r = true ↔ ∀ t ∈ s.tjs, t.killed = false → Attached t v.id → t.ctp = v.ctp) ∧
      (r = true → s'.tjs = s.tjs ∧ s'.vtxs = s.vtxs ++ [v'] ∧ v'.id = v.id ∧
        v'.ntraj = s.tjs.countP fun t => t.killed = false ∧ Attached t v.id) ∧
      (r = false → s'.vtxs = s.vtxs ∧ s'.tjs.length = s.tjs.length ∧
        ∀ (i : Nat) (t : Traj), s.tjs[i]? = some t → ∃ t', s'.tjs[i]? = some t' ∧ t' = { t with vtx := t'.vtx } ∧
          ∀ e, t'.vtxAt e = if t.killed = false ∧ t.vtxAt e = v.id then 0 else t.vtxAt e) := by
  unfold storeVertex
  rw [if_neg (by omega)]
  simp only
  generalize hA : (s.tjs.filter fun t => decide (t.killed = false ∧ (v.id = t.vtx.1 ∨ v.id = t.vtx.2))) = A
  have hAm : ∀ t, t ∈ A ↔ t ∈ s.tjs ∧ t.killed = false ∧ Attached t v.id := by
    intro t
    rw [← hA, List.mem_filter, attached_iff]
    simp
  have hcount : A.length = s.tjs.countP fun t => decide (t.killed = false ∧ Attached t v.id) := by
    rw [← hA, ← List.countP_eq_length_filter]
    apply List.countP_congr
    intro t _
    simp only [attached_iff]
  have hr : (A.filter fun t => decide (v.ctp = t.ctp)).length = A.length ↔
      ∀ t ∈ s.tjs, t.killed = false → Attached t v.id → t.ctp = v.ctp := by
    constructor
    · intro h t ht hk ha
      have := filter_length_eq _ A h t ((hAm t).2 ⟨ht, hk, ha⟩)
      simp only [decide_eq_true_eq] at this
      exact this.symm
    · intro h
      rw [List.filter_eq_self.2]
      intro t ht
      obtain ⟨a, b, c⟩ := (hAm t).1 ht
      simp [h t a b c]
  by_cases hc : (A.filter fun t => decide (v.ctp = t.ctp)).length = A.length
  · rw [if_neg (by simpa using hc)]
    have hall := hr.1 hc
    refine ⟨true, _, _, rfl, ?_, rfl, rfl, rfl, ⟨fun _ => hall, fun _ => rfl⟩,
      fun _ => ⟨rfl, rfl, rfl, by simp only; rw [hc, hcount]⟩, by simp⟩
    have hget : ∀ (i : Nat) (u : Vtx) (c : Nat), (s.vtxs ++ [{ v with ntraj := c }])[i]? = some u →
        s.vtxs[i]? = some u ∨ (i = s.vtxs.length ∧ u = { v with ntraj := c }) := by
      intro i u c hi
      rcases Nat.lt_trichotomy i s.vtxs.length with hl | hl | hl
      · rw [List.getElem?_append_left hl] at hi
        exact Or.inl hi
      · subst hl
        rw [List.getElem?_append_right (Nat.le_refl _)] at hi
        simp at hi
        exact Or.inr ⟨rfl, hi.symm⟩
      · rw [List.getElem?_eq_none (by simp; omega)] at hi
        cases hi
    refine ⟨?_, hs.ids3, ?_, ?_, ?_⟩
    · intro i u hi
      rcases hget i u _ hi with h | ⟨rfl, rfl⟩
      · exact hs.ids i u h
      · exact Or.inr hnext
    · intro t ht hk hh e
      rcases hs.ends t ht hk hh e with h | h | ⟨u, a, b, c⟩
      · exact Or.inl h
      · refine Or.inr (Or.inr ⟨{ v with ntraj := (A.filter fun t => decide (v.ctp = t.ctp)).length }, ?_, h.symm,
          (hall t ht hk ⟨e, h⟩).symm⟩)
        rw [h, hnext, Nat.add_sub_cancel]
        simp only
        rw [List.getElem?_append_right (Nat.le_refl _)]
        simp
      · refine Or.inr (Or.inr ⟨u, ?_, b, c⟩)
        simp only
        rw [List.getElem?_append_left (List.getElem?_eq_some_iff.1 a).1]
        exact a
    · intro i u hi hu0 hu3
      rcases hget i u _ hi with h | ⟨rfl, rfl⟩
      · exact hs.up i u h hu0 hu3
      · exact absurd h3 hu3
    · intro i w hi hw0 p y hp hy
      obtain ⟨u, a, b⟩ := hs.down i w hi hw0 p y hp hy
      refine ⟨u, ?_, b⟩
      simp only
      rw [List.getElem?_append_left (List.getElem?_eq_some_iff.1 a).1]
      exact a
  · rw [if_pos (by simpa using hc)]
    have hv : ∀ (t : Traj) (e : Bool), (if t.killed then t else
        { t with vtx := (if t.vtx.1 = v.id then 0 else t.vtx.1, if t.vtx.2 = v.id then 0 else t.vtx.2) }).vtxAt e =
        if t.killed = false ∧ t.vtxAt e = v.id then 0 else t.vtxAt e := by
      intro t e
      cases hk : t.killed with
      | true => simp
      | false => cases e <;> simp [Traj.vtxAt]
    refine ⟨false, _, _, rfl, ?_, rfl, rfl, rfl, ?_, by simp, fun _ => ⟨rfl, by simp, ?_⟩⟩
    · refine ⟨hs.ids, hs.ids3, ?_, hs.up, hs.down⟩
      intro t' ht' hk hh e
      obtain ⟨t, ht, rfl⟩ := List.mem_map.1 ht'
      have hk' : t.killed = false := by
        by_contra h
        have h1 : t.killed = true := by simpa using h
        simp [h1] at hk
      have hh' : t.halo = false := by
        simpa [hk'] using hh
      have hct : (if t.killed = true then t else
        { t with vtx := (if t.vtx.1 = v.id then 0 else t.vtx.1, if t.vtx.2 = v.id then 0 else t.vtx.2) }).ctp = t.ctp := by
        split <;> rfl
      rw [hv, hct]
      by_cases he : t.vtxAt e = v.id
      · rw [if_pos ⟨hk', he⟩]
        exact Or.inl rfl
      · rw [if_neg (by tauto)]
        rcases hs.ends t ht hk' hh' e with h | h | h
        · exact Or.inl h
        · exact absurd h he
        · exact Or.inr (Or.inr h)
    · simp only [Bool.false_eq_true, false_iff]
      exact fun h => hc (hr.2 h)
    · intro i t hi
      refine ⟨_, by simp only [List.getElem?_map, hi, Option.map_some], ?_, hv t⟩
      split <;> rfl

/-- a vertex with another number is refused and the ends keep the number, whatever vertex that is -/
theorem C124_wrong_number_refuted {s : Slice} {v : Vtx} (h : v.id ≠ s.vtxs.length + 1) :
    storeVertex s v = (false, s, v) := by
  unfold storeVertex
  rw [if_pos h]

/-- **C124.** The trajectories of a vertex are those of its plane that are not killed and carry its number. -/
theorem C124_vertex_tjs (s : Slice) {v : Vtx} (hv : v.id ≠ 0) (x : Int) :
    x ∈ vtxTjs s v ↔ ∃ t ∈ s.tjs, t.id = x ∧ t.killed = false ∧ t.ctp = v.ctp ∧ Attached t v.id := by
  unfold vtxTjs
  rw [if_neg hv, List.mem_flatMap]
  constructor
  · rintro ⟨t, ht, hx⟩
    split at hx
    · simp at hx
    · rename_i hc
      push Not at hc
      refine ⟨t, ht, ?_, by simpa using hc.1, hc.2, ?_⟩
      · rcases List.mem_append.1 hx with h | h <;> (split at h <;> simp at h; exact h.symm)
      · rw [attached_iff]
        rcases List.mem_append.1 hx with h | h
        · split at h
          · rename_i e; exact Or.inl e.symm
          · simp at h
        · split at h
          · rename_i e; exact Or.inr e.symm
          · simp at h
  · rintro ⟨t, ht, hx, hk, hc, ha⟩
    refine ⟨t, ht, ?_⟩
    rw [if_neg (by simp [hk, hc])]
    rcases attached_iff.1 ha with h | h
    · rw [if_pos h.symm]; simp [hx]
    · rw [if_pos h.symm]; simp [hx]

/-- a trajectory with both ends at the vertex is listed twice -/
theorem C124_twice_refuted :
    vtxTjs { exV with tjs := [{ pts := [pt 0, pt 1], vtx := (1, 1), id := 1 }] } ⟨1, 0, 0, 0, (0, 0), 1, false⟩ =
      [1, 1] := by decide +kernel

example : VtxOKBut 3 { exV with tjs := exV.tjs.map fun t => if t.id = 1 then t.setVtx true 3 else t } ∧
    (storeVertex { exV with tjs := exV.tjs.map fun t => if t.id = 1 then t.setVtx true 3 else t }
      ⟨3, 0, 0, 0, (1, 0), 0, false⟩).1 = true ∧
    (storeVertex { exV with tjs := exV.tjs.map fun t => if t.id = 1 then t.setVtx true 3 else t }
      ⟨3, 0, 1, 0, (1, 0), 0, false⟩).1 = false := by
  refine ⟨⟨exV_ok.ids, exV_ok.ids3, ?_, exV_ok.up, exV_ok.down⟩, by decide +kernel, by decide +kernel⟩
  have : ∀ t ∈ (exV.tjs.map fun t => if t.id = 1 then t.setVtx true 3 else t), ∀ e, t.vtxAt e = 0 ∨ t.vtxAt e = 3 ∨
      ∃ v ∈ exV.vtxs, exV.vtxs[t.vtxAt e - 1]? = some v ∧ v.id = t.vtxAt e ∧ v.ctp = t.ctp := by
    decide
  intro t ht _ _ e
  rcases this t ht e with h | h | ⟨v, _, h⟩
  · exact Or.inl h
  · exact Or.inr (Or.inl h)
  · exact Or.inr (Or.inr ⟨v, h⟩)

/-! ### the check -/

theorem chk23_spec (s : Slice) (ctp plane : Nat) (hp : ∀ w ∈ s.vtx3s, plane < w.vx2.length) : ∀ l : List Vtx,
    ∃ b, chk23 s ctp plane l = some b ∧ (b = true ↔ ∀ v ∈ l, v.ctp = ctp → v.id ≠ 0 → v.vx3 ≠ 0 →
      ∃ w, s.vtx3s[v.vx3 - 1]? = some w ∧ w.id ≠ 0 ∧ w.vx2[plane]? = some v.id) := by
  intro l
  induction l with
  | nil => exact ⟨true, rfl, by simp⟩
  | cons v l ih =>
    obtain ⟨b, hb, hi⟩ := ih
    rw [chk23]
    by_cases h1 : v.ctp ≠ ctp ∨ v.id = 0 ∨ v.vx3 = 0
    · rw [if_pos h1]
      refine ⟨b, hb, ?_⟩
      rw [hi]
      constructor
      · intro h u hu
        rcases List.mem_cons.1 hu with rfl | hu
        · intro a b c; tauto
        · exact h u hu
      · intro h u hu
        exact h u (List.mem_cons_of_mem _ hu)
    · rw [if_neg h1]
      push Not at h1
      by_cases h2 : s.vtx3s.length < v.vx3
      · rw [if_pos h2]
        refine ⟨false, rfl, ?_⟩
        simp only [Bool.false_eq_true, false_iff]
        intro h
        obtain ⟨w, hw, _⟩ := h v (List.mem_cons_self ..) h1.1 h1.2.1 h1.2.2
        have := (List.getElem?_eq_some_iff.1 hw).1
        omega
      · rw [if_neg h2]
        have hl : v.vx3 - 1 < s.vtx3s.length := by have := h1.2.2; omega
        have hw := List.getElem?_eq_getElem hl
        generalize s.vtx3s[v.vx3 - 1] = w at hw
        have hpw := hp w (List.mem_of_getElem? hw)
        rw [hw]
        simp only
        by_cases h3 : w.id = 0
        · rw [if_pos h3]
          refine ⟨false, rfl, ?_⟩
          simp only [Bool.false_eq_true, false_iff]
          intro h
          obtain ⟨w', hw', h4, _⟩ := h v (List.mem_cons_self ..) h1.1 h1.2.1 h1.2.2
          rw [hw] at hw'
          cases hw'
          exact h4 h3
        · rw [if_neg h3]
          have hx := List.getElem?_eq_getElem hpw
          generalize w.vx2[plane] = x at hx
          rw [hx]
          simp only
          by_cases h4 : x = v.id
          · rw [if_neg (by simpa using h4)]
            refine ⟨b, hb, ?_⟩
            rw [hi]
            constructor
            · intro h u hu
              rcases List.mem_cons.1 hu with rfl | hu
              · intro _ _ _
                exact ⟨w, hw, h3, by rw [hx, h4]⟩
              · exact h u hu
            · intro h u hu
              exact h u (List.mem_cons_of_mem _ hu)
          · rw [if_pos h4]
            refine ⟨false, rfl, ?_⟩
            simp only [Bool.false_eq_true, false_iff]
            intro h
            obtain ⟨w', hw', _, h5⟩ := h v (List.mem_cons_self ..) h1.1 h1.2.1 h1.2.2
            rw [hw] at hw'
            cases hw'
            rw [hx] at h5
            cases h5
            exact h4 rfl

theorem chk32_spec (s : Slice) (plane : Nat) : ∀ l : List Vtx3, (∀ w ∈ l, plane < w.vx2.length) →
    ∃ b, chk32 s plane l = some b ∧ (b = true ↔ ∀ w ∈ l, w.id ≠ 0 → ∀ y : Nat, w.vx2[plane]? = some y → y ≠ 0 →
      ∃ v, s.vtxs[y - 1]? = some v ∧ v.vx3 = w.id) := by
  intro l
  induction l with
  | nil => intro _; exact ⟨true, rfl, by simp⟩
  | cons w l ih =>
    intro hp
    obtain ⟨b, hb, hi⟩ := ih fun u hu => hp u (List.mem_cons_of_mem _ hu)
    have hskip : (w.id ≠ 0 → ∀ y : Nat, w.vx2[plane]? = some y → y ≠ 0 → ∃ v, s.vtxs[y - 1]? = some v ∧ v.vx3 = w.id) →
        (b = true ↔ ∀ u ∈ w :: l, u.id ≠ 0 → ∀ y : Nat, u.vx2[plane]? = some y → y ≠ 0 →
          ∃ v, s.vtxs[y - 1]? = some v ∧ v.vx3 = u.id) := by
      intro h0
      rw [hi]
      constructor
      · intro h u hu
        rcases List.mem_cons.1 hu with rfl | hu
        · exact h0
        · exact h u hu
      · intro h u hu
        exact h u (List.mem_cons_of_mem _ hu)
    rw [chk32]
    by_cases h1 : w.id = 0
    · rw [if_pos h1]
      exact ⟨b, hb, hskip fun h => absurd h1 h⟩
    · rw [if_neg h1]
      have hx := List.getElem?_eq_getElem (hp w (List.mem_cons_self ..))
      generalize w.vx2[plane]'(hp w (List.mem_cons_self ..)) = x at hx
      rw [hx]
      cases x with
      | zero =>
        refine ⟨b, hb, hskip ?_⟩
        intro _ y hy hy0
        rw [hx] at hy
        cases hy
        exact absurd rfl hy0
      | succ x =>
        simp only
        by_cases h2 : s.vtxs.length < x + 1
        · rw [if_pos h2]
          refine ⟨false, rfl, ?_⟩
          simp only [Bool.false_eq_true, false_iff]
          intro h
          obtain ⟨v, hv, _⟩ := h w (List.mem_cons_self ..) h1 _ hx (by omega)
          have := (List.getElem?_eq_some_iff.1 hv).1
          omega
        · rw [if_neg h2]
          have hl : x < s.vtxs.length := by omega
          have hv := List.getElem?_eq_getElem hl
          generalize s.vtxs[x] = v at hv
          rw [hv]
          simp only
          by_cases h3 : v.vx3 = w.id
          · rw [if_neg (by simpa using h3)]
            refine ⟨b, hb, hskip ?_⟩
            intro _ y hy _
            rw [hx] at hy
            cases hy
            exact ⟨v, hv, h3⟩
          · rw [if_pos h3]
            refine ⟨false, rfl, ?_⟩
            simp only [Bool.false_eq_true, false_iff]
            intro h
            obtain ⟨u, hu, h4⟩ := h w (List.mem_cons_self ..) h1 _ hx (by omega)
            rw [Nat.add_sub_cancel, hv] at hu
            cases hu
            exact h3 h4

theorem endOK_iff (s : Slice) (v : Nat) : endOK s v = true ↔ v = 0 ∨ ∃ u, s.vtxs[v - 1]? = some u ∧ u.id ≠ 0 := by
  unfold endOK
  cases h : s.vtxs[v - 1]? with
  | none => simp
  | some u => simp

theorem chkTjs_spec (s : Slice) : ∀ l : List Traj,
    ((chkTjs s l).1 = true ↔ ∀ t ∈ l, t.killed = false → t.halo = false → ∀ e, endOK s (t.vtxAt e) = true) ∧
    ((chkTjs s l).1 = true → (chkTjs s l).2 = l) ∧
    ((chkTjs s l).1 = false → ∃ i t e, l[i]? = some t ∧ endOK s (t.vtxAt e) = false ∧
      (chkTjs s l).2 = l.set i (t.setVtx e 0)) := by
  intro l
  induction l with
  | nil => simp [chkTjs]
  | cons t l ih =>
    obtain ⟨h1, h2, h3⟩ := ih
    have hrest : (chkTjs s l).1 = false → ∃ i u e, (t :: l)[i]? = some u ∧ endOK s (u.vtxAt e) = false ∧
        t :: (chkTjs s l).2 = (t :: l).set i (u.setVtx e 0) := by
      intro h
      obtain ⟨i, u, e, a, b, c⟩ := h3 h
      exact ⟨i + 1, u, e, by simpa using a, b, by simp [c]⟩
    rw [chkTjs]
    by_cases hk : (t.killed || t.halo) = true
    · rw [if_pos hk]
      refine ⟨?_, fun h => by simp [h2 h], hrest⟩
      rw [h1]
      constructor
      · intro h u hu
        rcases List.mem_cons.1 hu with rfl | hu
        · intro a b; simp [a, b] at hk
        · exact h u hu
      · intro h u hu
        exact h u (List.mem_cons_of_mem _ hu)
    · rw [if_neg hk]
      have hk' : t.killed = false ∧ t.halo = false := by simpa using hk
      by_cases e1 : endOK s t.vtx.1 = false
      · rw [if_pos e1]
        refine ⟨?_, by simp, fun _ => ⟨0, t, false, rfl, e1, rfl⟩⟩
        simp only [Bool.false_eq_true, false_iff]
        intro h
        have := h t (List.mem_cons_self ..) hk'.1 hk'.2 false
        simp [Traj.vtxAt, e1] at this
      · rw [if_neg e1]
        by_cases e2 : endOK s t.vtx.2 = false
        · rw [if_pos e2]
          refine ⟨?_, by simp, fun _ => ⟨0, t, true, rfl, e2, rfl⟩⟩
          simp only [Bool.false_eq_true, false_iff]
          intro h
          have := h t (List.mem_cons_self ..) hk'.1 hk'.2 true
          simp [Traj.vtxAt, e2] at this
        · rw [if_neg e2]
          refine ⟨?_, fun h => by simp [h2 h], hrest⟩
          rw [h1]
          constructor
          · intro h u hu
            rcases List.mem_cons.1 hu with rfl | hu
            · intro _ _ e
              cases e
              · simpa [Traj.vtxAt] using e1
              · simpa [Traj.vtxAt] using e2
            · exact h u hu
          · intro h u hu
            exact h u (List.mem_cons_of_mem _ hu)

/-- what the check of the tables looks at, for one plane -/
structure Checked (s : Slice) (ctp plane : Nat) : Prop where
  up : ∀ v ∈ s.vtxs, v.ctp = ctp → v.id ≠ 0 → v.vx3 ≠ 0 →
    ∃ w, s.vtx3s[v.vx3 - 1]? = some w ∧ w.id ≠ 0 ∧ w.vx2[plane]? = some v.id
  down : ∀ w ∈ s.vtx3s, w.id ≠ 0 → ∀ y : Nat, w.vx2[plane]? = some y → y ≠ 0 →
    ∃ v, s.vtxs[y - 1]? = some v ∧ v.vx3 = w.id
  ends : ∀ t ∈ s.tjs, t.killed = false → t.halo = false → ∀ e, t.vtxAt e = 0 ∨
    ∃ v, s.vtxs[t.vtxAt e - 1]? = some v ∧ v.id ≠ 0

/-- **C125.** The check of the vertex tables answers yes exactly when 2D and 3D vertices of the plane name each other and
every end of a trajectory (neither killed nor halo) is free or carries a vertex that exists and is not killed; it then
changes nothing. Otherwise at most one end is cleared, and only one that carries no such vertex. -/
theorem C125_check (s : Slice) (ctp plane : Nat) (hp : ∀ w ∈ s.vtx3s, plane < w.vx2.length) :
    ∃ b s', chkVtxAssociations s ctp plane = some (b, s') ∧ (b = true ↔ Checked s ctp plane) ∧ (b = true → s' = s) ∧
      (s' = s ∨ ∃ i t e, s.tjs[i]? = some t ∧
        ¬ (t.vtxAt e = 0 ∨ ∃ v, s.vtxs[t.vtxAt e - 1]? = some v ∧ v.id ≠ 0) ∧
        s' = { s with tjs := s.tjs.set i (t.setVtx e 0) }) := by
  obtain ⟨b1, e1, f1⟩ := chk23_spec s ctp plane hp s.vtxs
  obtain ⟨b2, e2, f2⟩ := chk32_spec s plane s.vtx3s hp
  obtain ⟨g1, g2, g3⟩ := chkTjs_spec s s.tjs
  unfold chkVtxAssociations
  rw [e1, e2]
  cases b1 with
  | false =>
    refine ⟨false, s, rfl, ?_, fun _ => rfl, Or.inl rfl⟩
    simp only [Bool.false_eq_true, false_iff] at f1 ⊢
    exact fun h => f1 h.up
  | true =>
    cases b2 with
    | false =>
      refine ⟨false, s, rfl, ?_, fun _ => rfl, Or.inl rfl⟩
      simp only [Bool.false_eq_true, false_iff] at f2 ⊢
      exact fun h => f2 h.down
    | true =>
      refine ⟨_, _, rfl, ?_, ?_, ?_⟩
      · rw [g1]
        constructor
        · intro h
          exact ⟨f1.1 rfl, f2.1 rfl, fun t ht a b e => (endOK_iff s _).1 (h t ht a b e)⟩
        · intro h t ht a b e
          exact (endOK_iff s _).2 (h.ends t ht a b e)
      · intro h
        rw [g2 h]
      · cases hb : (chkTjs s s.tjs).1 with
        | true => left; rw [g2 hb]
        | false =>
          right
          obtain ⟨i, t, e, a, b, c⟩ := g3 hb
          refine ⟨i, t, e, a, ?_, by rw [c]⟩
          rw [← endOK_iff, b]
          simp

/-- **C125.** Agreement of the tables implies that the check answers yes in every plane. -/
theorem C125_ok_passes {s : Slice} (hs : VtxOK s) (ctp plane : Nat) (hp : ∀ w ∈ s.vtx3s, plane < w.vx2.length)
    (hc : ∀ v ∈ s.vtxs, v.ctp = ctp → v.plane = plane) : chkVtxAssociations s ctp plane = some (true, s) := by
  obtain ⟨b, s', h1, h2, h3, _⟩ := C125_check s ctp plane hp
  have hb : b = true := by
    apply h2.2
    refine ⟨?_, ?_, ?_⟩
    · intro v hv a b c
      obtain ⟨i, hi, rfl⟩ := List.mem_iff_getElem.1 hv
      obtain ⟨w, x, y, z⟩ := hs.up i _ (List.getElem?_eq_getElem hi) b c
      rw [hc _ hv a] at z
      exact ⟨w, x, by omega, z⟩
    · intro w hw a y hy hy0
      obtain ⟨i, hi, rfl⟩ := List.mem_iff_getElem.1 hw
      obtain ⟨v, b, c, d, _⟩ := hs.down i _ (List.getElem?_eq_getElem hi) a plane y hy hy0
      exact ⟨v, b, d⟩
    · intro t ht a b e
      rcases hs.ends t ht a b e with h | h | ⟨v, c, d, _⟩
      · exact Or.inl h
      · exact Or.inl h
      · by_cases h0 : t.vtxAt e = 0
        · exact Or.inl h0
        · exact Or.inr ⟨v, c, by omega⟩
  rw [h1, hb, h3 hb]

example : VtxOK exV ∧ (∀ w ∈ exV.vtx3s, 0 < w.vx2.length) ∧ ∀ v ∈ exV.vtxs, v.ctp = 0 → v.plane = 0 :=
  ⟨exV_ok, by decide, by decide⟩

/-- the check does not detect that a 3D vertex names a killed 2D vertex, nor that a trajectory is attached to a vertex
of another plane -/
theorem C125_incomplete_refuted :
    (chkVtxAssociations
      { exV with tjs := [{ pts := [pt 0, pt 1], vtx := (2, 0), id := 1 }],
                 vtxs := [⟨0, 1, 0, 0, (0, 0), 0, false⟩, ⟨2, 1, 1, 1, (0, 0), 0, false⟩] } 0 0).map (·.1) = some true ∧
    ¬ VtxOK { exV with tjs := [{ pts := [pt 0, pt 1], vtx := (2, 0), id := 1 }],
                       vtxs := [⟨0, 1, 0, 0, (0, 0), 0, false⟩, ⟨2, 1, 1, 1, (0, 0), 0, false⟩] } := by
  refine ⟨by decide +kernel, ?_⟩
  intro h
  obtain ⟨v, a, b, _⟩ := h.down 0 ⟨1, [1, 2, 0], 3, -1⟩ rfl (by decide) 0 1 rfl (by decide)
  simp at a
  subst a
  simp at b

end Verif.TC

import Verif.SmallMods.Model
import Mathlib.Data.List.Induction
import Mathlib.Tactic.Linarith
import Mathlib.Tactic.NormNum

/-!
# Properties C493-C498
-/

namespace Verif.SmallMods

/-- **C493**: good hits of the collection plane are read as X hits in views Z and V and as U hits in views U and Y; the
others as U and V hits in views U and V; each list is in order, and there are two views exactly if a good hit of the
collection plane is in another view than Z (U, V or Y). -/
theorem C493_standard (hs : List RHit) :
    (readStandard hs).x = hs.filter (fun h => h.bad = false ∧ h.col = true ∧ (h.view = .z ∨ h.view = .v)) ∧
    (readStandard hs).u = hs.filter (fun h => h.bad = false ∧
      ((h.col = true ∧ (h.view = .u ∨ h.view = .y)) ∨ (h.col = false ∧ h.view = .u))) ∧
    (readStandard hs).v = hs.filter (fun h => h.bad = false ∧ h.col = false ∧ h.view = .v) ∧
    ((readStandard hs).two = true ↔ ∃ h ∈ hs, h.bad = false ∧ h.col = true ∧
      (h.view = .v ∨ h.view = .u ∨ h.view = .y)) := by
  unfold readStandard
  induction hs using List.reverseRecOn with
  | nil => simp
  | append_singleton hs h ih =>
    rw [List.foldl_append, List.foldl_cons, List.foldl_nil]
    generalize hs.foldl readStep {} = s at ih ⊢
    obtain ⟨i1, i2, i3, i4⟩ := ih
    obtain ⟨k, b, c, w, p⟩ := h
    simp only [List.filter_append, List.mem_append, List.mem_singleton, or_and_right, exists_or, ← i1, ← i2, ← i3,
      ← i4, exists_eq_left]
    cases b <;> cases c <;> cases w <;> simp [readStep]

/-- **C494**: with the other reader the good hits are read by plane: 0 is the first induction, 1 the second, the others
are the collection, each in order; every good hit is read once. -/
theorem C494_icarus (hs : List RHit) :
    (readIcarus hs).u = hs.filter (fun h => h.bad = false ∧ h.plane = 0) ∧
    (readIcarus hs).v = hs.filter (fun h => h.bad = false ∧ h.plane = 1) ∧
    (readIcarus hs).x = hs.filter (fun h => h.bad = false ∧ 2 ≤ h.plane) ∧
    (readIcarus hs).two = false := by
  unfold readIcarus
  induction hs using List.reverseRecOn with
  | nil => simp
  | append_singleton hs h ih =>
    rw [List.foldl_append, List.foldl_cons, List.foldl_nil]
    generalize hs.foldl _ _ = s at ih ⊢
    obtain ⟨i1, i2, i3, i4⟩ := ih
    rw [List.filter_append, List.filter_append, List.filter_append, ← i1, ← i2, ← i3]
    obtain ⟨k, b, c, w, p⟩ := h
    cases b with
    | true => simp [i4]
    | false =>
      rcases p with _ | _ | p <;> simp [i4]

example : readStandard [⟨0, false, true, .z, 2⟩, ⟨1, true, true, .z, 2⟩, ⟨2, false, false, .u, 0⟩,
    ⟨3, false, false, .y, 0⟩] = ⟨[⟨0, false, true, .z, 2⟩], [⟨2, false, false, .u, 0⟩], [], false⟩ := by decide

example : (readIcarus [⟨0, false, true, .z, 2⟩, ⟨1, false, true, .u, 1⟩, ⟨2, true, false, .u, 0⟩]).v =
    [⟨1, false, true, .u, 1⟩] := by decide

/-- **C495**: the hits are the copies of those in view Z, in order, and then those that were disambiguated, each with its
new wire; each is associated with the wire and digits of the hit it is a copy of. -/
theorem C495_apa (views : List View) (dis : List (ℕ × ℕ)) :
    ((apaHits views dis).map (fun h => (h.src, h.wire)) =
      ((List.range views.length).filter (fun i => views[i]? = some .z)).map (fun i => (i, none)) ++
        dis.map (fun d => (d.1, some d.2))) ∧
    ∀ h ∈ apaHits views dis, h.assn = h.src := by
  have h1 : ∀ (l : List AHit), dis.foldl (fun l d => l ++ [⟨d.1, some d.2, d.1⟩]) l =
      l ++ dis.map (fun d => (⟨d.1, some d.2, d.1⟩ : AHit)) := by
    induction dis with
    | nil => simp
    | cons d r ih => intro l; rw [List.foldl_cons, ih]; simp
  have h2 : views.zipIdx.foldl (fun (l : List AHit) v => if v.1 ≠ .z then l else l ++ [⟨v.2, none, v.2⟩]) [] =
      ((List.range views.length).filter (fun i => views[i]? = some .z)).map (fun i => (⟨i, none, i⟩ : AHit)) := by
    induction views using List.reverseRecOn with
    | nil => simp
    | append_singleton vs v ih =>
      rw [List.zipIdx_append, List.foldl_append, ih, List.length_append, List.length_singleton, List.range_succ,
        List.filter_append, List.map_append]
      have : (List.range vs.length).filter (fun i => decide ((vs ++ [v])[i]? = some View.z)) =
          (List.range vs.length).filter (fun i => decide (vs[i]? = some View.z)) := by
        apply List.filter_congr
        intro i hi
        rw [List.getElem?_append_left (List.mem_range.1 hi)]
      rw [this]
      cases v <;> simp
  unfold apaHits
  rw [h1, h2]
  refine ⟨by simp [Function.comp_def], fun h hh => ?_⟩
  rcases List.mem_append.1 hh with hh | hh
  · obtain ⟨i, _, rfl⟩ := List.mem_map.1 hh; rfl
  · obtain ⟨d, _, rfl⟩ := List.mem_map.1 hh; rfl

example : apaHits [.u, .z, .v] [(2, 7), (0, 3)] = [⟨1, none, 1⟩, ⟨2, some 7, 2⟩, ⟨0, some 3, 0⟩] := by decide

/-! ### Entries of the tree -/

/-- Specification: the number of a supported view. -/
def IsView (v : View) (n : ℕ) : Prop := (v = .u ∧ n = 0) ∨ (v = .v ∧ n = 1) ∨ (v = .z ∧ n = 2)

theorem cls_fold (views : List View) (hv : ∀ v ∈ views, v = .u ∨ v = .v ∨ v = .z) (f k : ℕ) (a b c : List ℕ) :
    ∃ f', (views.zipIdx k).foldlM clsStep (f, [a, b, c]) = some (f',
      [a ++ ((views.zipIdx k).filter (fun x => x.1 = .u)).map (·.2),
       b ++ ((views.zipIdx k).filter (fun x => x.1 = .v)).map (·.2),
       c ++ ((views.zipIdx k).filter (fun x => x.1 = .z)).map (·.2)]) := by
  induction views generalizing f k a b c with
  | nil => exact ⟨f, by simp⟩
  | cons v r ih =>
    have hr := fun w hw => hv w (List.mem_cons_of_mem _ hw)
    rw [List.zipIdx_cons, List.foldlM_cons]
    rcases hv v (by simp) with rfl | rfl | rfl
    · obtain ⟨f', h⟩ := ih hr 0 (k + 1) (a ++ [k]) b c
      refine ⟨f', ?_⟩
      simpa [clsStep, viewNo] using h
    · obtain ⟨f', h⟩ := ih hr 1 (k + 1) a (b ++ [k]) c
      refine ⟨f', ?_⟩
      simpa [clsStep, viewNo] using h
    · obtain ⟨f', h⟩ := ih hr 2 (k + 1) a b (c ++ [k])
      refine ⟨f', ?_⟩
      simpa [clsStep, viewNo] using h

theorem mem_idx (views : List View) (w : View) (i : ℕ) :
    i ∈ ((views.zipIdx 0).filter (fun x => x.1 = w)).map (·.2) ↔ views[i]? = some w := by
  rw [List.mem_map]
  constructor
  · rintro ⟨⟨v, j⟩, hm, rfl⟩
    rw [List.mem_filter, List.mem_zipIdx_iff_getElem?] at hm
    simp only [decide_eq_true_eq] at hm
    rw [hm.1, hm.2]
  · intro h
    exact ⟨(w, i), List.mem_filter.2 ⟨List.mem_zipIdx_iff_getElem?.2 h, by simp⟩, rfl⟩

/-- **C496**, part: if all clusters are in the views U, V and Z, there is an entry for each cluster with its view, and no
other. -/
theorem C496_entries_partial (f : ℕ) (views : List View) (hv : ∀ v ∈ views, v = .u ∨ v = .v ∨ v = .z) :
    ∃ es, analyze f views = some es ∧ es.length = views.length ∧
      ∀ n i, (n, i) ∈ es ↔ ∃ v, views[i]? = some v ∧ IsView v n := by
  obtain ⟨f', h⟩ := cls_fold views hv f 0 [] [] []
  unfold analyze
  rw [show views.zipIdx = views.zipIdx 0 from rfl, h]
  refine ⟨_, rfl, ?_, fun n i => ?_⟩
  · have hl : ∀ (l : List (View × ℕ)), (∀ x ∈ l, x.1 = .u ∨ x.1 = .v ∨ x.1 = .z) →
        (l.filter (fun x => x.1 = .u)).length + (l.filter (fun x => x.1 = .v)).length +
          (l.filter (fun x => x.1 = .z)).length = l.length := by
      intro l
      induction l with
      | nil => simp
      | cons x l ih =>
        intro hx
        have := ih (fun y hy => hx y (List.mem_cons_of_mem _ hy))
        obtain ⟨v, j⟩ := x
        rcases hx (v, j) (by simp) with h | h | h <;> simp only at h <;> subst h <;> simp <;> omega
    have := hl (views.zipIdx 0) (fun x hx => hv _ (by
      obtain ⟨v, j⟩ := x
      exact List.mem_of_getElem? (List.mem_zipIdx_iff_getElem?.1 hx)))
    simp only [List.nil_append, List.zipIdx_cons, List.zipIdx_nil, List.flatMap_cons, List.flatMap_nil,
      List.append_nil, List.length_append, List.length_map]
    rw [List.length_zipIdx] at this
    omega
  · simp only [List.nil_append, List.zipIdx_cons, List.zipIdx_nil, List.flatMap_cons, List.flatMap_nil,
      List.append_nil, List.mem_append]
    have hmm : ∀ (l : List ℕ) (m : ℕ), (n, i) ∈ l.map (fun c => (m, c)) ↔ i ∈ l ∧ n = m := by
      intro l m
      rw [List.mem_map]
      constructor
      · rintro ⟨c, hc, hq⟩
        simp only [Prod.mk.injEq] at hq
        exact ⟨hq.2 ▸ hc, hq.1.symm⟩
      · rintro ⟨h1, rfl⟩; exact ⟨i, h1, rfl⟩
    rw [hmm, hmm, hmm, mem_idx, mem_idx, mem_idx]
    unfold IsView
    constructor
    · rintro (⟨h1, h2⟩ | ⟨h1, h2⟩ | ⟨h1, h2⟩)
      · exact ⟨_, h1, Or.inl ⟨rfl, h2⟩⟩
      · exact ⟨_, h1, Or.inr (Or.inl ⟨rfl, h2⟩)⟩
      · exact ⟨_, h1, Or.inr (Or.inr ⟨rfl, h2⟩)⟩
    · rintro ⟨v, h1, ⟨rfl, h2⟩ | ⟨rfl, h2⟩ | ⟨rfl, h2⟩⟩
      · exact Or.inl ⟨h1, h2⟩
      · exact Or.inr (Or.inl ⟨h1, h2⟩)
      · exact Or.inr (Or.inr ⟨h1, h2⟩)

/-- **C496** fails: a cluster in another view is entered in the view of the one before it, and if it is the first of an
event that is not the first, the code is undefined. -/
theorem C496_refuted : analyze 3 [.z, .y] = some [(2, 0), (2, 1)] ∧ analyze 3 [.y, .z] = none := by decide

example : analyze 3 [.z, .u, .z] = some [(0, 1), (2, 0), (2, 2)] := by decide

/-! ### Cosmic rays -/

/-- Specification: the smallest of four distances. -/
def Smallest (d a b c e : ℚ) : Prop := (d = a ∨ d = b ∨ d = c ∨ d = e) ∧ d ≤ a ∧ d ≤ b ∧ d ≤ c ∧ d ≤ e

theorem nearest_spec (y z y0 y1 z0 z1 big : ℚ) (h : |y - y0| < big) :
    Smallest (nearest y z y0 y1 z0 z1 big) |y - y0| |y - y1| |z - z0| |z - z1| := by
  unfold nearest Smallest
  simp only [h, if_true]
  generalize |y - y0| = a
  generalize |y - y1| = b
  generalize |z - z0| = c
  generalize |z - z1| = e
  by_cases h1 : b < a
  · simp only [h1, if_true]
    by_cases h2 : c < b
    · simp only [h2, if_true]
      by_cases h3 : e < c
      · simp only [h3, if_true]; refine ⟨by simp, ?_, ?_, ?_, ?_⟩ <;> linarith
      · simp only [h3, if_false]; refine ⟨by simp, ?_, ?_, ?_, ?_⟩ <;> linarith
    · simp only [h2, if_false]
      by_cases h3 : e < b
      · simp only [h3, if_true]; refine ⟨by simp, ?_, ?_, ?_, ?_⟩ <;> linarith
      · simp only [h3, if_false]; refine ⟨by simp, ?_, ?_, ?_, ?_⟩ <;> linarith
  · simp only [h1, if_false]
    by_cases h2 : c < a
    · simp only [h2, if_true]
      by_cases h3 : e < c
      · simp only [h3, if_true]; refine ⟨by simp, ?_, ?_, ?_, ?_⟩ <;> linarith
      · simp only [h3, if_false]; refine ⟨by simp, ?_, ?_, ?_, ?_⟩ <;> linarith
    · simp only [h2, if_false]
      by_cases h3 : e < a
      · simp only [h3, if_true]; refine ⟨by simp, ?_, ?_, ?_, ?_⟩ <;> linarith
      · simp only [h3, if_false]; refine ⟨by simp, ?_, ?_, ?_, ?_⟩ <;> linarith

/-- **C497**: the score is 1 exactly if an end is below -2 or above 260 in X, or the sum of the distances of the two ends
to the nearest side in Y and Z is below 30; otherwise it is 0. -/
theorem C497_score (sx sy sz ex ey ez y0 y1 z0 z1 big d1 d2 : ℚ) (h1 : |sy - y0| < big) (h2 : |ey - y0| < big)
    (hd1 : Smallest d1 |sy - y0| |sy - y1| |sz - z0| |sz - z1|)
    (hd2 : Smallest d2 |ey - y0| |ey - y1| |ez - z0| |ez - z1|) :
    (cosmicScore sx sy sz ex ey ez y0 y1 z0 z1 big = 1 ∨ cosmicScore sx sy sz ex ey ez y0 y1 z0 z1 big = 0) ∧
    (cosmicScore sx sy sz ex ey ez y0 y1 z0 z1 big = 1 ↔
      sx < -2 ∨ ex < -2 ∨ 260 < sx ∨ 260 < ex ∨ d1 + d2 < 30) := by
  have hu : ∀ (d d' a b c e : ℚ), Smallest d a b c e → Smallest d' a b c e → d = d' := by
    rintro d d' a b c e ⟨p, p1, p2, p3, p4⟩ ⟨q, q1, q2, q3, q4⟩
    apply le_antisymm
    · rcases q with rfl | rfl | rfl | rfl <;> assumption
    · rcases p with rfl | rfl | rfl | rfl <;> assumption
  have e1 := hu _ _ _ _ _ _ (nearest_spec sy sz y0 y1 z0 z1 big h1) hd1
  have e2 := hu _ _ _ _ _ _ (nearest_spec ey ez y0 y1 z0 z1 big h2) hd2
  unfold cosmicScore
  rw [e1, e2]
  simp only [min_lt_iff, gt_iff_lt, lt_max_iff]
  split
  · next h => simp only [true_or, true_iff, true_and]; tauto
  · next h =>
    simp only [zero_ne_one, false_or, or_true, false_iff, true_and]
    tauto

example : cosmicScore 10 50 500 100 (-100) 520 (-116) 116 0 1037 1000 = 0 ∧
    cosmicScore 10 110 500 100 (-100) 520 (-116) 116 0 1037 1000 = 1 := by
  constructor <;> norm_num [cosmicScore, nearest, abs_of_nonneg, abs_of_nonpos]

/-- **C498**: the origin is the first of those with the most energy; without any it is 0. -/
theorem C498_origin (omap : List (ℤ × ℚ)) (he : ∀ x ∈ omap, 0 ≤ x.2) :
    (omap = [] → origin omap = 0) ∧
    (omap ≠ [] → ∃ a e b, omap = a ++ (origin omap, e) :: b ∧ (∀ x ∈ a, x.2 < e) ∧ ∀ x ∈ b, x.2 ≤ e) := by
  refine ⟨fun h => by rw [h]; rfl, fun hne => ?_⟩
  have key : ∀ (l : List (ℤ × ℚ)), (∀ x ∈ l, 0 ≤ x.2) → l ≠ [] → ∃ a e b o,
      l.foldl (fun (s : ℚ × ℤ) x => if x.2 > s.1 then (x.2, x.1) else s) (-1, 0) = (e, o) ∧
      l = a ++ (o, e) :: b ∧ (∀ x ∈ a, x.2 < e) ∧ ∀ x ∈ b, x.2 ≤ e := by
    intro l
    induction l using List.reverseRecOn with
    | nil => intro _ h; exact absurd rfl h
    | append_singleton l x ih =>
      intro hl _
      rw [List.foldl_append, List.foldl_cons, List.foldl_nil]
      by_cases hn : l = []
      · subst hn
        have := hl x (by simp)
        refine ⟨[], x.2, [], x.1, ?_, by simp, by simp, by simp⟩
        rw [List.foldl_nil, if_pos (by simp only; linarith)]
      · obtain ⟨a, e, b, o, h1, h2, h3, h4⟩ := ih (fun y hy => hl y (by simp [hy])) hn
        rw [h1]
        by_cases hx : x.2 > e
        · simp only [hx, if_true]
          refine ⟨l, x.2, [], x.1, rfl, by simp, fun y hy => ?_, by simp⟩
          rw [h2] at hy
          rcases List.mem_append.1 hy with hy | hy
          · exact lt_trans (h3 y hy) hx
          · rcases List.mem_cons.1 hy with rfl | hy
            · exact hx
            · exact lt_of_le_of_lt (h4 y hy) hx
        · simp only [hx, if_false]
          refine ⟨a, e, b ++ [x], o, rfl, by rw [h2]; simp, h3, fun y hy => ?_⟩
          rcases List.mem_append.1 hy with hy | hy
          · exact h4 y hy
          · have : y = x := by simpa using hy
            rw [this]; exact not_lt.1 hx
  obtain ⟨a, e, b, o, h1, h2, h3, h4⟩ := key omap he hne
  have : origin omap = o := by unfold origin; rw [h1]
  exact ⟨a, e, b, by rw [this]; exact h2, h3, h4⟩

example : origin [(1, 2), (2, 5), (3, 5)] = 2 := by decide +kernel

end Verif.SmallMods

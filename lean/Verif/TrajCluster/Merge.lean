import Verif.TrajCluster.Vertex
/-!
# Merging two trajectories
-/
namespace Verif.TC

/-! ### specification -/

/-- a stored trajectory (not a shower, not halo) as the code keeps it: its end points are up to date, two points have
charge and it uses a hit; points have at most 16 hits, hits are used at points with charge only; the number it had under
construction is carried by no hit any more -/
structure Mergeable (s : Slice) (t : Traj) : Prop where
  alive : t.killed = false ∧ t.shower = false ∧ t.halo = false
  ends : t.endPt = (setEndPoints t).endPt
  two : TwoPoints t
  nonempty : used t ≠ []
  range : ∀ p ∈ t.pts, ∀ x ∈ p.hits, x.1 < s.n
  few : ∀ p ∈ t.pts, p.hits.length ≤ 16
  charge : ∀ p ∈ t.pts, p.chg = 0 → ∀ x ∈ p.hits, x.2 = false
  work : t.workID < 0 ∧ ∀ h < s.n, s.own h ≠ t.workID

/-- the hits of `m`: all of `a` and those of at least one point with charge of `b`, no others -/
def Joined (a b m : Traj) : Prop :=
  (∀ h ∈ used a, h ∈ used m) ∧ (∃ p ∈ b.pts, p.chg ≠ 0 ∧ ∀ h ∈ tpHits .used p, h ∈ used m) ∧
    ∀ h ∈ used m, h ∈ used a ∨ h ∈ used b

/-! ### lemmas -/

theorem hasDup_false {l : List Nat} : hasDup l = false → l.Nodup := by
  induction l with
  | nil => simp
  | cons a l ih =>
    intro h
    rw [hasDup, Bool.or_eq_false_iff] at h
    rw [List.nodup_cons]
    refine ⟨?_, ih h.2⟩
    intro ha
    rw [List.any_eq_false] at h
    exact h.1 a ha (by simp)

theorem docaGo_bound (pos : Rat × Rat) : ∀ (l : List TP) (i : Nat) (best : Rat) (c : Option Nat) (r : Nat),
    docaGo pos l i best c = some r → c = some r ∨ (i ≤ r ∧ r < i + l.length) := by
  intro l
  induction l with
  | nil => intro i best c r h; exact Or.inl h
  | cons p l ih =>
    intro i best c r h
    rw [docaGo] at h
    split at h
    · rcases ih _ _ _ _ h with h | ⟨h1, h2⟩
      · cases h
        right
        simp
      · right
        simp only [List.length_cons]
        omega
    · rcases ih _ _ _ _ h with h | ⟨h1, h2⟩
      · exact Or.inl h
      · right
        simp only [List.length_cons]
        omega

theorem bump_le (hits : List Nat) (pts : List TP) : ∀ (m c : Nat), c ≤ bump hits pts m c ∧ bump hits pts m c ≤ c + m := by
  intro m
  induction m with
  | zero => intro c; simp [bump]
  | succ m ih =>
    intro c
    rw [bump]
    cases pts[c]? with
    | none => simp
    | some p =>
      simp only
      split
      · have := ih (c + 1); omega
      · omega

theorem flatMap_used_sub_all (l : List TP) : (l.flatMap (tpHits .used)).Sublist (l.flatMap (tpHits .all)) := by
  induction l with
  | nil => simp
  | cons p l ih =>
    simp only [List.flatMap_cons]
    refine List.Sublist.append ?_ ih
    unfold tpHits
    refine List.Sublist.map _ ?_
    have : p.hits.filter (fun x => wanted .all x.2) = p.hits := by
      rw [List.filter_eq_self]; intro _ _; rfl
    rw [this]
    exact List.filter_sublist

theorem mem_used_reverse (pi : Rat) (t : Traj) (h : Nat) : h ∈ used (reverseTraj pi t) ↔ h ∈ used t := by
  unfold reverseTraj
  split
  · rfl
  · rename_i hne
    unfold used trajHits
    rw [setEndPoints_pts]
    obtain ⟨_, _, f3, _⟩ := setEndPoints_fields
      { t with
        stepDir := -t.stepDir
        vtx := (t.vtx.2, t.vtx.1)
        endFlag := (t.endFlag.2, t.endFlag.1)
        dEdx := (t.dEdx.2, t.dEdx.1)
        pts := t.pts.reverse.map fun p =>
          { p with dir := (-p.dir.1, -p.dir.2), ang := if 0 < p.ang then p.ang - pi else p.ang + pi }
        startEnd := if t.startEnd = 0 ∨ t.startEnd = 1 then 1 - t.startEnd else t.startEnd }
    rw [f3]
    simp only
    split
    · simp [List.mem_flatMap]
    · simp only [List.mem_flatMap, List.mem_map, List.mem_reverse]
      constructor
      · rintro ⟨p, ⟨q, hq, rfl⟩, hp⟩
        exact ⟨q, hq, hp⟩
      · rintro ⟨q, hq, hp⟩
        exact ⟨_, ⟨q, hq, rfl⟩, hp⟩

theorem setEndPoints_idem (t : Traj) : (setEndPoints (setEndPoints t)).endPt = (setEndPoints t).endPt := by
  obtain ⟨_, _, f3, f4, _⟩ := setEndPoints_fields t
  have hp := setEndPoints_pts t
  unfold setEndPoints
  split
  · rename_i h; rfl
  · rfl

/-- the points of the reversed trajectory -/
theorem reverse_spec (pi : Rat) (t : Traj) (hne : t.pts ≠ []) :
    (∀ (k : Nat) (p : TP), t.pts[k]? = some p → ∃ q, (reverseTraj pi t).pts[t.pts.length - 1 - k]? = some q ∧
      q.hits = p.hits ∧ q.chg = p.chg) ∧
    (∀ q ∈ (reverseTraj pi t).pts, ∃ p ∈ t.pts, q.hits = p.hits ∧ q.chg = p.chg) ∧
    (reverseTraj pi t).killed = t.killed ∧ (reverseTraj pi t).shower = t.shower ∧ (reverseTraj pi t).halo = t.halo ∧
    (reverseTraj pi t).workID = t.workID ∧ (reverseTraj pi t).endPt = (setEndPoints (reverseTraj pi t)).endPt := by
  unfold reverseTraj
  rw [if_neg hne]
  generalize hu : ({ t with
        stepDir := -t.stepDir
        vtx := (t.vtx.2, t.vtx.1)
        endFlag := (t.endFlag.2, t.endFlag.1)
        dEdx := (t.dEdx.2, t.dEdx.1)
        pts := t.pts.reverse.map fun p =>
          { p with dir := (-p.dir.1, -p.dir.2), ang := if 0 < p.ang then p.ang - pi else p.ang + pi }
        startEnd := if t.startEnd = 0 ∨ t.startEnd = 1 then 1 - t.startEnd else t.startEnd } : Traj) = u
  obtain ⟨f1, f2, f3, f4, f5, f6, f7, f8⟩ := setEndPoints_fields u
  rw [f2, f3, f4, f8, setEndPoints_pts]
  refine ⟨?_, ?_, by rw [← hu], by rw [← hu], by rw [← hu], by rw [← hu], (setEndPoints_idem u).symm⟩
  · intro k p hk
    have hl := (List.getElem?_eq_some_iff.1 hk).1
    rw [← hu]
    simp only [List.getElem?_map]
    rw [List.getElem?_reverse (by omega), show t.pts.length - 1 - (t.pts.length - 1 - k) = k by omega, hk]
    exact ⟨_, rfl, rfl, rfl⟩
  · intro q hq
    rw [← hu] at hq
    simp only [List.mem_map, List.mem_reverse] at hq
    obtain ⟨p, hp, rfl⟩ := hq
    exact ⟨p, hp, rfl, rfl⟩

theorem Mergeable.reverse {s : Slice} {t : Traj} (pi : Rat) (h : Mergeable s t) : Mergeable s (reverseTraj pi t) := by
  have hne : t.pts ≠ [] := by
    intro e
    obtain ⟨i, j, p, q, _, h2, _⟩ := h.two
    rw [e] at h2
    cases h2
  obtain ⟨r1, r2, r3, r4, r5, r6, r7⟩ := reverse_spec pi t hne
  refine ⟨by rw [r3, r4, r5]; exact h.alive, r7, ?_, ?_, ?_, ?_, ?_, by rw [r6]; exact h.work⟩
  · obtain ⟨i, j, p, q, h1, h2, h3, h4, h5⟩ := h.two
    obtain ⟨p', a1, a2, a3⟩ := r1 i p h2
    obtain ⟨q', b1, b2, b3⟩ := r1 j q h3
    have := (List.getElem?_eq_some_iff.1 h3).1
    exact ⟨_, _, q', p', by omega, b1, a1, by rw [b3]; exact h5, by rw [a3]; exact h4⟩
  · intro e
    apply h.nonempty
    rw [List.eq_nil_iff_forall_not_mem] at e ⊢
    intro x hx
    exact e x ((mem_used_reverse pi t x).2 hx)
  · intro q hq
    obtain ⟨p, hp, h1, _⟩ := r2 q hq
    rw [h1]; exact h.range p hp
  · intro q hq
    obtain ⟨p, hp, h1, _⟩ := r2 q hq
    rw [h1]; exact h.few p hp
  · intro q hq
    obtain ⟨p, hp, h1, h2⟩ := r2 q hq
    rw [h1, h2]; exact h.charge p hp

theorem Mergeable.endPt {s : Slice} {t : Traj} (h : Mergeable s t) : t.endPt = (firstChg t.pts, lastChg t.pts) := by
  rw [h.ends]
  obtain ⟨_, h1, h2⟩ := h.alive
  simp [setEndPoints, h1, h2]

theorem Mergeable.last {s : Slice} {t : Traj} (h : Mergeable s t) :
    (∃ p, t.pts[t.endPt.2]? = some p ∧ p.chg ≠ 0) ∧ (∃ p, t.pts[t.endPt.1]? = some p ∧ p.chg ≠ 0) ∧
    t.endPt.1 < t.endPt.2 ∧ (t.pts.take (t.endPt.2 + 1)).flatMap (tpHits .used) = used t := by
  obtain ⟨_, hsh, hha⟩ := h.alive
  obtain ⟨i, j, p, q, h1, h2, h3, h4, h5⟩ := h.two
  have hlt : t.endPt.1 < t.endPt.2 := by rw [h.ends]; exact (endPt_lt_iff hsh hha).2 h.two
  rw [h.endPt] at hlt ⊢
  obtain ⟨_, c1, _⟩ := firstChg_spec i p h2 h4
  obtain ⟨_, c2, c3⟩ := lastChg_spec i p h2 h4
  refine ⟨c2, c1, hlt, ?_⟩
  rw [used_eq hsh]
  have e : t.pts.flatMap (tpHits .used) = (t.pts.take (lastChg t.pts + 1)).flatMap (tpHits .used) ++
      (t.pts.drop (lastChg t.pts + 1)).flatMap (tpHits .used) := by
    rw [← List.flatMap_append, List.take_append_drop]
  rw [e]
  have : (t.pts.drop (lastChg t.pts + 1)).flatMap (tpHits .used) = [] := by
    rw [List.flatMap_eq_nil_iff]
    intro r hr
    refine tpHits_of_unused (h.charge r (List.mem_of_mem_drop hr) ?_)
    obtain ⟨k, hk, rfl⟩ := List.mem_iff_getElem.1 hr
    rw [List.length_drop] at hk
    refine c3 (lastChg t.pts + 1 + k) (by omega) _ ?_
    rw [List.getElem_drop, List.getElem?_eq_getElem]
  rw [this, List.append_nil]

theorem mergedTj_fields (code : Traj → Nat) (t1 t2 : Traj) (c : Nat) :
    (mergedTj code t1 t2 c).pts = t1.pts.take (t1.endPt.2 + 1) ++ t2.pts.drop c ∧
    (mergedTj code t1 t2 c).killed = t1.killed ∧ (mergedTj code t1 t2 c).shower = t1.shower ∧
    (mergedTj code t1 t2 c).halo = t1.halo ∧ (mergedTj code t1 t2 c).id = t1.workID ∧
    (mergedTj code t1 t2 c).vtx = (t1.vtx.1, if 0 < t2.vtx.2 then t2.vtx.2 else t1.vtx.2) := by
  unfold mergedTj joinTj
  simp only
  obtain ⟨f1, f2, f3, f4, f5, f6, f7, f8⟩ := setEndPoints_fields
    { t1 with pts := t1.pts.take (t1.endPt.2 + 1) ++ t2.pts.drop c }
  have hp := setEndPoints_pts { t1 with pts := t1.pts.take (t1.endPt.2 + 1) ++ t2.pts.drop c }
  generalize setEndPoints { t1 with pts := t1.pts.take (t1.endPt.2 + 1) ++ t2.pts.drop c } = m at *
  simp only at f1 f2 f3 f4 f5 f6 f7 f8 hp
  cases t2.delta <;> cases t2.michel <;> by_cases hv : 0 < t2.vtx.2 <;>
    simp [hv, Traj.setVtx, hp, f2, f3, f4, f5, f8]

/-- replacing the numbers of parents changes nothing else -/
theorem Owned.reparent {s : Slice} (ho : Owned s) (i1 i2 new : Int) :
    Owned { s with tjs := reparent i1 i2 new s.tjs } ∧
    ∀ (k : Nat) (t : Traj), s.tjs[k]? = some t → ∃ t', (TC.reparent i1 i2 new s.tjs)[k]? = some t' ∧
      t' = { t with parentID := t'.parentID } := by
  have hput : ∀ (k : Nat) (t : Traj), s.tjs[k]? = some t → ∃ t', (TC.reparent i1 i2 new s.tjs)[k]? = some t' ∧
      t' = { t with parentID := t'.parentID } := by
    intro k t hk
    refine ⟨if t.parentID = i1 ∨ t.parentID = i2 then { t with parentID := new } else t,
      by simp only [TC.reparent, List.getElem?_map, hk, Option.map_some], ?_⟩
    split <;> rfl
  have hget : ∀ (k : Nat) (t' : Traj), (TC.reparent i1 i2 new s.tjs)[k]? = some t' → ∃ t, s.tjs[k]? = some t ∧
      t' = { t with parentID := t'.parentID } := by
    intro k t' hk
    simp only [TC.reparent, List.getElem?_map, Option.map_eq_some_iff] at hk
    obtain ⟨t, ht, rfl⟩ := hk
    refine ⟨t, ht, ?_⟩
    split <;> rfl
  have hus : ∀ {t t' : Traj}, t' = { t with parentID := t'.parentID } → used t' = used t := by
    intro t t' h
    generalize t'.parentID = x at h
    subst h
    exact used_congr rfl rfl .used
  have hf : ∀ {t t' : Traj}, t' = { t with parentID := t'.parentID } → t'.id = t.id ∧ t'.uid = t.uid ∧
      t'.killed = t.killed ∧ t'.pts = t.pts ∧ t'.shower = t.shower ∧ t'.halo = t.halo := by
    intro t t' h
    generalize t'.parentID = x at h
    subst h
    exact ⟨rfl, rfl, rfl, rfl, rfl, rfl⟩
  refine ⟨⟨?_, ?_, ?_, ?_, ?_, ?_⟩, hput⟩
  · intro k t' hk
    obtain ⟨t, ht, h⟩ := hget k t' hk
    rw [(hf h).1]
    exact ho.ids k t ht
  · intro x hx hp
    obtain ⟨k, t, a, b, c, d⟩ := ho.owner x hx hp
    obtain ⟨t', ht', h⟩ := hput k t a
    exact ⟨k, t', ht', b, by rw [(hf h).2.2.1]; exact c, by rw [hus h]; exact d⟩
  · intro k t' hk hkk
    obtain ⟨t, ht, h⟩ := hget k t' hk
    rw [hus h]
    exact ho.owns k t ht (by rw [← (hf h).2.2.1]; exact hkk)
  · intro k t' hk hkk
    obtain ⟨t, ht, h⟩ := hget k t' hk
    rw [hus h]
    exact ho.once k t ht (by rw [← (hf h).2.2.1]; exact hkk)
  · intro k t' hk hkk h1 h2
    obtain ⟨t, ht, h⟩ := hget k t' hk
    obtain ⟨_, _, f3, f4, f5, f6⟩ := hf h
    rw [f4]
    exact ho.charge k t ht (by rw [← f3]; exact hkk) (by rw [← f5]; exact h1) (by rw [← f6]; exact h2)
  · have hm : (TC.reparent i1 i2 new s.tjs).map Traj.uid = s.tjs.map Traj.uid := by
      simp only [TC.reparent, List.map_map]
      apply List.map_congr_left
      intro t _
      simp only [Function.comp]
      split <;> rfl
    refine ⟨by simp only; rw [hm]; exact ho.uids.1, ?_⟩
    intro t' ht'
    obtain ⟨k, hk, rfl⟩ := List.mem_iff_getElem.1 ht'
    obtain ⟨t, ht, h⟩ := hget k _ (List.getElem?_eq_getElem hk)
    rw [(hf h).2.1]
    exact ho.uids.2 t (List.mem_of_getElem? ht)

/-- what `mergeTail` does -/
theorem mergeTail_spec (code : Traj → Nat) {s : Slice} (ho : Owned s) {i j : Nat} {a b : Traj}
    (ha : s.tjs[i]? = some a) (hb : s.tjs[j]? = some b) (hak : a.killed = false) (hbk : b.killed = false)
    {t1 t2 : Traj} (c1 : Mergeable s t1) (c2 : Mergeable s t2)
    (hm : ∀ h, (h ∈ used t1 ∨ h ∈ used t2) ↔ (h ∈ used a ∨ h ∈ used b)) (hlen : s.tjs.length < 65535) (e1 : TP) :
    ∃ r s', mergeTail code s i j t1 t2 e1 = .ok (r, s') ∧ Owned s' ∧ s'.n = s.n ∧ (r = false → s' = s) ∧
      (r = true → ∃ m, s'.tjs.length = s.tjs.length + 1 ∧ s'.tjs[s.tjs.length]? = some m ∧ m.killed = false ∧
        Joined t1 t2 m ∧ m.vtx = (t1.vtx.1, if 0 < t2.vtx.2 then t2.vtx.2 else t1.vtx.2) ∧
        (∀ (k : Nat) (t : Traj), s.tjs[k]? = some t → ∃ t', s'.tjs[k]? = some t' ∧
          t' = { t with killed := t'.killed, parentID := t'.parentID } ∧
          (t'.killed = true ↔ t.killed = true ∨ k = i ∨ k = j)) ∧
        ∀ x < s.n, s'.own x = if x ∈ used m then (s.tjs.length : Int) + 1
          else if x ∈ used a ∨ x ∈ used b then 0 else s.own x) := by
  obtain ⟨hk1, hs1, hh1⟩ := c1.alive
  obtain ⟨hk2, hs2, hh2⟩ := c2.alive
  obtain ⟨⟨pl, hpl1, hpl2⟩, ⟨pf, hpf1, hpf2⟩, hlt1, hused1⟩ := c1.last
  obtain ⟨⟨ql, hql1, hql2⟩, ⟨qf, hqf1, hqf2⟩, hlt2, hused2⟩ := c2.last
  have hql := (List.getElem?_eq_some_iff.1 hql1).1
  have hpl := (List.getElem?_eq_some_iff.1 hpl1).1
  unfold mergeTail
  simp only
  cases hd : doca e1.pos t2 with
  | none => exact ⟨false, s, rfl, ho, rfl, fun _ => rfl, by simp⟩
  | some c0 =>
    simp only
    have hc0 : t2.endPt.1 ≤ c0 ∧ c0 ≤ t2.endPt.2 := by
      unfold doca at hd
      rcases docaGo_bound _ _ _ _ _ _ hd with h | ⟨h1, h2⟩
      · cases h
      · rw [List.length_take, List.length_drop] at h2
        omega
    have hc1 : bump (((t1.pts.take (t1.endPt.2 + 1)).reverse.take 11).flatMap (tpHits .all)) t2.pts (t2.endPt.2 - c0) c0 ≤
        t2.endPt.2 := by
      have := (bump_le (((t1.pts.take (t1.endPt.2 + 1)).reverse.take 11).flatMap (tpHits .all)) t2.pts
        (t2.endPt.2 - c0) c0).2
      omega
    generalize bump (((t1.pts.take (t1.endPt.2 + 1)).reverse.take 11).flatMap (tpHits .all)) t2.pts
      (t2.endPt.2 - c0) c0 = c at hc1
    -- the merged trajectory
    obtain ⟨g1, g2, g3, g4, g5, g6⟩ := mergedTj_fields code t1 t2 c
    have hall : trajHits (joinTj t1 t2 c) .all =
        (t1.pts.take (t1.endPt.2 + 1) ++ t2.pts.drop c).flatMap (tpHits .all) := by
      unfold trajHits joinTj
      simp only
      rw [(setEndPoints_fields _).2.2.1, setEndPoints_pts]
      simp only
      rw [if_neg (by simp [hs1])]
    have humem : used (mergedTj code t1 t2 c) = used t1 ++ (t2.pts.drop c).flatMap (tpHits .used) := by
      rw [used_eq (by rw [g3]; exact hs1), g1, List.flatMap_append, hused1]
    have hne : (t1.pts.take (t1.endPt.2 + 1) ++ t2.pts.drop c).flatMap (tpHits .all) ≠ [] := by
      intro e
      have hsub := flatMap_used_sub_all (t1.pts.take (t1.endPt.2 + 1) ++ t2.pts.drop c)
      rw [e, List.flatMap_append, hused1] at hsub
      have := List.sublist_nil.1 hsub
      exact c1.nonempty (List.append_eq_nil_iff.1 this).1
    unfold hasDuplicateHits
    simp only
    rw [hall, if_neg hne]
    by_cases hbig : 65536 ≤ ((t1.pts.take (t1.endPt.2 + 1) ++ t2.pts.drop c).flatMap (tpHits .all)).length
    · rw [if_pos hbig]
      exact ⟨false, s, rfl, ho, rfl, fun _ => rfl, by simp⟩
    rw [if_neg hbig]
    cases hdup : hasDup ((t1.pts.take (t1.endPt.2 + 1) ++ t2.pts.drop c).flatMap (tpHits .all)) with
    | true => exact ⟨false, s, rfl, ho, rfl, fun _ => rfl, by simp⟩
    | false =>
      simp only
      have hnodup : (used (mergedTj code t1 t2 c)).Nodup := by
        rw [used_eq (by rw [g3]; exact hs1), g1]
        exact (flatMap_used_sub_all _).nodup (hasDup_false hdup)
      have hsub2 : ∀ h ∈ (t2.pts.drop c).flatMap (tpHits .used), h ∈ used t2 := by
        intro h hh
        rw [used_eq hs2]
        obtain ⟨p, hp, hx⟩ := List.mem_flatMap.1 hh
        exact List.mem_flatMap.2 ⟨p, List.mem_of_mem_drop hp, hx⟩
      have husub : ∀ h ∈ used (mergedTj code t1 t2 c), h ∈ used a ∨ h ∈ used b := by
        intro h hh
        rw [humem] at hh
        apply (hm h).1
        rcases List.mem_append.1 hh with h1 | h1
        · exact Or.inl h1
        · exact Or.inr (hsub2 h h1)
      have hpts : ∀ p ∈ (mergedTj code t1 t2 c).pts, p ∈ t1.pts ∨ p ∈ t2.pts := by
        intro p hp
        rw [g1] at hp
        rcases List.mem_append.1 hp with h | h
        · exact Or.inl (List.mem_of_mem_take h)
        · exact Or.inr (List.mem_of_mem_drop h)
      obtain ⟨s1, k1, k2, k3, k4, k5⟩ := C119_kill ho ha
      have hb1 : ∃ b1, s1.tjs[j]? = some b1 ∧ used b1 = used b ∧
          (b1 = b ∨ (b1 = { b with killed := true } ∧ i = j)) := by
        rw [k3, List.getElem?_set]
        by_cases hij : i = j
        · subst hij
          rw [ha] at hb
          cases hb
          have := (List.getElem?_eq_some_iff.1 ha).1
          exact ⟨{ a with killed := true }, by simp [this], rfl, Or.inr ⟨rfl, rfl⟩⟩
        · rw [if_neg hij]
          exact ⟨b, hb, rfl, Or.inl rfl⟩
      obtain ⟨b1, hb1, hb2, hb3⟩ := hb1
      obtain ⟨s2, l1, l2, l3, l4, l5⟩ := C119_kill k2 hb1
      have hown2 : ∀ h < s.n, s2.own h = if h ∈ used a ∨ h ∈ used b then 0 else s.own h := by
        intro h hh
        rw [l5 h (by omega), k5 h hh, hb2]
        rcases hb3 with hb3 | ⟨hb3, hij⟩
        · rw [hb3, hak, hbk]
          by_cases h1 : h ∈ used a <;> by_cases h2 : h ∈ used b <;> simp [h1, h2]
        · subst hij
          rw [ha] at hb
          cases hb
          rw [hb3, hak]
          by_cases h1 : h ∈ used a <;> simp [h1]
      have hs2len : s2.tjs.length = s.tjs.length := by rw [l3, k3]; simp
      -- the merged trajectory can be stored
      have hW : Work s2 (mergedTj code t1 t2 c) := by
        refine ⟨⟨by rw [g2]; exact hk1, by rw [g3]; exact hs1, by rw [g4]; exact hh1⟩, ?_, ?_, hnodup, ?_, ?_⟩
        · intro p hp
          rw [l4, k4]
          rcases hpts p hp with h | h
          · exact c1.range p h
          · exact c2.range p h
        · intro h hh
          have hin := husub h hh
          have hn : h < s.n := by
            rcases hin with hin | hin
            · exact (ho.owns i a ha hak h hin).1
            · exact (ho.owns j b hb hbk h hin).1
          rw [hown2 h hn, if_pos hin]
        · intro p hp
          rcases hpts p hp with h | h
          · exact c1.charge p h
          · exact c2.charge p h
        · rw [g5]
          have hw := c1.work
          refine ⟨by omega, ?_⟩
          intro h hh he
          exfalso
          rw [l4, k4] at hh
          rw [hown2 h hh] at he
          split at he
          · omega
          · exact hw.2 h hh he
      have hfew : ∀ p ∈ (mergedTj code t1 t2 c).pts, p.hits.length ≤ 16 := by
        intro p hp
        rcases hpts p hp with h | h
        · exact c1.few p h
        · exact c2.few p h
      have htwo : TwoPoints (mergedTj code t1 t2 c) := by
        refine ⟨t1.endPt.1, t1.endPt.2, pf, pl, hlt1, ?_, ?_, hpf2, hpl2⟩
        · rw [g1, List.getElem?_append_left (by rw [List.length_take]; omega), List.getElem?_take, if_pos (by omega)]
          exact hpf1
        · rw [g1, List.getElem?_append_left (by rw [List.length_take]; omega), List.getElem?_take, if_pos (by omega)]
          exact hpl1
      obtain ⟨r, s3, t3, n1, n2, n3, n4, n5, n6, n7⟩ := C118_store l2 hW
      have hr : r = true := n2.2 ⟨hfew, htwo, by omega⟩
      subst hr
      obtain ⟨q1, q2, q3, q5, q6⟩ := n6 rfl
      rw [k1]
      simp only [Res.bind]
      rw [l1]
      simp only
      rw [n1]
      simp only [if_true]
      obtain ⟨o1, o2⟩ := Owned.reparent n3 t1.id t2.id s3.tjs.length
      refine ⟨_, _, rfl, o1, by simp only; omega, by simp, fun _ => ?_⟩
      have hn3 : s3.tjs.length = s.tjs.length + 1 := by rw [q1]; simp [hs2len]
      obtain ⟨m, m1, m2⟩ := o2 s.tjs.length t3 (by
        rw [q1, List.getElem?_append_right (by omega)]
        simp [hs2len])
      have hmf : m.pts = (mergedTj code t1 t2 c).pts ∧ m.shower = (mergedTj code t1 t2 c).shower ∧
          m.killed = (mergedTj code t1 t2 c).killed ∧ m.vtx = (mergedTj code t1 t2 c).vtx := by
        rw [m2, n5]
        exact ⟨rfl, rfl, rfl, rfl⟩
      have hum : used m = used (mergedTj code t1 t2 c) := used_congr hmf.1 hmf.2.1 .used
      refine ⟨m, by simp only [TC.reparent, List.length_map]; exact hn3, m1, by rw [hmf.2.2.1, g2]; exact hk1, ?_,
        by rw [hmf.2.2.2, g6], ?_, ?_⟩
      · refine ⟨?_, ⟨ql, List.mem_of_getElem? hql1, hql2, ?_⟩, ?_⟩
        · intro h hh
          rw [hum, humem]
          exact List.mem_append_left _ hh
        · intro h hh
          rw [hum, humem]
          refine List.mem_append_right _ (List.mem_flatMap.2 ⟨ql, ?_, hh⟩)
          rw [List.mem_iff_getElem?]
          refine ⟨t2.endPt.2 - c, ?_⟩
          rw [List.getElem?_drop, show c + (t2.endPt.2 - c) = t2.endPt.2 by omega]
          exact hql1
        · intro h hh
          rw [hum] at hh
          exact (hm h).2 (husub h hh)
      · intro k t hk
        have hkl := (List.getElem?_eq_some_iff.1 hk).1
        have h2 : s2.tjs[k]? = some { t with killed := t.killed || decide (k = i) || decide (k = j) } := by
          rw [l3, List.getElem?_set]
          by_cases hjk : j = k
          · subst hjk
            have hl1 : j < s1.tjs.length := (List.getElem?_eq_some_iff.1 hb1).1
            rw [hb] at hk
            cases hk
            simp only [if_true, hl1]
            rcases hb3 with h | ⟨h, _⟩ <;> simp [h]
          · rw [if_neg hjk, k3, List.getElem?_set]
            by_cases hik : i = k
            · subst hik
              rw [ha] at hk
              cases hk
              simp [hkl]
            · rw [if_neg hik]
              have e1 : ¬ k = i := fun h => hik h.symm
              have e2 : ¬ k = j := fun h => hjk h.symm
              simp [hk, e1, e2]
        obtain ⟨t', x1, x2⟩ := o2 k _ (by
          rw [q1, List.getElem?_append_left (by omega)]
          exact h2)
        refine ⟨t', x1, ?_, ?_⟩
        · rw [x2]
        · have : t'.killed = (t.killed || decide (k = i) || decide (k = j)) := by rw [x2]
          rw [this]
          simp [or_assoc]
      · intro x hx
        simp only
        rw [q5 x (by omega), hum, hs2len]
        by_cases hxm : x ∈ used (mergedTj code t1 t2 c)
        · rw [if_pos hxm, if_pos hxm]
        · rw [if_neg hxm, if_neg hxm, hown2 x hx]

end Verif.TC

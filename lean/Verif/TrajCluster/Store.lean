import Verif.TrajCluster.Model
/-!
# Storing, killing and restoring trajectories keeps the two tables of hit ownership in agreement
-/
namespace Verif.TC

/-! ### specification -/

/-- the hits used by a trajectory -/
abbrev used (t : Traj) : List Nat := trajHits t .used

/-- the two tables agree: trajectory number `k` is at position `k - 1`; a hit belongs to trajectory `k > 0` exactly
when this trajectory exists, is not killed and uses the hit; no trajectory uses a hit twice; hits are used at points with
charge only; all numbers handed out so far are different -/
structure Owned (s : Slice) : Prop where
  ids : ∀ (i : Nat) (t : Traj), s.tjs[i]? = some t → t.id = i + 1
  owner : ∀ h < s.n, 0 < s.own h → ∃ (i : Nat) (t : Traj),
    s.tjs[i]? = some t ∧ s.own h = i + 1 ∧ t.killed = false ∧ h ∈ used t
  owns : ∀ (i : Nat) (t : Traj), s.tjs[i]? = some t → t.killed = false → ∀ h ∈ used t, h < s.n ∧ s.own h = i + 1
  once : ∀ (i : Nat) (t : Traj), s.tjs[i]? = some t → t.killed = false → (used t).Nodup
  charge : ∀ (i : Nat) (t : Traj), s.tjs[i]? = some t → t.killed = false → t.shower = false → t.halo = false →
    ∀ p ∈ t.pts, p.chg = 0 → ∀ x ∈ p.hits, x.2 = false
  uids : (s.tjs.map Traj.uid).Nodup ∧ ∀ t ∈ s.tjs, t.uid ≤ s.uid

/-- a trajectory under construction: it uses hits that no stored trajectory owns, each once and at points with charge,
and no other hit carries its number -/
structure Work (s : Slice) (t : Traj) : Prop where
  alive : t.killed = false ∧ t.shower = false ∧ t.halo = false
  range : ∀ p ∈ t.pts, ∀ x ∈ p.hits, x.1 < s.n
  free : ∀ h ∈ used t, s.own h ≤ 0
  once : (used t).Nodup
  charge : ∀ p ∈ t.pts, p.chg = 0 → ∀ x ∈ p.hits, x.2 = false
  mine : t.id ≤ 0 ∧ ∀ h < s.n, s.own h = t.id → h ∈ used t

/-- at least two points with charge -/
def TwoPoints (t : Traj) : Prop :=
  ∃ (i j : Nat) (p q : TP), i < j ∧ t.pts[i]? = some p ∧ t.pts[j]? = some q ∧ p.chg ≠ 0 ∧ q.chg ≠ 0

/-! ### lemmas -/

theorem mem_tpHits_used {p : TP} {h : Nat} : h ∈ tpHits .used p ↔ (h, true) ∈ p.hits := by
  simp only [tpHits, wanted, List.mem_map, List.mem_filter]
  constructor
  · rintro ⟨⟨a, b⟩, ⟨h1, h2⟩, rfl⟩
    simp only at h2
    rw [h2] at h1
    exact h1
  · intro h1
    exact ⟨_, ⟨h1, rfl⟩, rfl⟩

theorem mem_tpHits_all {p : TP} {h : Nat} : h ∈ tpHits .all p ↔ ∃ u, (h, u) ∈ p.hits := by
  simp only [tpHits, wanted, List.mem_map, List.mem_filter]
  constructor
  · rintro ⟨⟨a, b⟩, ⟨h1, _⟩, rfl⟩
    exact ⟨b, h1⟩
  · rintro ⟨u, h1⟩
    exact ⟨_, ⟨h1, trivial⟩, rfl⟩

theorem used_eq {t : Traj} (h : t.shower = false) : used t = t.pts.flatMap (tpHits .used) := by
  simp [used, trajHits, h]

theorem tpHits_of_unused {p : TP} (h : ∀ x ∈ p.hits, x.2 = false) : tpHits .used p = [] := by
  simp only [tpHits, wanted, List.map_eq_nil_iff, List.filter_eq_nil_iff, Bool.not_eq_true]
  exact h

theorem firstChg_spec {l : List TP} (i : Nat) (p : TP) (hi : l[i]? = some p) (hp : p.chg ≠ 0) :
    firstChg l ≤ i ∧ (∃ q, l[firstChg l]? = some q ∧ q.chg ≠ 0) ∧
      ∀ j < firstChg l, ∀ q, l[j]? = some q → q.chg = 0 := by
  unfold firstChg
  cases hf : l.findIdx? (fun p => decide (p.chg ≠ 0)) with
  | none =>
    rw [List.findIdx?_eq_none_iff] at hf
    have := hf p (List.mem_of_getElem? hi)
    simp [hp] at this
  | some k =>
    rw [List.findIdx?_eq_some_iff_getElem] at hf
    obtain ⟨hk, h1, h2⟩ := hf
    simp only [decide_eq_true_eq] at h1
    refine ⟨?_, ⟨l[k], List.getElem?_eq_getElem hk, h1⟩, ?_⟩
    · by_contra hlt
      have hlt : i < k := by simpa using hlt
      have := h2 i hlt
      rw [List.getElem?_eq_getElem (by omega)] at hi
      cases hi
      simp [hp] at this
    · intro j hj q hq
      have hj : j < k := hj
      have := h2 j hj
      rw [List.getElem?_eq_getElem (by omega)] at hq
      cases hq
      simpa using this

theorem firstChg_none {l : List TP} (h : ∀ p ∈ l, p.chg = 0) : firstChg l = 0 := by
  unfold firstChg
  have : l.findIdx? (fun p => decide (p.chg ≠ 0)) = none := by
    rw [List.findIdx?_eq_none_iff]
    intro p hp
    simp [h p hp]
  rw [this]

theorem lastChg_none {l : List TP} (h : ∀ p ∈ l, p.chg = 0) : lastChg l = 0 := by
  unfold lastChg
  have : l.reverse.findIdx? (fun p => decide (p.chg ≠ 0)) = none := by
    rw [List.findIdx?_eq_none_iff]
    intro p hp
    simp [h p (List.mem_reverse.1 hp)]
  rw [this]

theorem lastChg_spec {l : List TP} (i : Nat) (p : TP) (hi : l[i]? = some p) (hp : p.chg ≠ 0) :
    i ≤ lastChg l ∧ (∃ q, l[lastChg l]? = some q ∧ q.chg ≠ 0) ∧
      ∀ j, lastChg l < j → ∀ q, l[j]? = some q → q.chg = 0 := by
  have hlen : i < l.length := (List.getElem?_eq_some_iff.1 hi).1
  have hr : l.reverse[l.length - 1 - i]? = some p := by
    rw [List.getElem?_reverse (by omega)]
    rw [show l.length - 1 - (l.length - 1 - i) = i by omega]
    exact hi
  obtain ⟨h1, ⟨q, h2, h3⟩, h4⟩ := firstChg_spec (l := l.reverse) _ p hr hp
  have hk : firstChg l.reverse < l.length := by omega
  have he : lastChg l = l.length - 1 - firstChg l.reverse := by
    unfold lastChg firstChg
    cases hf : l.reverse.findIdx? (fun p => decide (p.chg ≠ 0)) with
    | some k => rfl
    | none =>
      rw [List.findIdx?_eq_none_iff] at hf
      have := hf p (List.mem_of_getElem? hr)
      simp [hp] at this
  refine ⟨by omega, ⟨q, ?_, h3⟩, ?_⟩
  · rw [List.getElem?_reverse hk] at h2
    rw [he]
    exact h2
  · intro j hj q hq
    have hjl : j < l.length := (List.getElem?_eq_some_iff.1 hq).1
    refine h4 (l.length - 1 - j) (by omega) q ?_
    rw [List.getElem?_reverse (by omega), show l.length - 1 - (l.length - 1 - j) = j by omega]
    exact hq

/-- the end points of a trajectory: two points with charge exactly when they are different -/
theorem endPt_lt_iff {t : Traj} (h1 : t.shower = false) (h2 : t.halo = false) :
    (setEndPoints t).endPt.1 < (setEndPoints t).endPt.2 ↔ TwoPoints t := by
  have he : (setEndPoints t).endPt = (firstChg t.pts, lastChg t.pts) := by simp [setEndPoints, h1, h2]
  rw [he]
  simp only
  constructor
  · intro h
    by_cases hx : ∃ (i : Nat) (p : TP), t.pts[i]? = some p ∧ p.chg ≠ 0
    · obtain ⟨i, p, h3, h4⟩ := hx
      obtain ⟨_, ⟨q, h5, h6⟩, _⟩ := firstChg_spec i p h3 h4
      obtain ⟨_, ⟨r, h7, h8⟩, _⟩ := lastChg_spec i p h3 h4
      exact ⟨_, _, q, r, h, h5, h7, h6, h8⟩
    · have hall : ∀ p ∈ t.pts, p.chg = 0 := by
        intro p hp
        obtain ⟨i, hi, rfl⟩ := List.mem_iff_getElem.1 hp
        by_contra hc
        exact hx ⟨i, _, List.getElem?_eq_getElem hi, hc⟩
      rw [lastChg_none hall] at h
      omega
  · rintro ⟨i, j, p, q, h3, h4, h5, h6, h7⟩
    have := (firstChg_spec i p h4 h6).1
    have := (lastChg_spec j q h5 h7).1
    omega

theorem setEndPoints_pts (t : Traj) : (setEndPoints t).pts = t.pts := by
  unfold setEndPoints; split <;> rfl

theorem setEndPoints_fields (t : Traj) : (setEndPoints t).id = t.id ∧ (setEndPoints t).killed = t.killed ∧
    (setEndPoints t).shower = t.shower ∧ (setEndPoints t).halo = t.halo ∧ (setEndPoints t).vtx = t.vtx ∧
    (setEndPoints t).uid = t.uid ∧ (setEndPoints t).parentID = t.parentID ∧ (setEndPoints t).workID = t.workID := by
  unfold setEndPoints
  split <;> exact ⟨rfl, rfl, rfl, rfl, rfl, rfl, rfl, rfl⟩

theorem flatMap_take_drop {α : Type} (f : TP → List α) (l : List TP) (a b : Nat)
    (h1 : ∀ (j : Nat) (q : TP), j < a → l[j]? = some q → f q = [])
    (h2 : ∀ (j : Nat) (q : TP), a + b ≤ j → l[j]? = some q → f q = []) :
    ((l.drop a).take b).flatMap f = l.flatMap f := by
  have e1 : l.flatMap f = (l.take a).flatMap f ++ (((l.drop a).take b).flatMap f ++ ((l.drop a).drop b).flatMap f) := by
    rw [← List.flatMap_append, List.take_append_drop, ← List.flatMap_append, List.take_append_drop]
  have e2 : (l.take a).flatMap f = [] := by
    rw [List.flatMap_eq_nil_iff]
    intro q hq
    obtain ⟨j, hj, rfl⟩ := List.mem_iff_getElem.1 hq
    rw [List.length_take] at hj
    refine h1 j _ (by omega) ?_
    rw [List.getElem_take, List.getElem?_eq_getElem (by omega)]
  have e3 : ((l.drop a).drop b).flatMap f = [] := by
    rw [List.flatMap_eq_nil_iff]
    intro q hq
    rw [List.drop_drop] at hq
    obtain ⟨j, hj, rfl⟩ := List.mem_iff_getElem.1 hq
    rw [List.length_drop] at hj
    refine h2 (a + b + j) _ (by omega) ?_
    rw [List.getElem_drop, List.getElem?_eq_getElem (by omega)]
  rw [e1, e2, e3]
  simp

/-- between the end points are all used hits -/
theorem endHits_eq {t : Traj} (h1 : t.shower = false) (h2 : t.halo = false)
    (hc : ∀ p ∈ t.pts, p.chg = 0 → ∀ x ∈ p.hits, x.2 = false)
    (h3 : (setEndPoints t).endPt.1 < (setEndPoints t).endPt.2) : endHits (setEndPoints t) = used t := by
  obtain ⟨i, j, p, q, _, h5, h6, h7, h8⟩ := (endPt_lt_iff h1 h2).1 h3
  have he : (setEndPoints t).endPt = (firstChg t.pts, lastChg t.pts) := by simp [setEndPoints, h1, h2]
  rw [he] at h3
  rw [used_eq h1]
  unfold endHits
  rw [setEndPoints_pts, he]
  simp only at h3 ⊢
  obtain ⟨_, _, ha⟩ := firstChg_spec i p h5 h7
  obtain ⟨_, _, hb⟩ := lastChg_spec i p h5 h7
  apply flatMap_take_drop
  · intro k r hk hr
    exact tpHits_of_unused (hc r (List.mem_of_getElem? hr) (ha k hk r hr))
  · intro k r hk hr
    exact tpHits_of_unused (hc r (List.mem_of_getElem? hr) (hb k (by omega) r hr))

theorem claim_spec (n : Nat) (id : Int) : ∀ (l : List Nat) (own : Nat → Int), l.Nodup →
    (∀ h ∈ l, h < n ∧ own h ≤ 0) → claim n id l own = .ok (true, fun x => if x ∈ l then id else own x) := by
  intro l
  induction l with
  | nil => intro own _ _; simp [claim]
  | cons a l ih =>
    intro own hnd hl
    rw [List.nodup_cons] at hnd
    obtain ⟨h1, h2⟩ := hl a (List.mem_cons_self ..)
    rw [claim, if_neg (by omega), if_neg (by omega), ih (setOwn own a id) hnd.2]
    · congr 2
      funext x
      by_cases hx : x = a
      · subst hx
        simp [hnd.1, setOwn]
      · simp [hx, setOwn]
    · intro h hh
      have := hl h (List.mem_cons_of_mem _ hh)
      have hne : h ≠ a := fun e => hnd.1 (e ▸ hh)
      simp only [setOwn, hne, if_false]
      exact this

/-- `Owned` depends on the owners that are stored trajectories only -/
theorem Owned.congr {s s' : Slice} (h : Owned s) (h1 : s'.tjs = s.tjs) (h2 : s'.n = s.n) (h3 : s'.uid = s.uid)
    (h4 : ∀ x < s.n, (0 < s'.own x ∨ 0 < s.own x) → s'.own x = s.own x) : Owned s' := by
  refine ⟨by rw [h1]; exact h.ids, ?_, ?_, by rw [h1]; exact h.once, by rw [h1]; exact h.charge,
    by rw [h1, h3]; exact h.uids⟩
  · intro x hx hp
    rw [h2] at hx
    have e := h4 x hx (Or.inl hp)
    rw [e] at hp ⊢
    rw [h1]
    exact h.owner x hx hp
  · intro i t ht hk x hx
    rw [h1] at ht
    obtain ⟨ha, hb⟩ := h.owns i t ht hk x hx
    rw [h2]
    exact ⟨ha, by rw [h4 x ha (Or.inr (by omega)), hb]⟩

theorem releaseHits_ok {s : Slice} {t : Traj} (hr : ∀ p ∈ t.pts, ∀ x ∈ p.hits, x.1 < s.n) :
    ∃ s1, releaseHits s t = .ok s1 ∧ s1.tjs = s.tjs ∧ s1.n = s.n ∧ s1.uid = s.uid ∧ s1.vtxs = s.vtxs ∧
      (∀ x, s1.own x = s.own x ∨ (s.own x = t.id ∧ s1.own x = 0)) ∧
      ∀ x ∈ used t, s.own x = t.id → s1.own x = 0 := by
  unfold releaseHits
  have hall : (t.pts.flatMap (tpHits .all)).all (· < s.n) = true := by
    rw [List.all_eq_true]
    intro x hx
    obtain ⟨p, hp, hx⟩ := List.mem_flatMap.1 hx
    obtain ⟨u, hu⟩ := mem_tpHits_all.1 hx
    simpa using hr p hp _ hu
  rw [if_pos hall]
  refine ⟨_, rfl, rfl, rfl, rfl, rfl, ?_, ?_⟩
  · intro x
    by_cases hx : x ∈ t.pts.flatMap (tpHits .all) ∧ s.own x = t.id
    · exact Or.inr ⟨hx.2, by simp only [hx, and_self, if_true]⟩
    · exact Or.inl (by simp only [hx, if_false])
  · intro x hx h1
    have hm : x ∈ t.pts.flatMap (tpHits .all) := by
      unfold used trajHits at hx
      split at hx
      · obtain ⟨p, hp, hx⟩ := List.mem_flatMap.1 hx
        obtain ⟨y, hy, rfl⟩ := List.mem_map.1 hx
        exact List.mem_flatMap.2 ⟨p, hp, mem_tpHits_all.2 ⟨y.2, hy⟩⟩
      · obtain ⟨p, hp, hx⟩ := List.mem_flatMap.1 hx
        exact List.mem_flatMap.2 ⟨p, hp, mem_tpHits_all.2 ⟨true, mem_tpHits_used.1 hx⟩⟩
    simp only [hm, h1, and_self, if_true]

theorem used_congr {t t' : Traj} (h1 : t'.pts = t.pts) (h2 : t'.shower = t.shower) (w : Want) :
    trajHits t' w = trajHits t w := by
  unfold trajHits
  rw [h1, h2]

/-! ### the theorems -/

/-- **C118.** A trajectory under construction is stored exactly when no point has more than 16 hits, at least two
points have charge and the list is not full. Then it is the last of the list with the next number, owns exactly the
hits it uses, all other hits keep their owners, and the tables agree. Otherwise the list stays and the tables agree. -/
theorem C118_store {s : Slice} (hs : Owned s) {t : Traj} (hw : Work s t) :
    ∃ r s' t', storeTraj s t = .ok (r, s', t') ∧
      (r = true ↔ (∀ p ∈ t.pts, p.hits.length ≤ 16) ∧ TwoPoints t ∧ s.tjs.length < 65535) ∧
      Owned s' ∧ s'.n = s.n ∧
      t' = { t with endPt := t'.endPt, id := t'.id, workID := t'.workID, uid := t'.uid, parentID := t'.parentID } ∧
      (r = true → s'.tjs = s.tjs ++ [t'] ∧ t'.id = s.tjs.length + 1 ∧ t'.workID = t.id ∧
        (∀ x < s.n, s'.own x = if x ∈ used t then (s.tjs.length : Int) + 1 else s.own x) ∧
        ∀ x < s.n, s'.own x ≠ t.id) ∧
      (r = false → s'.tjs = s.tjs ∧ ∀ x < s.n, s'.own x = s.own x ∨ (s.own x = t.id ∧ s'.own x = 0)) := by
  obtain ⟨hk, hsh, hha⟩ := hw.alive
  obtain ⟨hmy, hmine⟩ := hw.mine
  unfold storeTraj
  by_cases h16 : t.pts.any (fun p => decide (16 < p.hits.length)) = true
  · rw [if_pos h16]
    refine ⟨false, s, t, rfl, ?_, hs, rfl, rfl, by simp, fun _ => ⟨rfl, fun x _ => Or.inl rfl⟩⟩
    simp only [Bool.false_eq_true, false_iff, not_and]
    intro h
    rw [List.any_eq_true] at h16
    obtain ⟨p, hp, h1⟩ := h16
    have := h p hp
    simp at h1
    omega
  · rw [if_neg h16]
    have h16' : ∀ p ∈ t.pts, p.hits.length ≤ 16 := by
      intro p hp
      by_contra hc
      exact h16 (List.any_eq_true.2 ⟨p, hp, by simpa using hc⟩)
    obtain ⟨f1, f2, f3, f4, f5, f6, f7, f8⟩ := setEndPoints_fields t
    have fp := setEndPoints_pts t
    have hfull : setEndPoints t = { t with endPt := (setEndPoints t).endPt } := by
      unfold setEndPoints
      split <;> rfl
    have hiff := endPt_lt_iff hsh hha
    have hE := endHits_eq hsh hha hw.charge
    have hbound : (setEndPoints t).endPt.1 < (setEndPoints t).endPt.2 → (setEndPoints t).endPt.2 < t.pts.length := by
      intro h
      obtain ⟨i, j, p, q, _, h5, h6, h7, h8⟩ := hiff.1 h
      obtain ⟨_, ⟨r, hr, _⟩, _⟩ := lastChg_spec i p h5 h7
      have he : (setEndPoints t).endPt = (firstChg t.pts, lastChg t.pts) := by simp [setEndPoints, hsh, hha]
      rw [he]
      exact (List.getElem?_eq_some_iff.1 hr).1
    generalize setEndPoints t = t1 at *
    have hu : used t1 = used t := used_congr fp f3 .used
    simp only
    by_cases hbad : 65535 ≤ s.tjs.length ∨ t1.endPt.2 ≤ t1.endPt.1 ∨ t1.pts.length < t1.endPt.2
    · rw [if_pos hbad]
      obtain ⟨s1, h1, h2, h3, h4, _, h5, _⟩ := releaseHits_ok (s := s) (t := t1) (by rw [fp]; exact hw.range)
      rw [h1]
      refine ⟨false, s1, t1, rfl, ?_, ?_, h3, by rw [hfull], by simp, fun _ => ⟨h2, ?_⟩⟩
      · simp only [Bool.false_eq_true, false_iff, not_and, not_lt]
        intro _ h6
        have := hiff.2 h6
        have := hbound this
        rw [fp] at hbad
        omega
      · refine hs.congr h2 h3 h4 ?_
        intro x hx hp
        rcases h5 x with h6 | ⟨h6, h7⟩
        · exact h6
        · rw [f1] at h6; omega
      · intro x _
        have := h5 x
        rwa [f1] at this
    · rw [if_neg hbad]
      have hlt : t1.endPt.1 < t1.endPt.2 := by omega
      have hb := hbound hlt
      rw [if_neg (by rw [fp]; omega), hE hlt]
      rw [claim_spec s.n _ (used t) s.own hw.once ?_]
      swap
      · intro h hh
        refine ⟨?_, hw.free h hh⟩
        rw [used_eq hsh] at hh
        obtain ⟨p, hp, hh⟩ := List.mem_flatMap.1 hh
        exact hw.range p hp _ (mem_tpHits_used.1 hh)
      simp only [Res.bind, if_true]
      have hclean : ¬ (List.range s.n).any (fun h => decide ((if h ∈ used t then (s.tjs.length : Int) + 1 else s.own h)
          = t1.id)) = true := by
        rw [List.any_eq_true]
        rintro ⟨x, hx, h1⟩
        simp only [decide_eq_true_eq, f1] at h1
        split at h1
        · omega
        · rename_i hno
          exact hno (hmine x (List.mem_range.1 hx) h1)
      rw [if_neg hclean]
      have hu2 : ∀ w i u p, trajHits { t1 with workID := w, id := i, uid := u, parentID := p } .used = used t := by
        intro w i u p
        rw [← hu]
        exact used_congr rfl rfl .used
      refine ⟨true, _, _, rfl, ?_, ?_, rfl, by rw [hfull], fun _ => ⟨rfl, rfl, f1, ?_, ?_⟩, by simp⟩
      · simp only [true_iff]
        exact ⟨h16', hiff.1 hlt, by omega⟩
      · have hget : ∀ (i : Nat) (u : Traj) (tn : Traj), (s.tjs ++ [tn])[i]? = some u →
            s.tjs[i]? = some u ∨ (i = s.tjs.length ∧ u = tn) := by
          intro i u tn h
          rcases Nat.lt_trichotomy i s.tjs.length with hl | hl | hl
          · rw [List.getElem?_append_left hl] at h
            exact Or.inl h
          · subst hl
            simp at h
            exact Or.inr ⟨rfl, h.symm⟩
          · rw [List.getElem?_eq_none (by simp; omega)] at h
            cases h
        refine ⟨?_, ?_, ?_, ?_, ?_, ?_, ?_⟩
        · intro i u hi
          rcases hget i u _ hi with h | ⟨rfl, rfl⟩
          · exact hs.ids i u h
          · rfl
        · intro x hx hp
          simp only at hx hp ⊢
          by_cases hm : x ∈ used t
          · rw [if_pos hm]
            refine ⟨s.tjs.length, _, List.getElem?_concat_length, rfl, by rw [f2]; exact hk, ?_⟩
            show x ∈ trajHits _ .used
            rw [hu2]
            exact hm
          · rw [if_neg hm] at hp ⊢
            obtain ⟨i, u, h1, h2, h3, h4⟩ := hs.owner x hx hp
            exact ⟨i, u, by rw [List.getElem?_append_left (List.getElem?_eq_some_iff.1 h1).1]; exact h1, h2, h3, h4⟩
        · intro i u hi hku x hx
          simp only
          rcases hget i u _ hi with h | ⟨rfl, rfl⟩
          · obtain ⟨h1, h2⟩ := hs.owns i u h hku x hx
            refine ⟨h1, ?_⟩
            rw [if_neg]
            · exact h2
            · intro hm
              have := hw.free x hm
              omega
          · rw [used, hu2] at hx
            refine ⟨?_, by rw [if_pos hx]⟩
            rw [used_eq hsh] at hx
            obtain ⟨p, hp, hh⟩ := List.mem_flatMap.1 hx
            exact hw.range p hp _ (mem_tpHits_used.1 hh)
        · intro i u hi hku
          rcases hget i u _ hi with h | ⟨rfl, rfl⟩
          · exact hs.once i u h hku
          · rw [used, hu2]; exact hw.once
        · intro i u hi hku h1 h2
          rcases hget i u _ hi with h | ⟨rfl, rfl⟩
          · exact hs.charge i u h hku h1 h2
          · simp only [fp]
            exact hw.charge
        · simp only [List.map_append, List.map_cons, List.map_nil]
          rw [List.nodup_append]
          refine ⟨hs.uids.1, by simp, ?_⟩
          intro a ha b hb
          obtain ⟨u, hu, rfl⟩ := List.mem_map.1 ha
          have := hs.uids.2 u hu
          simp at hb
          omega
        · intro u hu
          simp only
          rcases List.mem_append.1 hu with hu | hu
          · have := hs.uids.2 u hu; omega
          · simp at hu; subst hu; simp
      · intro x _
        rfl
      · intro x hx h1
        simp only at h1
        split at h1
        · omega
        · rename_i hno
          exact hno (hmine x hx h1)

/-- a point with one hit, used, and charge 1 -/
def pt (h : Nat) : TP := ⟨[(h, true)], 1, (h, 0), (0, 0), 0⟩

/-- five hits, none owned -/
def ex0 : Slice := ⟨8, fun _ => 0, [], [], [], [], 0⟩

/-- a state with one stored trajectory -/
theorem ex0_owned : Owned ex0 := by
  refine ⟨by simp [ex0], by simp [ex0], by simp [ex0], by simp [ex0], by simp [ex0], by simp [ex0]⟩

/-- a trajectory of three points under construction -/
def exT : Traj := { pts := [pt 0, pt 1, ⟨[(2, false)], 0, (2, 0), (0, 0), 0⟩, pt 3], id := -1 }

/-- its hits carry its number -/
def ex0w : Slice := { ex0 with own := fun h => if h = 0 ∨ h = 1 ∨ h = 3 then -1 else 0 }

example : Owned ex0w ∧ Work ex0w exT := by
  refine ⟨ex0_owned.congr rfl rfl rfl ?_, ⟨rfl, rfl, rfl⟩, by decide, by decide, by decide, by decide, by decide,
    by decide⟩
  intro x _ h
  revert h
  simp only [ex0w, ex0]
  split <;> simp

/-- the owners of the first hits -/
def owners (s : Slice) : List Int := (List.range s.n).map s.own

/-- the observable part of a result -/
def resView (r : Res (Bool × Slice × Traj)) : Option (Bool × List Int × Nat) :=
  match r with
  | .ok (b, s, _) => some (b, owners s, s.tjs.length)
  | _ => none

example : resView (storeTraj ex0w exT) = some (true, [1, 1, 0, 1, 0, 0, 0, 0], 1) := by decide +kernel

/-- **C118, refuted for a trajectory that uses a hit twice.** The store fails, but the hits visited before keep the
number of the trajectory that was not stored; the next trajectory stored gets this number, and with it hits it does not
use. -/
theorem C118_failed_store_refuted :
    Owned ex0 ∧
    resView (storeTraj ex0 { pts := [pt 0, pt 1, pt 0], id := -1 }) = some (false, [1, 1, 0, 0, 0, 0, 0, 0], 0) ∧
    (match storeTraj ex0 { pts := [pt 0, pt 1, pt 0], id := -1 } with
      | .ok (_, s, _) => resView (storeTraj s { pts := [pt 4, pt 5], id := -2 })
      | _ => none) = some (true, [1, 1, 0, 0, 1, 1, 0, 0], 1) := by
  refine ⟨ex0_owned, by decide +kernel, by decide +kernel⟩

/-- **C118, refuted for release.** A trajectory with a point of more than 16 hits is refused without releasing its
hits: they keep a number that belongs to no trajectory. -/
theorem C118_many_hits_refuted :
    resView (storeTraj { ex0w with own := fun _ => -1 }
      { pts := [pt 0, ⟨(List.replicate 17 (1, false)), 1, (0, 0), (0, 0), 0⟩], id := -1 }) =
      some (false, [-1, -1, -1, -1, -1, -1, -1, -1], 0) := by
  decide +kernel

/-! ### killing and restoring -/

theorem getElem?_set_some {l : List Traj} {i j : Nat} {a b : Traj} (h : (l.set i a)[j]? = some b) :
    (i = j ∧ b = a ∧ i < l.length) ∨ (i ≠ j ∧ l[j]? = some b) := by
  rw [List.getElem?_set] at h
  split at h
  · rename_i e
    split at h
    · cases h; exact Or.inl ⟨e, rfl, by omega⟩
    · cases h
  · rename_i e; exact Or.inr ⟨e, h⟩

/-- replacing a trajectory by one with the same number -/
theorem uids_set {s : Slice} {i : Nat} {t t' : Traj} (h : s.tjs[i]? = some t) (hu : t'.uid = t.uid) :
    (s.tjs.set i t').map Traj.uid = s.tjs.map Traj.uid := by
  apply List.ext_getElem?
  intro j
  rw [List.getElem?_map, List.getElem?_map, List.getElem?_set]
  split
  · rename_i e
    subst e
    rw [h, if_pos (List.getElem?_eq_some_iff.1 h).1]
    simp [hu]
  · rfl

theorem uids_ok {s : Slice} (hs : Owned s) {i : Nat} {t t' : Traj} (h : s.tjs[i]? = some t) (hu : t'.uid = t.uid) :
    ((s.tjs.set i t').map Traj.uid).Nodup ∧ ∀ u ∈ s.tjs.set i t', u.uid ≤ s.uid := by
  refine ⟨by rw [uids_set h hu]; exact hs.uids.1, ?_⟩
  intro u hu'
  rcases List.mem_or_eq_of_mem_set hu' with h1 | h1
  · exact hs.uids.2 u h1
  · subst h1
    rw [hu]
    exact hs.uids.2 t (List.mem_of_getElem? h)

/-- **C119.** Killing a stored trajectory frees exactly the hits it owns, marks it, leaves everything else, and the
tables agree. -/
theorem C119_kill {s : Slice} (hs : Owned s) {i : Nat} {t : Traj} (ht : s.tjs[i]? = some t) :
    ∃ s', makeObsolete s i = .ok s' ∧ Owned s' ∧ s'.tjs = s.tjs.set i { t with killed := true } ∧ s'.n = s.n ∧
      ∀ h < s.n, s'.own h = if t.killed = false ∧ h ∈ used t then 0 else s.own h := by
  unfold makeObsolete
  have hne : s.tjs ≠ [] := by
    intro h
    rw [h] at ht
    cases ht
  have hid := hs.ids i t ht
  have key : ∀ h < s.n, s.own h = t.id ↔ t.killed = false ∧ h ∈ used t := by
    intro h hh
    constructor
    · intro h1
      obtain ⟨j, u, h2, h3, h4, h5⟩ := hs.owner h hh (by omega)
      have hij : i = j := by omega
      subst hij
      rw [ht] at h2
      cases h2
      exact ⟨h4, h5⟩
    · rintro ⟨h1, h2⟩
      rw [(hs.owns i t ht h1 h h2).2, hid]
  rw [if_neg hne, ht]
  refine ⟨_, rfl, ⟨?_, ?_, ?_, ?_, ?_, uids_ok hs ht rfl⟩, rfl, rfl, ?_⟩
  · intro j u hj
    rcases getElem?_set_some hj with ⟨rfl, rfl, _⟩ | ⟨_, hj⟩
    · exact hid
    · exact hs.ids j u hj
  · intro h hh hp
    simp only at hh hp ⊢
    split at hp
    · exact absurd hp (by omega)
    · rename_i hno
      rw [if_neg hno]
      obtain ⟨j, u, h2, h3, h4, h5⟩ := hs.owner h hh hp
      refine ⟨j, u, ?_, h3, h4, h5⟩
      rw [List.getElem?_set]
      rw [if_neg]
      · exact h2
      · rintro rfl
        exact hno ⟨hh, by rw [h3, hid]⟩
  · intro j u hj hk h hu
    rcases getElem?_set_some hj with ⟨rfl, rfl, _⟩ | ⟨hne, hj⟩
    · cases hk
    · obtain ⟨h1, h2⟩ := hs.owns j u hj hk h hu
      refine ⟨h1, ?_⟩
      simp only
      rw [if_neg]
      · exact h2
      · rintro ⟨_, h3⟩
        rw [h2, hid] at h3
        omega
  · intro j u hj hk
    rcases getElem?_set_some hj with ⟨rfl, rfl, _⟩ | ⟨hne, hj⟩
    · cases hk
    · exact hs.once j u hj hk
  · intro j u hj hk
    rcases getElem?_set_some hj with ⟨rfl, rfl, _⟩ | ⟨hne, hj⟩
    · cases hk
    · exact hs.charge j u hj hk
  · intro h hh
    simp only [hh, true_and, key h hh]

/-- **C119.** Restoring a killed trajectory whose hits are still free: it owns its hits again, nothing else changes,
and the tables agree. -/
theorem C119_restore_partial {s : Slice} (hs : Owned s) {i : Nat} {t : Traj} (ht : s.tjs[i]? = some t)
    (hk : t.killed = true) (hsh : t.shower = false) (hfree : ∀ h ∈ used t, h < s.n ∧ s.own h = 0)
    (honce : (used t).Nodup)
    (hchg : t.halo = false → ∀ p ∈ t.pts, p.chg = 0 → ∀ x ∈ p.hits, x.2 = false) :
    ∃ s', restore s i = .ok s' ∧ Owned s' ∧ s'.tjs = s.tjs.set i { t with killed := false } ∧ s'.n = s.n ∧
      ∀ h < s.n, s'.own h = if h ∈ used t then (i : Int) + 1 else s.own h := by
  unfold restore
  have hne : s.tjs ≠ [] := by
    intro h
    rw [h] at ht
    cases ht
  have hid := hs.ids i t ht
  rw [if_neg hne, ht]
  simp only [hk, if_true]
  rw [used_eq hsh] at hfree honce
  have hall : (t.pts.flatMap (tpHits .used)).all (fun x => decide (x < s.n)) = true := by
    rw [List.all_eq_true]
    intro x hx
    simpa using (hfree x hx).1
  rw [if_pos hall]
  have hu' : used { t with killed := false } = t.pts.flatMap (tpHits .used) := used_eq (t := { t with killed := false }) hsh
  have hown : ∀ h < s.n, (if h ∈ t.pts.flatMap (tpHits .used) ∧ s.own h = 0 then t.id else s.own h) =
      if h ∈ t.pts.flatMap (tpHits .used) then (i : Int) + 1 else s.own h := by
    intro h _
    by_cases hm : h ∈ t.pts.flatMap (tpHits .used)
    · rw [if_pos ⟨hm, (hfree h hm).2⟩, if_pos hm, hid]
    · rw [if_neg (fun e => hm e.1), if_neg hm]
  refine ⟨_, rfl, ⟨?_, ?_, ?_, ?_, ?_, uids_ok hs ht rfl⟩, rfl, rfl, ?_⟩
  · intro j u hj
    rcases getElem?_set_some hj with ⟨rfl, rfl, _⟩ | ⟨_, hj⟩
    · exact hid
    · exact hs.ids j u hj
  · intro h hh hp
    simp only at hh hp ⊢
    rw [hown h hh] at hp ⊢
    by_cases hm : h ∈ t.pts.flatMap (tpHits .used)
    · rw [if_pos hm]
      refine ⟨i, _, List.getElem?_set_self (List.getElem?_eq_some_iff.1 ht).1, rfl, rfl, ?_⟩
      rw [hu']
      exact hm
    · rw [if_neg hm] at hp ⊢
      obtain ⟨j, u, h2, h3, h4, h5⟩ := hs.owner h hh hp
      refine ⟨j, u, ?_, h3, h4, h5⟩
      rw [List.getElem?_set, if_neg]
      · exact h2
      · rintro rfl
        rw [ht] at h2
        cases h2
        rw [hk] at h4
        cases h4
  · intro j u hj hku h hu
    simp only
    rcases getElem?_set_some hj with ⟨rfl, rfl, _⟩ | ⟨hne, hj⟩
    · rw [hu'] at hu
      have := (hfree h hu).1
      refine ⟨this, ?_⟩
      rw [hown h this, if_pos hu]
    · obtain ⟨h1, h2⟩ := hs.owns j u hj hku h hu
      refine ⟨h1, ?_⟩
      rw [hown h h1, if_neg]
      · exact h2
      · intro hm
        have := (hfree h hm).2
        omega
  · intro j u hj hku
    rcases getElem?_set_some hj with ⟨rfl, rfl, _⟩ | ⟨hne, hj⟩
    · rw [hu']; exact honce
    · exact hs.once j u hj hku
  · intro j u hj hku
    rcases getElem?_set_some hj with ⟨rfl, rfl, _⟩ | ⟨hne, hj⟩
    · intro _ hh
      exact hchg hh
    · exact hs.charge j u hj hku
  · intro h hh
    rw [used_eq hsh]
    exact hown h hh

/-- **C119.** Killing a trajectory and restoring it at once gives back the same state. -/
theorem C119_kill_restore {s : Slice} (hs : Owned s) {i : Nat} {t : Traj} (ht : s.tjs[i]? = some t)
    (hk : t.killed = false) (hsh : t.shower = false) (hha : t.halo = false) :
    ∃ s1 s2, makeObsolete s i = .ok s1 ∧ restore s1 i = .ok s2 ∧ s2.tjs = s.tjs ∧ ∀ h < s.n, s2.own h = s.own h := by
  obtain ⟨s1, h1, h2, h3, h4, h5⟩ := C119_kill hs ht
  have hlen := (List.getElem?_eq_some_iff.1 ht).1
  have ht1 : s1.tjs[i]? = some { t with killed := true } := by
    rw [h3]
    exact List.getElem?_set_self hlen
  have hu : used { t with killed := true } = used t := used_congr rfl rfl .used
  obtain ⟨s2, h6, _, h8, _, h10⟩ := C119_restore_partial h2 ht1 rfl hsh
    (by
      intro h hh
      rw [hu] at hh
      have := (hs.owns i t ht hk h hh).1
      rw [h4, h5 h this, if_pos ⟨hk, hh⟩]
      exact ⟨this, rfl⟩)
    (by rw [hu]; exact hs.once i t ht hk) (fun _ => hs.charge i t ht hk hsh hha)
  refine ⟨s1, s2, h1, h6, ?_, ?_⟩
  · rw [h8, h3, List.set_set]
    apply List.ext_getElem?
    intro j
    rw [List.getElem?_set]
    split
    · rename_i e
      subst e
      rw [ht]
      cases t
      simp only at hk
      subst hk
      rfl
    · rfl
  · intro h hh
    rw [h10 h (by rw [h4]; exact hh), h5 h hh, hu]
    by_cases hm : h ∈ used t
    · rw [if_pos hm, (hs.owns i t ht hk h hm).2]
    · rw [if_neg hm, if_neg (fun e => hm e.2)]

/-- a trajectory is stored, killed, another one with one of its hits is stored, the first is restored -/
def exTaken : Option Slice :=
  match storeTraj ex0w exT with
  | .ok (_, s1, _) =>
    match makeObsolete s1 0 with
    | .ok s2 =>
      match storeTraj s2 { pts := [pt 3, pt 4], id := -2 } with
      | .ok (_, s3, _) =>
        match restore s3 0 with
        | .ok s4 => some s4
        | _ => none
      | _ => none
    | _ => none
  | _ => none

/-- **C119, refuted when a hit was taken in between.** The restored trajectory still uses hit 3, which belongs to the
second one: the tables no longer agree. -/
theorem C119_taken_refuted :
    ∃ s, exTaken = some s ∧ owners s = [1, 1, 0, 2, 2, 0, 0, 0] ∧ s.tjs.map (fun t => (t.killed, used t)) =
      [(false, [0, 1, 3]), (false, [3, 4])] ∧ ¬ Owned s := by
  have h : (exTaken.map fun s => (s.n, owners s, s.tjs.map (fun t => (t.killed, used t)))) =
      some (8, [1, 1, 0, 2, 2, 0, 0, 0], [(false, [0, 1, 3]), (false, [3, 4])]) := by decide +kernel
  obtain ⟨s, hs, he⟩ := Option.map_eq_some_iff.1 h
  simp only [Prod.mk.injEq] at he
  obtain ⟨h0, h1, h2⟩ := he
  refine ⟨s, hs, h1, h2, ?_⟩
  intro ho
  match hl : s.tjs with
  | [] => rw [hl] at h2; simp at h2
  | t :: l =>
    rw [hl] at h2
    simp only [List.map_cons, List.cons.injEq, Prod.mk.injEq] at h2
    have := (ho.owns 0 t (by rw [hl]; rfl) h2.1.1 3 (by rw [h2.1.2]; simp)).2
    have h3 : s.own 3 = 2 := by
      have := congrArg (fun l => l[3]?) h1
      simpa [owners, h0] using this
    rw [h3] at this
    simp at this

end Verif.TC

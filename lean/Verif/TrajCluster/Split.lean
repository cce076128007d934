import Verif.TrajCluster.Store
/-!
# Splitting trajectories
-/
namespace Verif.TC

/-- replacing a trajectory by one that uses the same hits -/
theorem Owned.set {s : Slice} (hs : Owned s) {i : Nat} {t t' : Traj} (ht : s.tjs[i]? = some t) (h1 : t'.id = t.id)
    (h2 : t'.uid = t.uid) (h3 : t'.pts = t.pts) (h4 : t'.killed = t.killed) (h5 : t'.shower = t.shower)
    (h6 : t'.halo = t.halo) : Owned { s with tjs := s.tjs.set i t' } := by
  have hu : used t' = used t := used_congr h3 h5 .used
  refine ⟨?_, ?_, ?_, ?_, ?_, uids_ok hs ht h2⟩
  · intro j u hj
    rcases getElem?_set_some hj with ⟨rfl, rfl, _⟩ | ⟨_, hj⟩
    · rw [h1]; exact hs.ids i t ht
    · exact hs.ids j u hj
  · intro h hh hp
    obtain ⟨j, u, a, b, c, d⟩ := hs.owner h hh hp
    by_cases hij : i = j
    · subst hij
      rw [ht] at a
      cases a
      exact ⟨i, t', List.getElem?_set_self (List.getElem?_eq_some_iff.1 ht).1, b, by rw [h4]; exact c, by rw [hu]; exact d⟩
    · exact ⟨j, u, by rw [List.getElem?_set, if_neg hij]; exact a, b, c, d⟩
  · intro j u hj hk
    rcases getElem?_set_some hj with ⟨rfl, rfl, _⟩ | ⟨_, hj⟩
    · rw [hu]; exact hs.owns i t ht (by rw [← h4]; exact hk)
    · exact hs.owns j u hj hk
  · intro j u hj hk
    rcases getElem?_set_some hj with ⟨rfl, rfl, _⟩ | ⟨_, hj⟩
    · rw [hu]; exact hs.once i t ht (by rw [← h4]; exact hk)
    · exact hs.once j u hj hk
  · intro j u hj hk
    rcases getElem?_set_some hj with ⟨rfl, rfl, _⟩ | ⟨_, hj⟩
    · rw [h3, h5, h6]; exact hs.charge i t ht (by rw [← h4]; exact hk)
    · exact hs.charge j u hj hk

theorem tpHits_blank (p : TP) : tpHits .used (blank p) = [] := by
  apply tpHits_of_unused
  intro x hx
  obtain ⟨y, _, rfl⟩ := List.mem_map.1 hx
  rfl

theorem flatMap_blank (l : List TP) : (l.map blank).flatMap (tpHits .used) = [] := by
  rw [List.flatMap_eq_nil_iff]
  intro p hp
  obtain ⟨q, _, rfl⟩ := List.mem_map.1 hp
  exact tpHits_blank q

theorem moveHits_spec (id new : Int) : ∀ (l : List (Nat × Bool)) (own : Nat → Int),
    ((l.filter fun x => wanted .used x.2).map (·.1)).Nodup → (∀ h, (h, true) ∈ l → own h = id) →
    moveHits id new l own = (l.map fun x => (x.1, false), fun x => if (x, true) ∈ l then new else own x) := by
  intro l
  induction l with
  | nil => intro own _ _; simp [moveHits]
  | cons a l ih =>
    intro own hnd hown
    obtain ⟨h, u⟩ := a
    cases u with
    | false =>
      rw [moveHits, if_neg (by simp), ih own]
      · simp
      · simpa [wanted] using hnd
      · intro x hx
        exact hown x (List.mem_cons_of_mem _ hx)
    | true =>
      have hnd' : h ∉ (l.filter fun x => wanted .used x.2).map (·.1) ∧
          ((l.filter fun x => wanted .used x.2).map (·.1)).Nodup := by
        simpa [wanted] using hnd
      have hno : (h, true) ∉ l := by
        intro hm
        exact hnd'.1 (List.mem_map.2 ⟨_, List.mem_filter.2 ⟨hm, rfl⟩, rfl⟩)
      rw [moveHits, if_pos ⟨rfl, hown h (List.mem_cons_self ..)⟩, ih (setOwn own h new) hnd'.2]
      · simp only [List.map_cons, Prod.mk.injEq, true_and]
        funext x
        by_cases hx : x = h
        · subst hx
          simp [hno, setOwn]
        · simp [hx, setOwn]
      · intro x hx
        have hne : x ≠ h := by
          rintro rfl
          exact hno hx
        simp only [setOwn, hne, if_false]
        exact hown x (List.mem_cons_of_mem _ hx)

theorem movePts_spec (id new : Int) : ∀ (l : List TP) (own : Nat → Int),
    (l.flatMap (tpHits .used)).Nodup → (∀ h ∈ l.flatMap (tpHits .used), own h = id) →
    movePts id new l own = (l.map blank, fun x => if x ∈ l.flatMap (tpHits .used) then new else own x) := by
  intro l
  induction l with
  | nil => intro own _ _; simp [movePts]
  | cons p l ih =>
    intro own hnd hown
    rw [List.flatMap_cons, List.nodup_append] at hnd
    obtain ⟨h1, h2, h3⟩ := hnd
    have hp := moveHits_spec id new p.hits own h1 (by
      intro h hh
      exact hown h (List.mem_flatMap.2 ⟨p, List.mem_cons_self .., mem_tpHits_used.2 hh⟩))
    rw [movePts, hp]
    simp only
    rw [ih _ h2]
    · simp only [List.map_cons, blank, Prod.mk.injEq, List.cons.injEq, true_and]
      funext x
      simp only [List.flatMap_cons, List.mem_append, mem_tpHits_used]
      by_cases ha : x ∈ l.flatMap (tpHits .used)
      · simp [ha]
      · by_cases hb : (x, true) ∈ p.hits <;> simp [ha, hb]
    · intro h hh
      have hno : (h, true) ∉ p.hits := by
        intro hm
        exact h3 h (mem_tpHits_used.2 hm) h hh rfl
      simp only [hno, if_false]
      exact hown h (List.mem_flatMap.2 (by
        obtain ⟨q, hq, hh⟩ := List.mem_flatMap.1 hh
        exact ⟨q, List.mem_cons_of_mem _ hq, hh⟩))

/-- a trajectory replaced by two that share its hits -/
theorem Owned.split {s : Slice} (hs : Owned s) {i : Nat} {t a b : Traj} (ht : s.tjs[i]? = some t)
    (hk : t.killed = false) {own' : Nat → Int}
    (ha : a.id = t.id ∧ a.uid = t.uid ∧ a.killed = false) (hb : b.id = (s.tjs.length : Int) + 1 ∧ b.uid = s.uid + 1 ∧ b.killed = false)
    (hab : used t = used a ++ used b)
    (hca : ∀ p ∈ a.pts, p.chg = 0 → ∀ x ∈ p.hits, x.2 = false)
    (hcb : ∀ p ∈ b.pts, p.chg = 0 → ∀ x ∈ p.hits, x.2 = false)
    (how : ∀ x, own' x = if x ∈ used b then (s.tjs.length : Int) + 1 else s.own x) :
    Owned { s with own := own', tjs := s.tjs.set i a ++ [b], uid := s.uid + 1 } := by
  have hlen := (List.getElem?_eq_some_iff.1 ht).1
  have hnd := hs.once i t ht hk
  rw [hab, List.nodup_append] at hnd
  obtain ⟨n1, n2, n3⟩ := hnd
  have hget : ∀ (j : Nat) (u : Traj), (s.tjs.set i a ++ [b])[j]? = some u →
      (j ≠ i ∧ s.tjs[j]? = some u) ∨ (j = i ∧ u = a) ∨ (j = s.tjs.length ∧ u = b) := by
    intro j u h
    rcases Nat.lt_trichotomy j s.tjs.length with hl | hl | hl
    · rw [List.getElem?_append_left (by rw [List.length_set]; exact hl)] at h
      rcases getElem?_set_some h with ⟨rfl, rfl, _⟩ | ⟨hne, h⟩
      · exact Or.inr (Or.inl ⟨rfl, rfl⟩)
      · exact Or.inl ⟨fun e => hne e.symm, h⟩
    · subst hl
      rw [List.getElem?_append_right (by simp)] at h
      simp at h
      exact Or.inr (Or.inr ⟨rfl, h.symm⟩)
    · rw [List.getElem?_eq_none (by simp; omega)] at h
      cases h
  have hga : (s.tjs.set i a ++ [b])[i]? = some a := by
    rw [List.getElem?_append_left (by rw [List.length_set]; exact hlen), List.getElem?_set_self hlen]
  have hgb : (s.tjs.set i a ++ [b])[s.tjs.length]? = some b := by
    rw [List.getElem?_append_right (by simp)]
    simp
  have hgo : ∀ (j : Nat) (u : Traj), j ≠ i → s.tjs[j]? = some u → (s.tjs.set i a ++ [b])[j]? = some u := by
    intro j u hji h
    rw [List.getElem?_append_left (by rw [List.length_set]; exact (List.getElem?_eq_some_iff.1 h).1),
      List.getElem?_set, if_neg (fun e => hji e.symm)]
    exact h
  have hmem : ∀ x, x ∈ used t ↔ x ∈ used a ∨ x ∈ used b := by
    intro x
    rw [hab, List.mem_append]
  refine ⟨?_, ?_, ?_, ?_, ?_, ?_, ?_⟩
  · intro j u hj
    rcases hget j u hj with ⟨_, h⟩ | ⟨rfl, rfl⟩ | ⟨rfl, rfl⟩
    · exact hs.ids j u h
    · rw [ha.1]; exact hs.ids _ t ht
    · exact hb.1
  · intro x hx hp
    simp only at hx hp ⊢
    rw [how] at hp ⊢
    by_cases hxb : x ∈ used b
    · rw [if_pos hxb]
      exact ⟨_, b, hgb, rfl, hb.2.2, hxb⟩
    · rw [if_neg hxb] at hp ⊢
      obtain ⟨j, u, h1, h2, h3, h4⟩ := hs.owner x hx hp
      by_cases hji : j = i
      · subst hji
        rw [ht] at h1
        cases h1
        refine ⟨j, a, hga, h2, ha.2.2, ?_⟩
        rcases (hmem x).1 h4 with h5 | h5
        · exact h5
        · exact absurd h5 hxb
      · exact ⟨j, u, hgo j u hji h1, h2, h3, h4⟩
  · intro j u hj hku x hx
    simp only
    rw [how]
    rcases hget j u hj with ⟨hji, h⟩ | ⟨rfl, rfl⟩ | ⟨rfl, rfl⟩
    · obtain ⟨h1, h2⟩ := hs.owns j u h hku x hx
      refine ⟨h1, ?_⟩
      rw [if_neg]
      · exact h2
      · intro hxb
        have := (hs.owns i t ht hk x ((hmem x).2 (Or.inr hxb))).2
        omega
    · obtain ⟨h1, h2⟩ := hs.owns _ t ht hk x ((hmem x).2 (Or.inl hx))
      refine ⟨h1, ?_⟩
      rw [if_neg]
      · exact h2
      · intro hxb
        exact n3 x hx x hxb rfl
    · obtain ⟨h1, _⟩ := hs.owns _ t ht hk x ((hmem x).2 (Or.inr hx))
      exact ⟨h1, by rw [if_pos hx]⟩
  · intro j u hj hku
    rcases hget j u hj with ⟨hji, h⟩ | ⟨rfl, rfl⟩ | ⟨rfl, rfl⟩
    · exact hs.once j u h hku
    · exact n1
    · exact n2
  · intro j u hj hku h1 h2
    rcases hget j u hj with ⟨hji, h⟩ | ⟨rfl, rfl⟩ | ⟨rfl, rfl⟩
    · exact hs.charge j u h hku h1 h2
    · exact hca
    · exact hcb
  · simp only [List.map_append, List.map_cons, List.map_nil]
    rw [uids_set ht ha.2.1, List.nodup_append]
    refine ⟨hs.uids.1, by simp, ?_⟩
    intro x hx y hy
    obtain ⟨u, hu, rfl⟩ := List.mem_map.1 hx
    have := hs.uids.2 u hu
    simp at hy
    omega
  · intro u hu
    simp only
    rcases List.mem_append.1 hu with hu | hu
    · have := (uids_ok hs ht ha.2.1).2 u hu; omega
    · simp at hu; subst hu; omega

/-- **C120.** Splitting a trajectory never breaks the agreement of the tables. When it reports success the first part
keeps the number and uses exactly the hits of the points up to the given one, a new trajectory at the end of the list
uses exactly those of the later points; no hit is lost, all other trajectories and all other hits stay; with a vertex,
the two parts meet at it and keep the vertices at their other ends. It succeeds exactly when both parts have three points
with charge. When it reports failure nothing changes but the particle code of a muon. -/
theorem C120_split {s : Slice} (hs : Owned s) (code : Traj → Nat) {i : Nat} {t : Traj} (ht : s.tjs[i]? = some t)
    (hk : t.killed = false) (hsh : t.shower = false) (hha : t.halo = false) (he : (setEndPoints t).endPt = t.endPt)
    (pos ivx : Nat) (hpos : pos < 65536) :
    ∃ r s', splitTraj code s i pos ivx = .ok (r, s') ∧ Owned s' ∧ s'.n = s.n ∧ s'.vtxs = s.vtxs ∧
      (r = true → ∃ a b, s'.tjs = s.tjs.set i a ++ [b] ∧ a.id = t.id ∧ b.id = (s.tjs.length : Int) + 1 ∧
        a.killed = false ∧ b.killed = false ∧
        used a = (t.pts.take (pos + 1)).flatMap (tpHits .used) ∧
        used b = (t.pts.drop (pos + 1)).flatMap (tpHits .used) ∧
        (∀ x, s'.own x = if x ∈ used b then (s.tjs.length : Int) + 1 else s.own x) ∧
        ∀ v, s.vtxs[ivx]? = some v → a.vtx = (t.vtx.1, v.id) ∧ b.vtx = (v.id, t.vtx.2)) ∧
      (r = false → s'.own = s.own ∧ (s'.tjs = s.tjs ∨ t.pdg = 13 ∧ s'.tjs = s.tjs.set i { t with pdg := 0 })) ∧
      (t.endPt.1 < pos → pos < t.endPt.2 → ivx < s.vtxs.length →
        (r = true ↔ 3 ≤ charged (t.pts.take (pos + 1)) ∧ 3 ≤ charged (t.pts.drop (pos + 1)))) := by
  have hne : s.tjs ≠ [] := by
    intro h
    rw [h] at ht
    cases ht
  have hlen := (List.getElem?_eq_some_iff.1 ht).1
  have hE : t.endPt = (firstChg t.pts, lastChg t.pts) := by
    rw [← he]
    simp [setEndPoints, hsh, hha]
  have hset : s.tjs.set i t = s.tjs := by
    apply List.ext_getElem?
    intro j
    rw [List.getElem?_set]
    split
    · rename_i e
      subst e
      rw [ht]
    · rfl
  unfold splitTraj
  rw [if_neg hne, ht]
  simp only
  by_cases c1 : pos < t.endPt.1 + 1 ∨ t.endPt.2 < pos + 1
  · rw [if_pos c1]
    refine ⟨false, s, rfl, hs, rfl, rfl, by simp, fun _ => ⟨rfl, Or.inl rfl⟩, fun h1 h2 => by omega⟩
  rw [if_neg c1]
  by_cases c2 : ivx ≠ 65535 ∧ s.vtxs ≠ [] ∧ s.vtxs.length ≤ ivx
  · rw [if_pos c2]
    refine ⟨false, s, rfl, hs, rfl, rfl, by simp, fun _ => ⟨rfl, Or.inl rfl⟩, fun h1 h2 h3 => by omega⟩
  rw [if_neg c2]
  push_neg at c1
  -- the last end point is a point with charge
  have hx : ∃ (k : Nat) (p : TP), t.pts[k]? = some p ∧ p.chg ≠ 0 := by
    by_contra hcon
    have hall : ∀ p ∈ t.pts, p.chg = 0 := by
      intro p hp
      obtain ⟨k, hk', rfl⟩ := List.mem_iff_getElem.1 hp
      by_contra hc
      exact hcon ⟨k, _, List.getElem?_eq_getElem hk', hc⟩
    have := lastChg_none hall
    rw [hE] at c1
    simp only at c1
    omega
  obtain ⟨k, p, hk1, hk2⟩ := hx
  obtain ⟨_, ⟨q, hq1, _⟩, hq2⟩ := lastChg_spec k p hk1 hk2
  have hlast : t.endPt.2 = lastChg t.pts := by rw [hE]
  have hb : t.endPt.2 < t.pts.length := by
    rw [hlast]
    exact (List.getElem?_eq_some_iff.1 hq1).1
  rw [if_neg (by omega)]
  have htail : ∀ p ∈ t.pts.drop (t.endPt.2 + 1), p.chg = 0 := by
    intro r hr
    obtain ⟨j, hj, rfl⟩ := List.mem_iff_getElem.1 hr
    rw [List.length_drop] at hj
    refine hq2 (t.endPt.2 + 1 + j) (by omega) _ ?_
    rw [List.getElem_drop, List.getElem?_eq_getElem]
  have hc := hs.charge i t ht hk hsh hha
  have htailU : (t.pts.drop (t.endPt.2 + 1)).flatMap (tpHits .used) = [] := by
    rw [List.flatMap_eq_nil_iff]
    intro r hr
    exact tpHits_of_unused (hc r (List.mem_of_mem_drop hr) (htail r hr))
  -- the points after the given one
  have hdrop : t.pts.drop (pos + 1) = (t.pts.take (t.endPt.2 + 1)).drop (pos + 1) ++ t.pts.drop (t.endPt.2 + 1) := by
    conv_lhs => rw [← List.take_append_drop (t.endPt.2 + 1) t.pts]
    rw [List.drop_append_of_le_length]
    rw [List.length_take]
    omega
  have hchg2 : charged ((t.pts.take (t.endPt.2 + 1)).drop (pos + 1)) = charged (t.pts.drop (pos + 1)) := by
    unfold charged
    rw [hdrop, List.countP_append]
    have : (t.pts.drop (t.endPt.2 + 1)).countP (fun p => decide (0 < p.chg)) = 0 := by
      rw [List.countP_eq_zero]
      intro r hr
      simp [htail r hr]
    omega
  have hU2 : ((t.pts.take (t.endPt.2 + 1)).drop (pos + 1)).flatMap (tpHits .used) =
      (t.pts.drop (pos + 1)).flatMap (tpHits .used) := by
    rw [hdrop, List.flatMap_append, htailU, List.append_nil]
  rw [hchg2]
  have ht0 : ∀ (P : Prop) [Decidable P], (if P then { t with pdg := 0 } else t).id = t.id ∧
      (if P then { t with pdg := 0 } else t).uid = t.uid ∧ (if P then { t with pdg := 0 } else t).pts = t.pts ∧
      (if P then { t with pdg := 0 } else t).killed = t.killed ∧
      (if P then { t with pdg := 0 } else t).shower = t.shower ∧
      (if P then { t with pdg := 0 } else t).halo = t.halo ∧
      (if P then { t with pdg := 0 } else t).vtx = t.vtx := by
    intro P _
    split <;> exact ⟨rfl, rfl, rfl, rfl, rfl, rfl, rfl⟩
  have hs0 : (s.tjs.set i (if t.pdg = 13 then { t with pdg := 0 } else t) = s.tjs) ∨
      (t.pdg = 13 ∧ s.tjs.set i (if t.pdg = 13 then { t with pdg := 0 } else t) = s.tjs.set i { t with pdg := 0 }) := by
    by_cases hm : t.pdg = 13
    · rw [if_pos hm]; exact Or.inr ⟨hm, rfl⟩
    · rw [if_neg hm]; exact Or.inl hset
  obtain ⟨g1, g2, g3, g4, g5, g6, g7⟩ := ht0 (t.pdg = 13)
  have ho0 := hs.set ht g1 g2 g3 g4 g5 g6
  generalize (if t.pdg = 13 then { t with pdg := 0 } else t) = t0 at *
  by_cases c3 : charged (t.pts.take (pos + 1)) < 3
  · rw [if_pos c3]
    refine ⟨false, _, rfl, ho0, rfl, rfl, by simp, fun _ => ⟨rfl, hs0⟩, fun _ _ _ => ?_⟩
    simp only [Bool.false_eq_true, false_iff]
    omega
  rw [if_neg c3]
  by_cases c4 : charged (t.pts.drop (pos + 1)) < 3
  · rw [if_pos c4]
    refine ⟨false, _, rfl, ho0, rfl, rfl, by simp, fun _ => ⟨rfl, hs0⟩, fun _ _ _ => ?_⟩
    simp only [Bool.false_eq_true, false_iff]
    omega
  rw [if_neg c4]
  have hp2 : 2 ≤ pos := by
    have : charged (t.pts.take (pos + 1)) ≤ (t.pts.take (pos + 1)).length := List.countP_le_length
    rw [List.length_take] at this
    omega
  have her : (pos + 65534) % 65536 = pos - 2 := by omega
  have hnd := hs.once i t ht hk
  have hsplit : used t = (t.pts.take (pos + 1)).flatMap (tpHits .used) ++ (t.pts.drop (pos + 1)).flatMap (tpHits .used) := by
    rw [used_eq hsh, ← List.flatMap_append, List.take_append_drop]
  have hmv := movePts_spec t.id (s.tjs.length + 1) ((t.pts.take (t.endPt.2 + 1)).drop (pos + 1)) s.own (by
      rw [hU2]
      rw [hsplit, List.nodup_append] at hnd
      exact hnd.2.1) (by
      intro h hh
      rw [hU2] at hh
      have := (hs.owns i t ht hk h (by rw [hsplit]; exact List.mem_append_right _ hh)).2
      rw [this, hs.ids i t ht])
  rw [hmv, her]
  simp only
  rw [if_neg (by omega)]
  rw [hU2]
  -- the points of the two parts
  have hl3 : (t.pts.drop (pos - 2)).drop 3 = t.pts.drop (pos + 1) := by
    rw [List.drop_drop, show pos - 2 + 3 = pos + 1 by omega]
  rw [hl3]
  have hfin : ∀ (P : Prop) [Decidable P] (u : Traj), 
      (if P then { u with pdg := code u } else u).id = u.id ∧ (if P then { u with pdg := code u } else u).uid = u.uid ∧
      (if P then { u with pdg := code u } else u).pts = u.pts ∧
      (if P then { u with pdg := code u } else u).killed = u.killed ∧
      (if P then { u with pdg := code u } else u).shower = u.shower ∧
      (if P then { u with pdg := code u } else u).vtx = u.vtx := by
    intro P _ u
    split <;> exact ⟨rfl, rfl, rfl, rfl, rfl, rfl⟩
  have hE1 : ∀ u : Traj, (setEndPoints u).id = u.id ∧ (setEndPoints u).uid = u.uid ∧ (setEndPoints u).pts = u.pts ∧
      (setEndPoints u).killed = u.killed ∧ (setEndPoints u).shower = u.shower ∧ (setEndPoints u).vtx = u.vtx := by
    intro u
    obtain ⟨f1, f2, f3, f4, f5, f6, f7, f8⟩ := setEndPoints_fields u
    exact ⟨f1, f6, setEndPoints_pts u, f2, f3, f5⟩
  obtain ⟨a1, a2, a3, a4, a5, a6⟩ := hE1 { t0 with pts := t.pts.take (pos + 1) ++
    ((t.pts.take (t.endPt.2 + 1)).drop (pos + 1)).map blank ++ t.pts.drop (t.endPt.2 + 1) }
  obtain ⟨b1, b2, b3, b4, b5, b6⟩ := hE1 { t0 with
    pts := ((t.pts.drop (pos - 2)).take 3).map blank ++ t.pts.drop (pos + 1)
    id := (s.tjs.length : Int) + 1
    uid := s.uid + 1 }
  generalize setEndPoints { t0 with pts := t.pts.take (pos + 1) ++
    ((t.pts.take (t.endPt.2 + 1)).drop (pos + 1)).map blank ++ t.pts.drop (t.endPt.2 + 1) } = A at *
  generalize setEndPoints { t0 with
    pts := ((t.pts.drop (pos - 2)).take 3).map blank ++ t.pts.drop (pos + 1)
    id := (s.tjs.length : Int) + 1
    uid := s.uid + 1 } = B at *
  obtain ⟨p1, p2, p3, p4, p5, p6⟩ := hfin (t.pdg = 13) A
  obtain ⟨q1, q2, q3, q4, q5, q6⟩ := hfin (t.pdg = 13) B
  generalize (if t.pdg = 13 then { A with pdg := code A } else A) = A' at *
  generalize (if t.pdg = 13 then { B with pdg := code B } else B) = B' at *
  simp only at a1 a2 a3 a4 a5 a6 b1 b2 b3 b4 b5 b6
  have huA : ∀ v sp, used { A' with vtx := v, split := sp } = (t.pts.take (pos + 1)).flatMap (tpHits .used) := by
    intro v sp
    rw [used_eq (by simp only; rw [p5, a5, g5, hsh])]
    simp only
    rw [p3, a3, List.flatMap_append, List.flatMap_append, flatMap_blank, htailU]
    simp
  have huB : ∀ v sp pa, used { B' with vtx := v, split := sp, parentID := pa } =
      (t.pts.drop (pos + 1)).flatMap (tpHits .used) := by
    intro v sp pa
    rw [used_eq (by simp only; rw [q5, b5, g5, hsh])]
    simp only
    rw [q3, b3, List.flatMap_append, flatMap_blank]
    simp
  have hbl : ∀ (l : List TP), ∀ r ∈ l.map blank, ∀ x ∈ r.hits, x.2 = false := by
    intro l r hr x hx
    obtain ⟨y, _, rfl⟩ := List.mem_map.1 hr
    obtain ⟨z, _, rfl⟩ := List.mem_map.1 hx
    rfl
  refine ⟨true, _, rfl, ?_, rfl, rfl, fun _ => ⟨_, _, rfl, ?_, ?_, ?_, ?_, huA _ _, huB _ _ _, ?_, ?_⟩, by simp, ?_⟩
  · refine Owned.split hs ht hk ?_ ?_ ?_ ?_ ?_ ?_
    · exact ⟨by simp only; rw [p1, a1, g1], by simp only; rw [p2, a2, g2], by simp only; rw [p4, a4, g4, hk]⟩
    · exact ⟨by simp only; rw [q1, b1], by simp only; rw [q2, b2], by simp only; rw [q4, b4, g4, hk]⟩
    · rw [huA, huB]
      exact hsplit
    · simp only
      rw [p3, a3]
      intro r hr
      rcases List.mem_append.1 hr with hr | hr
      · rcases List.mem_append.1 hr with hr | hr
        · exact hc r (List.mem_of_mem_take hr)
        · exact fun _ => hbl _ r hr
      · exact hc r (List.mem_of_mem_drop hr)
    · simp only
      rw [q3, b3]
      intro r hr
      rcases List.mem_append.1 hr with hr | hr
      · exact fun _ => hbl _ r hr
      · exact hc r (List.mem_of_mem_drop hr)
    · intro x
      rw [huB]
  · simp only; rw [p1, a1, g1]
  · simp only; rw [q1, b1]
  · simp only; rw [p4, a4, g4, hk]
  · simp only; rw [q4, b4, g4, hk]
  · intro x
    rw [huB]
  · intro v hv
    simp only [hv, Option.map_some, Option.getD_some]
    rw [p6, a6, g7, q6, b6, g7]
    exact ⟨rfl, rfl⟩
  · intro _ _ _
    simp only [true_iff]
    omega

/-! ### a concrete case and refutations -/

/-- eight hits of one stored trajectory between two vertices -/
def exLong : Traj :=
  { pts := (List.range 8).map pt, endPt := (0, 7), vtx := (1, 2), id := 1, uid := 1 }

/-- the slice of `exLong` with three vertices -/
def exLongS : Slice := ⟨8, fun _ => 1, [exLong], [⟨1, 0, 0, 0, (0, 0), 1, false⟩, ⟨2, 0, 0, 0, (7, 0), 1, false⟩,
  ⟨3, 0, 0, 0, (3, 0), 0, false⟩], [], [], 1⟩

theorem exLongS_owned : Owned exLongS := by
  have hg : ∀ (i : Nat) (t : Traj), exLongS.tjs[i]? = some t → i = 0 ∧ t = exLong := by
    intro i t h
    cases i with
    | zero => simp only [exLongS, List.getElem?_cons_zero, Option.some.injEq] at h; exact ⟨rfl, h.symm⟩
    | succ i => simp [exLongS] at h
  refine ⟨?_, ?_, ?_, ?_, ?_, by decide⟩
  · intro i t h
    obtain ⟨rfl, rfl⟩ := hg i t h
    rfl
  · intro h hh _
    refine ⟨0, exLong, rfl, rfl, rfl, ?_⟩
    exact (by decide : ∀ h < 8, h ∈ used exLong) h hh
  · intro i t h _ x hx
    obtain ⟨rfl, rfl⟩ := hg i t h
    have : x ∈ [0, 1, 2, 3, 4, 5, 6, 7] := hx
    exact ⟨by show x < 8; revert this; simp; omega, rfl⟩
  · intro i t h _
    obtain ⟨rfl, rfl⟩ := hg i t h
    decide
  · intro i t h _ _ _
    obtain ⟨rfl, rfl⟩ := hg i t h
    decide

/-- what is seen of a trajectory -/
structure TView where
  id : Int
  hits : List Nat
  vtx : Nat × Nat
  pdg : Nat
deriving DecidableEq

/-- what is seen after a split: the owners of the hits and the trajectories -/
def splitView (r : Res (Bool × Slice)) : Option (Bool × List Int × List TView) :=
  match r with
  | .ok (b, s) => some (b, owners s, s.tjs.map fun t => ⟨t.id, used t, t.vtx, t.pdg⟩)
  | _ => none

example : Owned exLongS ∧ exLongS.tjs[0]? = some exLong ∧ exLong.killed = false ∧
    (setEndPoints exLong).endPt = exLong.endPt ∧
    splitView (splitTraj (fun _ => 13) exLongS 0 3 2) = some (true, [1, 1, 1, 1, 2, 2, 2, 2],
      [⟨1, [0, 1, 2, 3], (1, 3), 0⟩, ⟨2, [4, 5, 6, 7], (3, 2), 0⟩]) :=
  ⟨exLongS_owned, rfl, rfl, by decide +kernel, by decide +kernel⟩

/-- splitting without a vertex leaves both parts attached to both old vertices: the first part claims the vertex at the
far end of the second and the other way round -/
theorem C120_no_vertex_refuted :
    Owned exLongS ∧
    splitView (splitTraj (fun _ => 13) exLongS 0 3 65535) = some (true, [1, 1, 1, 1, 2, 2, 2, 2],
      [⟨1, [0, 1, 2, 3], (1, 2), 0⟩, ⟨2, [4, 5, 6, 7], (1, 2), 0⟩]) :=
  ⟨exLongS_owned, by decide +kernel⟩

/-- a refused split of a muon has removed its particle code -/
theorem C120_failed_muon_refuted :
    Owned { exLongS with tjs := [{ exLong with pdg := 13 }] } ∧
    splitView (splitTraj (fun _ => 13) { exLongS with tjs := [{ exLong with pdg := 13 }] } 0 1 2) =
      some (false, [1, 1, 1, 1, 1, 1, 1, 1], [⟨1, [0, 1, 2, 3, 4, 5, 6, 7], (1, 2), 0⟩]) :=
  ⟨exLongS_owned.set (i := 0) (t := exLong) rfl rfl rfl rfl rfl rfl rfl, by decide +kernel⟩

end Verif.TC

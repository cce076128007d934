import Verif.SpacePoint.SpFit
import Mathlib.Data.List.Perm.Subperm
import Mathlib.Data.List.Nodup
import Mathlib.Tactic.Tauto
/-!
# C152, C153: which combinations of hits make space points
-/
namespace Verif.SpAlg

/-! ## Specification -/

/-- a hit of the input, in an enabled view and the given TPC -/
def Usable (c : Cfg) (hits : List Hit) (t : Nat) (h : Hit) : Prop := h ∈ hits ∧ c.enabled h.view = true ∧ h.tpc = t

/-- some point of the wire of `a`, between its ends, is on the line of the wire of `b` -/
def Crosses (g : Geo) (a b : Hit) : Prop := ∃ lam : ℚ, 0 ≤ lam ∧ lam ≤ 1 ∧
  ((1 - lam) * (g.of a).z1 + lam * (g.of a).z2) * (g.of b).s - ((1 - lam) * (g.of a).y1 + lam * (g.of a).y2) * (g.of b).c = (g.of b).u

/-- three planes of parallel, evenly spaced wires, in three directions -/
structure ThreePlanes (g : Geo) (t : Nat) : Prop where
  three : g.nplane t = 3
  ideal : ∀ p < 3, Ideal g t p
  angle : ∀ p < 3, ∀ q < 3, p ≠ q → (g.wire t p 0).s * (g.wire t q 0).c - (g.wire t q 0).s * (g.wire t p 0).c ≠ 0

/-- hits are in planes of the TPC, and those of a plane have one view -/
structure GoodHits (g : Geo) (hits : List Hit) (t : Nat) : Prop where
  plane : ∀ h ∈ hits, h.tpc = t → h.plane < g.nplane t
  view : ∀ a ∈ hits, ∀ b ∈ hits, a.tpc = t → b.tpc = t → a.plane = b.plane → a.view = b.view

/-! ## C152 -/

/-- **C152 (compatibility).** Whether hits are compatible does not depend on their order. Two hits are compatible exactly when they are of one TPC, of
different views and within `MaxDT`; three when each two are and their wires nearly meet in a point. -/
theorem compatible_order (g : Geo) (c : Cfg) (l l' : List Hit) (hp : l.Perm l')
    (hv : ∀ a ∈ l, ∀ b ∈ l, a.plane = b.plane → a.view = b.view) : compatible g c l = compatible g c l' := compatible_perm hp hv

/-- C152: two hits -/
theorem compatible_two (g : Geo) (c : Cfg) (a b : Hit) : compatible g c [a, b] = true ↔
    a.tpc = b.tpc ∧ a.view ≠ b.view ∧ |(a.peak - g.off a.tpc a.plane) - (b.peak - g.off b.tpc b.plane)| ≤ c.maxDT := by
  rw [compatible2, pairOk_iff]; rfl

/-- C152: three hits of three planes; when the three wires pass through one point the separation is zero, so a positive `MaxS` is met -/
theorem compatible_three (g : Geo) (c : Cfg) (a b d : Hit) (hv : a.plane ≠ b.plane ∧ a.plane ≠ d.plane ∧ b.plane ≠ d.plane)
    (h1 : a.plane < 3) (h2 : b.plane < 3) (h3 : d.plane < 3) (hS : 0 < c.maxS) (y z : ℚ)
    (ha : z * (g.of a).s - y * (g.of a).c = (g.of a).u) (hb : z * (g.of b).s - y * (g.of b).c = (g.of b).u)
    (hd : z * (g.of d).s - y * (g.of d).c = (g.of d).u) :
    compatible g c [a, b, d] = true ↔ compatible g c [a, b] = true ∧ compatible g c [a, d] = true ∧ compatible g c [b, d] = true := by
  rw [compatible3 hv h1 h2 h3, compatible2, compatible2, compatible2]
  have : sep3 g a b d = 0 := by
    unfold sep3
    dsimp only
    rw [← ha, ← hb, ← hd]
    ring
  rw [this]
  simp [hS]

example : compatible exGeo ⟨5, 1, 2, fun _ => true, false, false, false⟩ [⟨0, 0, 0, 0, 3, 10, 1⟩, ⟨1, 0, 1, 1, 5, 12, 1⟩] = true ∧
    compatible exGeo ⟨1, 1, 2, fun _ => true, false, false, false⟩ [⟨0, 0, 0, 0, 3, 10, 1⟩, ⟨1, 0, 1, 1, 5, 12, 1⟩] = false := by
  decide +kernel

/-! ## The hits of a plane -/

theorem mem_planeHits {c : Cfg} {hits : List Hit} {t p : Nat} {h : Hit} :
    h ∈ planeHits c hits t p ↔ Usable c hits t h ∧ h.plane = p := by
  unfold planeHits Usable
  rw [List.mem_insertionSort, List.mem_filter]
  simp only [Bool.and_eq_true, decide_eq_true_eq]
  tauto

theorem nodup_planeHits {c : Cfg} {hits : List Hit} (hn : hits.Nodup) (t p : Nat) : (planeHits c hits t p).Nodup := by
  unfold planeHits
  exact (List.perm_insertionSort _ _).nodup_iff.2 (hn.filter _)

/-! ## Triples -/

theorem triples_eq {g : Geo} {c : Cfg} {hits : List Hit} {t : Nat} (h3 : g.nplane t = 3) (hmin : c.minViews ≤ 3) :
    ∃ p q r, index g c hits t = [p, q, r] ∧ [p, q, r].Perm [0, 1, 2] ∧ triples g c hits t = triplesOf g c hits t p q r := by
  have hp := index_perm g c hits t
  rw [h3] at hp
  have hl := hp.length_eq
  match hi : index g c hits t with
  | [] => rw [hi] at hl; simp at hl
  | [_] => rw [hi] at hl; simp at hl
  | [_, _] => rw [hi] at hl; simp at hl
  | _ :: _ :: _ :: _ :: _ => rw [hi] at hl; simp at hl
  | [p, q, r] =>
    refine ⟨p, q, r, rfl, ?_, ?_⟩
    · rw [hi] at hp; exact hp
    · unfold triples
      rw [if_pos ⟨by omega, hmin⟩, hi]

theorem mem_triplesOf {g : Geo} {c : Cfg} {hits : List Hit} {t p q r : Nat} {l : List Hit} :
    l ∈ triplesOf g c hits t p q r ↔ ∃ a b d, l = [a, b, d] ∧ (Usable c hits t a ∧ a.plane = p) ∧ (Usable c hits t b ∧ b.plane = q) ∧
      (Usable c hits t d ∧ d.plane = r) ∧ reach g a q b.wire = true ∧ |g.time a - g.time b| ≤ c.maxDT ∧ compatible g c [a, b] = true ∧
      thirdOk g c a b d = true := by
  unfold triplesOf
  simp only [List.mem_flatMap, List.mem_filter, List.mem_map, mem_planeHits, Bool.and_eq_true, decide_eq_true_eq]
  constructor
  · rintro ⟨a, ha, b, ⟨hb, ⟨h1, h2⟩, h3⟩, d, ⟨hd, h4⟩, rfl⟩
    exact ⟨a, b, d, rfl, ha, hb, hd, h1, h2, h3, h4⟩
  · rintro ⟨a, b, d, rfl, ha, hb, hd, h1, h2, h3, h4⟩
    exact ⟨a, ha, b, ⟨hb, ⟨h1, h2⟩, h3⟩, d, ⟨hd, h4⟩, rfl⟩

theorem nodup_triplesOf {g : Geo} {c : Cfg} {hits : List Hit} (hn : hits.Nodup) (t p q r : Nat) : (triplesOf g c hits t p q r).Nodup := by
  unfold triplesOf
  refine List.nodup_flatMap.2 ⟨?_, ?_⟩
  · intro a _
    refine List.nodup_flatMap.2 ⟨?_, ?_⟩
    · intro b _
      refine ((nodup_planeHits hn t r).filter _).map ?_
      intro x y hxy
      simpa using hxy
    · refine ((nodup_planeHits hn t q).filter _).imp ?_
      intro b b' hne l hl hl'
      obtain ⟨d, _, rfl⟩ := List.mem_map.1 hl
      obtain ⟨d', _, he⟩ := List.mem_map.1 hl'
      simp only [List.cons.injEq] at he
      exact hne he.2.1.symm
  · refine (nodup_planeHits hn t p).imp ?_
    intro a a' hne l hl hl'
    obtain ⟨b, _, hb⟩ := List.mem_flatMap.1 hl
    obtain ⟨d, _, rfl⟩ := List.mem_map.1 hb
    obtain ⟨b', _, hb'⟩ := List.mem_flatMap.1 hl'
    obtain ⟨d', _, he⟩ := List.mem_map.1 hb'
    simp only [List.cons.injEq] at he
    exact hne he.1.symm

/-- lists of hits with the same planes, in the same order, all different, are equal when one is a permutation of the other -/
theorem eq_of_perm_planes {l l' : List Hit} (hp : l.Perm l') (hpl : l.map Hit.plane = l'.map Hit.plane) (hd : (l.map Hit.plane).Nodup) : l = l' := by
  apply List.ext_getElem hp.length_eq
  intro i h h'
  have hm : l'[i] ∈ l := hp.mem_iff.2 (List.getElem_mem h')
  refine List.inj_on_of_nodup_map hd (List.getElem_mem h) hm ?_
  have e1 : (l.map Hit.plane)[i]'(by simpa using h) = l[i].plane := by simp
  have e2 : (l'.map Hit.plane)[i]'(by simpa using h') = l'[i].plane := by simp
  rw [← e1, ← e2]
  simp only [hpl]

/-- **C153 (three-view points).** In a TPC with three ideal planes the combinations made into points are triples of usable hits, one of each plane,
compatible; no triple is made twice, in the same or another order; and every compatible triple of usable hits whose wires cross is made. -/
theorem triples_exact (g : Geo) (c : Cfg) (hits : List Hit) (t : Nat) (hT : ThreePlanes g t) (hG : GoodHits g hits t) (hmin : c.minViews ≤ 3)
    (hn : hits.Nodup) :
    (triples g c hits t).Nodup ∧
    (∀ l ∈ triples g c hits t, l.length = 3 ∧ (l.map Hit.plane).Perm [0, 1, 2] ∧ (∀ h ∈ l, Usable c hits t h) ∧ compatible g c l = true) ∧
    (∀ l ∈ triples g c hits t, ∀ l' ∈ triples g c hits t, l.Perm l' → l = l') ∧
    (∀ a b d, Usable c hits t a → Usable c hits t b → Usable c hits t d → compatible g c [a, b, d] = true →
      (∀ x ∈ [a, b, d], ∀ y ∈ [a, b, d], x ≠ y → Crosses g x y) → ∃ l ∈ triples g c hits t, l.Perm [a, b, d]) := by
  obtain ⟨p, q, r, hi, hpr, he⟩ := triples_eq (g := g) (c := c) (hits := hits) (t := t) hT.three hmin
  have hnd : [p, q, r].Nodup := hpr.nodup_iff.2 (by decide)
  have hlt : ∀ x ∈ [p, q, r], x < 3 := by
    intro x hx
    have := hpr.mem_iff.1 hx
    simp at this
    omega
  rw [he]
  refine ⟨nodup_triplesOf hn t p q r, ?_, ?_, ?_⟩
  · intro l hl
    obtain ⟨a, b, d, rfl, ⟨ha, rfl⟩, ⟨hb, rfl⟩, ⟨hd, rfl⟩, _, _, _, h4⟩ := mem_triplesOf.1 hl
    refine ⟨rfl, hpr, ?_, ?_⟩
    · intro h hh
      simp only [List.mem_cons, List.not_mem_nil, or_false] at hh
      rcases hh with rfl | rfl | rfl <;> assumption
    · unfold thirdOk at h4
      simp only [Bool.and_eq_true] at h4
      exact h4.2
  · intro l hl l' hl' hperm
    obtain ⟨a, b, d, rfl, ⟨ha, rfl⟩, ⟨hb, rfl⟩, ⟨hd, rfl⟩, _⟩ := mem_triplesOf.1 hl
    obtain ⟨a', b', d', rfl, ⟨ha', e1⟩, ⟨hb', e2⟩, ⟨hd', e3⟩, _⟩ := mem_triplesOf.1 hl'
    exact eq_of_perm_planes hperm (by simp [e1, e2, e3]) hnd
  · intro a b d ha hb hd hc hX
    have hview : ∀ x ∈ [a, b, d], ∀ y ∈ [a, b, d], x.plane = y.plane → x.view = y.view := by
      have hU : ∀ x ∈ [a, b, d], Usable c hits t x := by
        intro h hh
        simp only [List.mem_cons, List.not_mem_nil, or_false] at hh
        rcases hh with rfl | rfl | rfl <;> assumption
      intro x hx y hy
      exact hG.view x (hU x hx).1 y (hU y hy).1 (hU x hx).2.2 (hU y hy).2.2
    have hdist := planes_of_views (compatible_pairs hc) hview
    have hnodup : [a.plane, b.plane, d.plane].Nodup := by
      have := List.pairwise_map.2 hdist
      exact this
    have hsub : ∀ x ∈ [a.plane, b.plane, d.plane], x ∈ [0, 1, 2] := by
      intro x hx
      simp only [List.mem_cons, List.not_mem_nil, or_false] at hx
      have h1 := hG.plane a ha.1 ha.2.2
      have h2 := hG.plane b hb.1 hb.2.2
      have h3 := hG.plane d hd.1 hd.2.2
      rw [hT.three] at h1 h2 h3
      simp only [List.mem_cons, List.not_mem_nil, or_false]
      omega
    have hperm : [a.plane, b.plane, d.plane].Perm [p, q, r] :=
      ((List.subperm_of_subset hnodup hsub).perm_of_length_le (by simp)).trans hpr.symm
    -- any arrangement with the planes in order is made
    have key : ∀ x y z, [x, y, z].Perm [a, b, d] → x.plane = p → y.plane = q → z.plane = r → ∃ l ∈ triplesOf g c hits t p q r, l.Perm [a, b, d] := by
      intro x y z hxyz hx hy hz
      refine ⟨[x, y, z], ?_, hxyz⟩
      have hmem : ∀ w ∈ [x, y, z], w ∈ [a, b, d] := fun w hw => hxyz.mem_iff.1 hw
      have hU : ∀ w ∈ [x, y, z], Usable c hits t w := by
        intro w hw
        have := hmem w hw
        simp only [List.mem_cons, List.not_mem_nil, or_false] at this
        rcases this with rfl | rfl | rfl <;> assumption
      have ux := hU x (by simp)
      have uy := hU y (by simp)
      have uz := hU z (by simp)
      have hxy : x.plane ≠ y.plane := by rw [hx, hy]; simp at hnd; tauto
      have hxz : x.plane ≠ z.plane := by rw [hx, hz]; simp at hnd; tauto
      have hyz : y.plane ≠ z.plane := by rw [hy, hz]; simp at hnd; tauto
      have px : x.plane < 3 := hlt _ (by simp [hx])
      have py : y.plane < 3 := hlt _ (by simp [hy])
      have pz : z.plane < 3 := hlt _ (by simp [hz])
      have hc' : compatible g c [x, y, z] = true := by
        rw [compatible_perm hxyz (fun u hu v hv => hview u (hmem u hu) v (hmem v hv))]; exact hc
      have h3 := (compatible3 ⟨hxy, hxz, hyz⟩ px py pz).1 hc'
      have ix : Ideal g x.tpc x.plane := by rw [ux.2.2]; exact hT.ideal _ px
      have iy : Ideal g y.tpc y.plane := by rw [uy.2.2]; exact hT.ideal _ py
      have iz : Ideal g z.tpc z.plane := by rw [uz.2.2]; exact hT.ideal _ pz
      have hang : (g.of x).s * (g.of y).c - (g.of y).s * (g.of x).c ≠ 0 := by
        have := hT.angle x.plane px y.plane py hxy
        unfold Geo.of
        rw [ix.sin, ix.cos, iy.sin, iy.cos, ux.2.2, uy.2.2]
        exact this
      have hr : reach g x q y.wire = true := by
        rw [← hy]
        obtain ⟨lam, h0, h1, hx'⟩ := hX x (hmem x (by simp)) y (hmem y (by simp)) (by intro e; exact hxy (by rw [e]))
        exact reach_of_cross (by rw [ux.2.2, uy.2.2]) iy lam h0 h1 hx'
      exact mem_triplesOf.2 ⟨x, y, z, rfl, ⟨ux, hx⟩, ⟨uy, hy⟩, ⟨uz, hz⟩, hr, ((pairOk_iff g c x y).1 h3.1).2.2, compatible2.2 h3.1,
        (thirdOk_iff ⟨hxy, hxz, hyz⟩ px py pz ix iy iz hang).2 hc'⟩
    have hp' : p ∈ [a.plane, b.plane, d.plane] := hperm.mem_iff.2 (by simp)
    have hq' : q ∈ [a.plane, b.plane, d.plane] := hperm.mem_iff.2 (by simp)
    have hr' : r ∈ [a.plane, b.plane, d.plane] := hperm.mem_iff.2 (by simp)
    have hpq : p ≠ q := by simp at hnd; tauto
    have hpr' : p ≠ r := by simp at hnd; tauto
    have hqr : q ≠ r := by simp at hnd; tauto
    have perm3 : ∀ l : List Hit, (∀ x, l.count x = [a, b, d].count x) → l.Perm [a, b, d] := fun l h => List.perm_iff_count.2 h
    simp only [List.mem_cons, List.not_mem_nil, or_false] at hp' hq' hr'
    rcases hp' with h1 | h1 | h1 <;> rcases hq' with h2 | h2 | h2 <;> rcases hr' with h3 | h3 | h3 <;>
      first
        | (exfalso; omega)
        | exact key a b d (List.Perm.refl _) h1.symm h2.symm h3.symm
        | exact key a d b (perm3 _ (fun x => by simp only [List.count_cons, List.count_nil]; omega)) h1.symm h2.symm h3.symm
        | exact key b a d (perm3 _ (fun x => by simp only [List.count_cons, List.count_nil]; omega)) h1.symm h2.symm h3.symm
        | exact key b d a (perm3 _ (fun x => by simp only [List.count_cons, List.count_nil]; omega)) h1.symm h2.symm h3.symm
        | exact key d a b (perm3 _ (fun x => by simp only [List.count_cons, List.count_nil]; omega)) h1.symm h2.symm h3.symm
        | exact key d b a (perm3 _ (fun x => by simp only [List.count_cons, List.count_nil]; omega)) h1.symm h2.symm h3.symm

/-! ## Pairs -/

theorem mem_planePairs {l : List Nat} (hn : l.Nodup) {p q : Nat} : (p, q) ∈ planePairs l → p ∈ l ∧ q ∈ l ∧ p ≠ q := by
  induction l with
  | nil => intro h; cases h
  | cons a l ih =>
    intro h
    obtain ⟨ha, hl⟩ := List.nodup_cons.1 hn
    rcases List.mem_append.1 h with h | h
    · obtain ⟨x, hx, he⟩ := List.mem_map.1 h
      obtain ⟨rfl, rfl⟩ := Prod.mk.inj he
      exact ⟨by simp, by simp [hx], fun e => ha (e ▸ hx)⟩
    · obtain ⟨h1, h2, h3⟩ := ih hl h
      exact ⟨by simp [h1], by simp [h2], h3⟩

theorem planePairs_total {l : List Nat} {p q : Nat} (hp : p ∈ l) (hq : q ∈ l) (hne : p ≠ q) : (p, q) ∈ planePairs l ∨ (q, p) ∈ planePairs l := by
  induction l with
  | nil => cases hp
  | cons a l ih =>
    rcases List.mem_cons.1 hp with rfl | hp
    · left
      exact List.mem_append_left _ (List.mem_map.2 ⟨q, by rcases List.mem_cons.1 hq with rfl | h; exact absurd rfl hne; exact h, rfl⟩)
    · rcases List.mem_cons.1 hq with rfl | hq
      · right
        exact List.mem_append_left _ (List.mem_map.2 ⟨p, by assumption, rfl⟩)
      · rcases ih hp hq with h | h
        · exact Or.inl (List.mem_append_right _ h)
        · exact Or.inr (List.mem_append_right _ h)

theorem planePairs_asymm {l : List Nat} (hn : l.Nodup) {p q : Nat} (h : (p, q) ∈ planePairs l) : (q, p) ∉ planePairs l := by
  induction l with
  | nil => cases h
  | cons a l ih =>
    obtain ⟨ha, hl⟩ := List.nodup_cons.1 hn
    intro h'
    rcases List.mem_append.1 h with h | h <;> rcases List.mem_append.1 h' with h' | h'
    · obtain ⟨x, hx, he⟩ := List.mem_map.1 h
      obtain ⟨y, hy, he'⟩ := List.mem_map.1 h'
      obtain ⟨rfl, rfl⟩ := Prod.mk.inj he
      obtain ⟨e, _⟩ := Prod.mk.inj he'
      exact ha (e ▸ hx)
    · obtain ⟨x, hx, he⟩ := List.mem_map.1 h
      obtain ⟨rfl, rfl⟩ := Prod.mk.inj he
      exact ha (mem_planePairs hl h').2.1
    · obtain ⟨x, hx, he⟩ := List.mem_map.1 h'
      obtain ⟨rfl, rfl⟩ := Prod.mk.inj he
      exact ha (mem_planePairs hl h).2.1
    · exact ih hl h h'

theorem nodup_planePairs {l : List Nat} (hn : l.Nodup) : (planePairs l).Nodup := by
  induction l with
  | nil => exact List.nodup_nil
  | cons a l ih =>
    obtain ⟨ha, hl⟩ := List.nodup_cons.1 hn
    refine List.Nodup.append (hl.map (fun x y h => (Prod.mk.inj h).2)) (ih hl) ?_
    intro x hx hx'
    obtain ⟨y, hy, rfl⟩ := List.mem_map.1 hx
    exact ha (mem_planePairs hl hx').1

theorem mem_pairsOf {g : Geo} {c : Cfg} {hits : List Hit} {t p q : Nat} {l : List Hit} :
    l ∈ pairsOf g c hits t p q ↔ ∃ a b, l = [a, b] ∧ (Usable c hits t a ∧ a.plane = p) ∧ (Usable c hits t b ∧ b.plane = q) ∧
      reach g a q b.wire = true ∧ compatible g c [a, b] = true := by
  unfold pairsOf
  simp only [List.mem_flatMap, List.mem_filter, List.mem_map, mem_planeHits, Bool.and_eq_true]
  constructor
  · rintro ⟨a, ha, b, ⟨hb, h1, h2⟩, rfl⟩
    exact ⟨a, b, rfl, ha, hb, h1, h2⟩
  · rintro ⟨a, b, rfl, ha, hb, h1, h2⟩
    exact ⟨a, ha, b, ⟨hb, h1, h2⟩, rfl⟩

theorem nodup_pairsOf {g : Geo} {c : Cfg} {hits : List Hit} (hn : hits.Nodup) (t p q : Nat) : (pairsOf g c hits t p q).Nodup := by
  unfold pairsOf
  refine List.nodup_flatMap.2 ⟨?_, ?_⟩
  · intro a _
    refine ((nodup_planeHits hn t q).filter _).map ?_
    intro x y hxy
    simpa using hxy
  · refine (nodup_planeHits hn t p).imp ?_
    intro a a' hne l hl hl'
    obtain ⟨b, _, rfl⟩ := List.mem_map.1 hl
    obtain ⟨b', _, he⟩ := List.mem_map.1 hl'
    simp only [List.cons.injEq] at he
    exact hne he.1.symm

theorem pairPlanes_sub {g : Geo} {c : Cfg} {hits : List Hit} {t p q : Nat} (h : (p, q) ∈ pairPlanes g c hits t) :
    (p, q) ∈ planePairs (index g c hits t) := List.mem_of_mem_filter h

/-- **C153 (two-view points).** Where two-view points are made: the combinations are pairs of usable, compatible hits of two planes; no pair is made twice, in
the same or the other order; and every compatible pair of usable hits whose wires cross, in planes of parallel, evenly spaced wires, is made. -/
theorem pairs_exact (g : Geo) (c : Cfg) (hits : List Hit) (t : Nat) (hG : GoodHits g hits t) (h2 : twoView g c hits t = true) (hn : hits.Nodup) :
    (pairs g c hits t).Nodup ∧
    (∀ l ∈ pairs g c hits t, l.length = 2 ∧ (l.map Hit.plane).Nodup ∧ (∀ h ∈ l, Usable c hits t h) ∧ compatible g c l = true) ∧
    (∀ l ∈ pairs g c hits t, ∀ l' ∈ pairs g c hits t, l.Perm l' → l = l') ∧
    (∀ a b, Usable c hits t a → Usable c hits t b → compatible g c [a, b] = true → Ideal g t a.plane → Ideal g t b.plane →
      Crosses g a b → Crosses g b a → ∃ l ∈ pairs g c hits t, l.Perm [a, b]) := by
  have he : pairs g c hits t = (pairPlanes g c hits t).flatMap (fun pq => pairsOf g c hits t pq.1 pq.2) := by
    unfold pairs; rw [if_pos h2]
  have hin := index_nodup g c hits t
  rw [he]
  refine ⟨?_, ?_, ?_, ?_⟩
  · refine List.nodup_flatMap.2 ⟨fun pq _ => nodup_pairsOf hn t pq.1 pq.2, ?_⟩
    refine ((nodup_planePairs hin).filter _).imp ?_
    intro x y hne l hl hl'
    obtain ⟨a, b, rfl, ⟨_, h1⟩, ⟨_, h2⟩, _⟩ := mem_pairsOf.1 hl
    obtain ⟨a', b', e, ⟨_, h1'⟩, ⟨_, h2'⟩, _⟩ := mem_pairsOf.1 hl'
    simp only [List.cons.injEq, and_true] at e
    obtain ⟨rfl, rfl⟩ := e
    exact hne (Prod.ext (h1.symm.trans h1') (h2.symm.trans h2'))
  · intro l hl
    obtain ⟨⟨p, q⟩, hpq, hl⟩ := List.mem_flatMap.1 hl
    obtain ⟨a, b, rfl, ⟨ha, e1⟩, ⟨hb, e2⟩, _, hc⟩ := mem_pairsOf.1 hl
    have := (mem_planePairs hin (pairPlanes_sub hpq)).2.2
    refine ⟨rfl, ?_, ?_, hc⟩
    · dsimp only at e1 e2
      simp [e1, e2, this]
    · intro h hh
      simp only [List.mem_cons, List.not_mem_nil, or_false] at hh
      rcases hh with rfl | rfl <;> assumption
  · intro l hl l' hl' hperm
    obtain ⟨⟨p, q⟩, hpq, hl⟩ := List.mem_flatMap.1 hl
    obtain ⟨a, b, rfl, ⟨ha, e1⟩, ⟨hb, e2⟩, _, hc⟩ := mem_pairsOf.1 hl
    obtain ⟨⟨p', q'⟩, hpq', hl'⟩ := List.mem_flatMap.1 hl'
    obtain ⟨a', b', rfl, ⟨ha', e1'⟩, ⟨hb', e2'⟩, _, hc'⟩ := mem_pairsOf.1 hl'
    dsimp only at e1 e2 e1' e2'
    have hne := (mem_planePairs hin (pairPlanes_sub hpq)).2.2
    have ha' : a' = a ∨ a' = b := by simpa using hperm.mem_iff.2 (show a' ∈ [a', b'] by simp)
    have hb' : b' = a ∨ b' = b := by simpa using hperm.mem_iff.2 (show b' ∈ [a', b'] by simp)
    have hne' := (mem_planePairs hin (pairPlanes_sub hpq')).2.2
    rcases ha' with h | h <;> rcases hb' with h' | h'
    · subst h; subst h'; exact absurd (e1'.symm.trans e2') hne'
    · rw [h, h']
    · subst h; subst h'
      rw [← e1, ← e2] at hpq
      rw [← e1', ← e2'] at hpq'
      exact absurd (pairPlanes_sub hpq') (planePairs_asymm hin (pairPlanes_sub hpq))
    · subst h; subst h'; exact absurd (e1'.symm.trans e2') hne'
  · intro a b ha hb hc ia ib hab hba
    have hne : a.plane ≠ b.plane := by
      intro e
      exact ((pairOk_iff g c a b).1 (compatible2.1 hc)).2.1 (hG.view a ha.1 b hb.1 ha.2.2 hb.2.2 e)
    have hc' : compatible g c [b, a] = true := by
      rw [compatible2, pairOk_symm]; exact compatible2.1 hc
    have hia : a.plane ∈ index g c hits t := (index_perm g c hits t).mem_iff.2 (List.mem_range.2 (hG.plane a ha.1 ha.2.2))
    have hib : b.plane ∈ index g c hits t := (index_perm g c hits t).mem_iff.2 (List.mem_range.2 (hG.plane b hb.1 hb.2.2))
    have hpa : 0 < (planeHits c hits t a.plane).length := List.length_pos_of_mem (mem_planeHits.2 ⟨ha, rfl⟩)
    have hpb : 0 < (planeHits c hits t b.plane).length := List.length_pos_of_mem (mem_planeHits.2 ⟨hb, rfl⟩)
    rcases planePairs_total hia hib hne with h | h
    · obtain ⟨lam, h0, h1, hx⟩ := hab
      exact ⟨[a, b], List.mem_flatMap.2 ⟨(a.plane, b.plane), List.mem_filter.2 ⟨h, by simp [hpa, hpb]⟩, mem_pairsOf.2 ⟨a, b, rfl, ⟨ha, rfl⟩, ⟨hb, rfl⟩,
        reach_of_cross (by rw [ha.2.2, hb.2.2]) (by rw [hb.2.2]; exact ib) lam h0 h1 hx, hc⟩⟩, List.Perm.refl _⟩
    · obtain ⟨lam, h0, h1, hx⟩ := hba
      exact ⟨[b, a], List.mem_flatMap.2 ⟨(b.plane, a.plane), List.mem_filter.2 ⟨h, by simp [hpa, hpb]⟩, mem_pairsOf.2 ⟨b, a, rfl, ⟨hb, rfl⟩, ⟨ha, rfl⟩,
        reach_of_cross (by rw [ha.2.2, hb.2.2]) (by rw [ha.2.2]; exact ia) lam h0 h1 hx, hc'⟩⟩, List.Perm.swap _ _ _⟩

/-- a geometry with three planes: wires along y, along z and at 3-4-5 -/
def exGeo3 (n : Nat) : Geo where
  tpcs := List.range n
  nplane := fun _ => 3
  coll := fun _ p => decide (p = 2)
  wire := fun _ p w => if p = 0 then ⟨-50, w, 50, w, 50⟩ else if p = 1 then ⟨-w, -50, -w, 50, 50⟩
    else ⟨-w * (5 / 4) - 30, -40, -w * (5 / 4) + 30, 40, 50⟩
  pitch := fun _ _ => 1
  off := fun _ _ => 0
  ticksToX := 1

/-- the configuration of the examples -/
def exCfg : Cfg := ⟨5, 1, 3, fun _ => true, false, false, false⟩
/-- three hits that meet at z = 4, y = -2 -/
def exHits : List Hit := [⟨0, 0, 0, 0, 4, 10, 1⟩, ⟨1, 0, 1, 1, 2, 11, 1⟩, ⟨2, 0, 2, 2, 4, 12, 1⟩]

example : triples (exGeo3 1) exCfg exHits 0 = [exHits] := by decide +kernel

/-- the hypotheses of `triples_exact` are met by this geometry -/
theorem exGeo3_planes (n t : Nat) : ThreePlanes (exGeo3 n) t := by
  refine ⟨rfl, ?_, ?_⟩
  · intro p hp
    refine ⟨one_pos, ?_, ?_, ?_⟩ <;> intro w <;> interval_cases p <;> simp only [Wire.s, Wire.c, Wire.u, exGeo3] <;> norm_num <;> ring
  · intro p hp q hq hne
    interval_cases p <;> interval_cases q <;> first | exact absurd rfl hne | (simp only [Wire.s, Wire.c, exGeo3]; norm_num)

example : GoodHits (exGeo3 1) exHits 0 := ⟨by decide +kernel, by decide +kernel⟩

end Verif.SpAlg

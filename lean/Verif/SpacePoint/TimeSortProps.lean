import Verif.SpacePoint.TimeSort
import Mathlib.Tactic.NormNum
import Mathlib.Tactic.Ring
import Mathlib.Algebra.Order.Ring.Abs
/-!
# C143-C145: the theorems
-/
namespace Verif.TimeSort

/-! ## What the output holds -/

/-- the space point of a triple with the two crossings, without its number -/
structure IsPoint (c : Cfg) (u v y : Hit) (a b : ℚ × ℚ) (p : SP) : Prop where
  x : p.x = c.ticksToX * (((u.peak + c.offU) + (v.peak + c.offV) + (y.peak + c.offY)) / 3)
  y : 2 * p.y = a.1 + b.1
  z : 2 * p.z = a.2 + b.2
  errY : 2 * p.errY = |a.1 - b.1|
  errZ : 2 * p.errZ = |a.2 - b.2|

/-- the times of the three hits, each with the offset of its plane, are within the window of the U hit -/
def InTime (c : Cfg) (u v y : Hit) : Prop :=
  |(u.peak + c.offU) - (v.peak + c.offV)| < c.dT ∧ |(u.peak + c.offU) - (y.peak + c.offY)| < c.dT

/-- a run of the second stage from empty collections -/
structure Good (c : Cfg) (ts : List (Hit × Hit × Hit)) (o : Out) : Prop where
  len : o.pts.length = o.hits.length
  num : ∀ k (h : k < o.pts.length), (o.pts[k]).id = k
  src : ∀ k (h : k < o.pts.length) (h' : k < o.hits.length), ∃ u v y a b, (u, v, y) ∈ ts ∧ o.hits[k] = [u, v, y] ∧
    Cross c u v y a b ∧ IsPoint c u v y a b o.pts[k]
  all : ∀ u v y a b, (u, v, y) ∈ ts → Cross c u v y a b → [u, v, y] ∈ o.hits

theorem half_abs (a b : ℚ) : 2 * |a - (a + b) * (1 / 2)| = |a - b| := by
  have h : a - (a + b) * (1 / 2) = (a - b) * (1 / 2) := by ring
  rw [h, abs_mul, abs_of_pos (by norm_num : (0 : ℚ) < 1 / 2)]; ring

theorem addTriple_good {c : Cfg} {ts : List (Hit × Hit × Hit)} {o : Out} (h : Good c ts o) (t : Hit × Hit × Hit) :
    Good c (ts ++ [t]) (addTriple c o t) := by
  obtain ⟨u, v, y⟩ := t
  have keep : (∀ a b, ¬ Cross c u v y a b) → Good c (ts ++ [(u, v, y)]) o := by
    intro hno
    refine ⟨h.len, h.num, ?_, ?_⟩
    · intro k hk hk'
      obtain ⟨u', v', y', a, b, h1, h2⟩ := h.src k hk hk'
      exact ⟨u', v', y', a, b, List.mem_append_left _ h1, h2⟩
    · intro u' v' y' a b hm hc
      rcases List.mem_append.1 hm with hm | hm
      · exact h.all u' v' y' a b hm hc
      · have : (u', v', y') = (u, v, y) := by simpa using hm
        obtain ⟨rfl, rfl, rfl⟩ : u' = u ∧ v' = v ∧ y' = y := by simpa using this
        exact absurd hc (hno a b)
  unfold addTriple
  simp only
  cases ha : c.uv v.wire u.wire with
  | none => exact keep (fun a b hc => by rw [hc.1] at ha; cases ha)
  | some a =>
    cases hb : c.uy y.wire u.wire with
    | none => exact keep (fun a b hc => by rw [hc.2.1] at hb; cases hb)
    | some b =>
      simp only
      split
      next hcut =>
        have hX : Cross c u v y a b := ⟨ha, hb, hcut.1, hcut.2⟩
        refine ⟨by simp [h.len], ?_, ?_, ?_⟩
        · intro k hk
          simp only [List.length_append, List.length_singleton] at hk
          by_cases hk2 : k < o.pts.length
          · rw [List.getElem_append_left hk2]; exact h.num k hk2
          · have : k = o.pts.length := by omega
            subst this
            simp
        · intro k hk hk'
          simp only [List.length_append, List.length_singleton] at hk hk'
          by_cases hk2 : k < o.pts.length
          · have hk3 : k < o.hits.length := by rw [← h.len]; exact hk2
            obtain ⟨u', v', y', a', b', h1, h2, h3, h4⟩ := h.src k hk2 hk3
            refine ⟨u', v', y', a', b', List.mem_append_left _ h1, ?_, h3, ?_⟩
            · simp only; rw [List.getElem_append_left hk3]; exact h2
            · simp only; rw [List.getElem_append_left hk2]; exact h4
          · have hk3 : k = o.pts.length := by omega
            refine ⟨u, v, y, a, b, by simp, ?_, hX, ?_⟩
            · simp only
              rw [List.getElem_append_right (by rw [← h.len]; omega)]
              simp
            · simp only
              rw [List.getElem_append_right (by omega)]
              simp only [List.getElem_singleton]
              exact ⟨rfl, by simp only; ring, by simp only; ring, half_abs _ _, half_abs _ _⟩
        · intro u' v' y' a' b' hm hc
          simp only
          rcases List.mem_append.1 hm with hm | hm
          · exact List.mem_append_left _ (h.all u' v' y' a' b' hm hc)
          · have : (u', v', y') = (u, v, y) := by simpa using hm
            obtain ⟨rfl, rfl, rfl⟩ : u' = u ∧ v' = v ∧ y' = y := by simpa using this
            simp
      next hcut =>
        refine keep (fun a' b' hc => hcut ?_)
        have h1 : a = a' := by have := hc.1; rw [ha] at this; simpa using this
        have h2 : b = b' := by have := hc.2.1; rw [hb] at this; simpa using this
        rw [h1, h2]; exact ⟨hc.2.2.1, hc.2.2.2⟩

theorem foldl_good {c : Cfg} (l ts : List (Hit × Hit × Hit)) {o : Out} (h : Good c ts o) :
    Good c (ts ++ l) (l.foldl (addTriple c) o) := by
  induction l generalizing ts o with
  | nil => simpa using h
  | cons t l ih =>
    have := ih (ts ++ [t]) (addTriple_good h t)
    rw [List.append_assoc] at this
    exact this

/-- the empty collections the producer starts with, TTSpacePointFinder_module.cc:79-81 -/
def Out.none : Out := ⟨[], []⟩

theorem create_eq {c : Cfg} {us vs ys : List Hit} {o o' : Out} (h : create c us vs ys o = some o') :
    o' = (outer c us vs ys).foldl (addTriple c) o := by
  unfold create at h
  split at h
  · exact (Option.some.inj h).symm
  · cases h

theorem create_good {c : Cfg} {us vs ys : List Hit} {o : Out} (h : create c us vs ys Out.none = some o) :
    Good c (outer c us vs ys) o := by
  rw [create_eq h]
  have : Good c [] Out.none := ⟨rfl, by intro k hk; exact absurd hk (by simp [Out.none]),
    by intro k hk; exact absurd hk (by simp [Out.none]), by intro u v y a b hm; cases hm⟩
  simpa using foldl_good (outer c us vs ys) [] this

/-! ## C143 -/

/-- **C143 (space points are made of matching hits).** For every arrangement of the hits the sort may produce: points and hit lists come
in pairs, points are numbered by position, and each point stands at the mean drift time and the mean of the two wire crossings of one
U, one V and one Y hit of the input, whose times are within `TimeDiffMax` and whose crossings are within `YDiffMax` and `ZDiffMax`;
its errors are half the distances of the crossings, so below half the cuts. -/
theorem points_sound (c : Cfg) (hitsU hitsV hitsY us vs ys : List Hit) (hU : SortOf hitsU us) (hV : SortOf hitsV vs)
    (hY : SortOf hitsY ys) (o : Out) (h : create c us vs ys Out.none = some o) :
    o.pts.length = o.hits.length ∧
    ∀ k (hk : k < o.pts.length) (hk' : k < o.hits.length), (o.pts[k]).id = k ∧
      ∃ u ∈ hitsU, ∃ v ∈ hitsV, ∃ y ∈ hitsY, ∃ a b, o.hits[k] = [u, v, y] ∧ InTime c u v y ∧ Cross c u v y a b ∧
        IsPoint c u v y a b o.pts[k] ∧ 2 * (o.pts[k]).errY < c.dY ∧ 2 * (o.pts[k]).errZ < c.dZ := by
  have hg := create_good h
  refine ⟨hg.len, fun k hk hk' => ⟨hg.num k hk, ?_⟩⟩
  obtain ⟨u, v, y, a, b, hm, h1, h2, h3⟩ := hg.src k hk hk'
  obtain ⟨hu, hc, a', b', d, e, hv, hy, _⟩ := (mem_outer hU.2 hV.2 hY.2 u v y).1 hm
  refine ⟨u, hU.1.mem_iff.1 hu, v, hV.1.mem_iff.1 (by rw [hv]; simp), y, hY.1.mem_iff.1 (by rw [hy]; simp), a, b, h1, hc, h2, h3, ?_, ?_⟩
  · rw [h3.errY]; exact h2.2.2.1
  · rw [h3.errZ]; exact h2.2.2.2

theorem stair_nodup {c : Cfg} {tu : ℚ} (vs ys : List Hit) (hV : vs.Nodup) (hY : ys.Nodup) : (stair c tu vs ys).Nodup := by
  have hsub : ∀ (vs ys : List Hit) p, p ∈ stair c tu vs ys → p.1 ∈ vs ∧ p.2 ∈ ys := by
    intro vs ys
    induction vs, ys using stair.induct c tu with
    | case1 v0 vs y0 ys hw ih1 ih2 =>
      intro p hp
      rw [stair, if_pos hw] at hp
      rcases List.mem_cons.1 hp with rfl | hp
      · simp
      · split at hp
        · exact ⟨List.mem_cons_of_mem _ (ih1 p hp).1, (ih1 p hp).2⟩
        · exact ⟨(ih2 p hp).1, List.mem_cons_of_mem _ (ih2 p hp).2⟩
    | case2 v0 vs y0 ys hw => intro p hp; rw [stair, if_neg hw] at hp; cases hp
    | case3 vs ys hn =>
      intro p hp
      rw [stair] at hp
      · cases hp
      · exact hn
  induction vs, ys using stair.induct c tu with
  | case1 v0 vs y0 ys hw ih1 ih2 =>
    rw [stair, if_pos hw]
    refine List.nodup_cons.2 ⟨?_, ?_⟩
    · intro hm
      split at hm
      · exact (List.nodup_cons.1 hV).1 (hsub _ _ _ hm).1
      · exact (List.nodup_cons.1 hY).1 (hsub _ _ _ hm).2
    · split
      · exact ih1 (List.nodup_cons.1 hV).2 hY
      · exact ih2 hV (List.nodup_cons.1 hY).2
  | case2 v0 vs y0 ys hw => rw [stair, if_neg hw]; exact List.nodup_nil
  | case3 vs ys hn =>
    rw [stair]
    · exact List.nodup_nil
    · exact hn

theorem outer_nodup {c : Cfg} {us vs ys : List Hit} (hs : Sorted us) (hU : us.Nodup) (hV : vs.Nodup) (hY : ys.Nodup) :
    (outer c us vs ys).Nodup := by
  rw [outer_eq c us vs ys hs]
  refine List.nodup_flatMap.2 ⟨?_, ?_⟩
  · intro u _
    unfold ofU
    refine (stair_nodup _ _ ?_ ?_).map ?_
    · exact (List.dropWhile_sublist _).nodup hV
    · exact (List.dropWhile_sublist _).nodup hY
    · intro p q hpq
      simp only [Prod.mk.injEq, true_and] at hpq
      exact Prod.ext hpq.1 hpq.2
  · refine hU.imp ?_
    intro u u' hne t ht ht'
    unfold ofU at ht ht'
    obtain ⟨p, _, rfl⟩ := List.mem_map.1 ht
    obtain ⟨q, _, hq⟩ := List.mem_map.1 ht'
    exact hne (Prod.mk.inj hq).1.symm

theorem hits_sublist {c : Cfg} (l : List (Hit × Hit × Hit)) (o : Out) :
    ∃ s : List (Hit × Hit × Hit), s.Sublist l ∧ (l.foldl (addTriple c) o).hits = o.hits ++ s.map (fun t => [t.1, t.2.1, t.2.2]) := by
  induction l generalizing o with
  | nil => exact ⟨[], List.Sublist.slnil, by simp⟩
  | cons t l ih =>
    obtain ⟨s, h1, h2⟩ := ih (addTriple c o t)
    have : (addTriple c o t).hits = o.hits ∨ (addTriple c o t).hits = o.hits ++ [[t.1, t.2.1, t.2.2]] := by
      unfold addTriple
      split
      · split
        · exact Or.inr rfl
        · exact Or.inl rfl
      · exact Or.inl rfl
    rcases this with h | h
    · exact ⟨s, h1.cons _, by rw [List.foldl_cons, h2, h]⟩
    · exact ⟨t :: s, h1.cons_cons _, by rw [List.foldl_cons, h2, h]; simp⟩

/-- **C143 (no point twice).** When no hit is given twice, no two space points have the same three hits. -/
theorem points_nodup (c : Cfg) (hitsU hitsV hitsY us vs ys : List Hit) (hU : SortOf hitsU us) (hV : SortOf hitsV vs)
    (hY : SortOf hitsY ys) (nU : hitsU.Nodup) (nV : hitsV.Nodup) (nY : hitsY.Nodup) (o : Out)
    (h : create c us vs ys Out.none = some o) : o.hits.Nodup := by
  rw [create_eq h]
  obtain ⟨s, h1, h2⟩ := hits_sublist (c := c) (outer c us vs ys) Out.none
  rw [h2]
  simp only [Out.none, List.nil_append]
  refine ((h1.nodup (outer_nodup hU.2 (hU.1.nodup_iff.2 nU) (hV.1.nodup_iff.2 nV) (hY.1.nodup_iff.2 nY))).map ?_)
  intro t t' htt
  simp only [List.cons.injEq, and_true] at htt
  exact Prod.ext htt.1 (Prod.ext htt.2.1 htt.2.2)

/-! ## C144 -/

/-- the point of three given hits is made exactly when the triple is tested and its crossings agree -/
theorem made_iff {c : Cfg} {us vs ys : List Hit} {o : Out} (h : create c us vs ys Out.none = some o) (u v y : Hit) :
    [u, v, y] ∈ o.hits ↔ (u, v, y) ∈ outer c us vs ys ∧ ∃ a b, Cross c u v y a b := by
  have hg := create_good h
  constructor
  · intro hm
    obtain ⟨k, hk, he⟩ := List.getElem_of_mem hm
    obtain ⟨u', v', y', a, b, h1, h2, h3, _⟩ := hg.src k (by rw [hg.len]; exact hk) hk
    rw [he] at h2
    obtain ⟨rfl, rfl, rfl⟩ : u = u' ∧ v = v' ∧ y = y' := by simpa using h2
    exact ⟨h1, a, b, h3⟩
  · rintro ⟨h1, a, b, h2⟩
    exact hg.all u v y a b h1 h2

/-- **C144 (which matching triples are found), partial.** The full claim, that three hits close in time whose crossings agree always make
a point, fails (`triples_complete_refuted`). What holds: when the times of each plane differ and no V or Y hit lies exactly `TimeDiffMax`
before the U hit, a triple makes a point exactly when it is close in time, its crossings agree, and no other V hit falls between the
Y hit and the V hit, nor another Y hit between the V hit and the Y hit: in other words the pair is next to each other in time. -/
theorem triples_found_partial (c : Cfg) (hitsU hitsV hitsY us vs ys : List Hit) (hU : SortOf hitsU us) (hV : SortOf hitsV vs)
    (hY : SortOf hitsY ys) (o : Out) (h : create c us vs ys Out.none = some o)
    (dV : ∀ a ∈ hitsV, ∀ b ∈ hitsV, a.peak = b.peak → a = b) (dY : ∀ a ∈ hitsY, ∀ b ∈ hitsY, a.peak = b.peak → a = b)
    (u v y : Hit) (hu : u ∈ hitsU) (hv : v ∈ hitsV) (hy : y ∈ hitsY)
    (eV : ∀ v' ∈ hitsV, c.tU u - c.tV v' ≠ c.dT) (eY : ∀ y' ∈ hitsY, c.tU u - c.tY y' ≠ c.dT) :
    [u, v, y] ∈ o.hits ↔ Close c u v y ∧ (∃ a b, Cross c u v y a b) ∧
      (∀ v' ∈ hitsV, ¬ (c.tY y < c.tV v' ∧ c.tV v' < c.tV v)) ∧ (∀ y' ∈ hitsY, ¬ (c.tV v ≤ c.tY y' ∧ c.tY y' < c.tY y)) := by
  rw [made_iff h, mem_outer hU.2 hV.2 hY.2]
  have before : ∀ (hits l a b : List Hit) (x : Hit), SortOf hits l → (∀ p ∈ hits, ∀ q ∈ hits, p.peak = q.peak → p = q) →
      l = a ++ x :: b → ∀ z ∈ hits, z.peak < x.peak → z ∈ a := by
    intro hits l a b x hs _ hl z hz hlt
    have hz' := hs.1.mem_iff.2 hz
    have hsort := hs.2
    rw [hl] at hz' hsort
    rcases List.mem_append.1 hz' with hz' | hz'
    · exact hz'
    · rcases List.mem_cons.1 hz' with rfl | hz'
      · exact absurd hlt (lt_irrefl _)
      · have := List.rel_of_pairwise_cons (sorted_sub hsort) hz'
        exact absurd hlt (not_lt.2 this)
  constructor
  · rintro ⟨⟨_, hc, a, b, d, e, h1, h2, h3, h4⟩, hX⟩
    refine ⟨hc, hX, ?_, ?_⟩
    · rintro v' hv' ⟨hlt1, hlt2⟩
      have hm := before hitsV vs a b v hV dV h1 v' hv' (by unfold Cfg.tV at hlt2; linarith)
      have hw : c.tU u - c.tV v' ≤ c.dT := by
        have := (abs_lt.1 hc.2).2; linarith
      exact absurd (h3 v' hm hw).2 (not_le.2 hlt1)
    · rintro y' hy' ⟨hlt1, hlt2⟩
      have hm := before hitsY ys d e y hY dY h2 y' hy' (by unfold Cfg.tY at hlt2; linarith)
      have hw : c.tU u - c.tY y' ≤ c.dT := by
        have := (abs_lt.1 hc.1).2; linarith
      exact absurd (h4 y' hm hw).2 (not_lt.2 hlt1)
  · rintro ⟨hc, hX, h3, h4⟩
    refine ⟨⟨hU.1.mem_iff.2 hu, hc, ?_⟩, hX⟩
    -- take the first occurrences: with distinct times the elements before are the strictly earlier ones, or equal to the hit itself
    obtain ⟨a, b, h1, hna⟩ := List.eq_append_cons_of_mem (hV.1.mem_iff.2 hv)
    obtain ⟨d, e, h2, hnd⟩ := List.eq_append_cons_of_mem (hY.1.mem_iff.2 hy)
    have hsV := hV.2; have hsY := hY.2
    rw [h1] at hsV; rw [h2] at hsY
    refine ⟨a, b, d, e, h1, h2, ?_, ?_⟩
    · intro v' hv' hle
      have hmem : v' ∈ hitsV := hV.1.mem_iff.1 (by rw [h1]; simp [hv'])
      refine ⟨lt_of_le_of_ne hle (eV v' hmem), ?_⟩
      have hlt : v'.peak < v.peak := by
        refine lt_of_le_of_ne ((List.pairwise_append.1 hsV).2.2 v' hv' v (by simp)) ?_
        intro heq; exact hna (by rw [← dV v' hmem v hv heq]; exact hv')
      by_contra hlt'
      exact h3 v' hmem ⟨not_le.1 hlt', by unfold Cfg.tV; linarith⟩
    · intro y' hy' hle
      have hmem : y' ∈ hitsY := hY.1.mem_iff.1 (by rw [h2]; simp [hy'])
      refine ⟨lt_of_le_of_ne hle (eY y' hmem), ?_⟩
      have hlt : y'.peak < y.peak := by
        refine lt_of_le_of_ne ((List.pairwise_append.1 hsY).2.2 y' hy' y (by simp)) ?_
        intro heq; exact hnd (by rw [← dY y' hmem y hy heq]; exact hy')
      by_contra hlt'
      exact h4 y' hmem ⟨not_lt.1 hlt', by unfold Cfg.tY; linarith⟩

/-- **C144 (isolated triples), partial.** Without any assumption on equal times: when the V hit and the Y hit are the only ones within
`TimeDiffMax` of the U hit, the matching triple always makes a point, wherever the other hits are and whatever order the hits came in. -/
theorem triples_isolated_partial (c : Cfg) (hitsU hitsV hitsY us vs ys : List Hit) (hU : SortOf hitsU us) (hV : SortOf hitsV vs)
    (hY : SortOf hitsY ys) (o : Out) (h : create c us vs ys Out.none = some o) (u v y : Hit) (hu : u ∈ hitsU) (hv : v ∈ hitsV)
    (hy : y ∈ hitsY) (hc : InTime c u v y) (hX : ∃ a b, Cross c u v y a b)
    (oV : ∀ v' ∈ hitsV, |c.tU u - c.tV v'| ≤ c.dT → v' = v) (oY : ∀ y' ∈ hitsY, |c.tU u - c.tY y'| ≤ c.dT → y' = y) :
    [u, v, y] ∈ o.hits := by
  rw [made_iff h, mem_outer hU.2 hV.2 hY.2]
  obtain ⟨a, b, h1, hna⟩ := List.eq_append_cons_of_mem (hV.1.mem_iff.2 hv)
  obtain ⟨d, e, h2, hnd⟩ := List.eq_append_cons_of_mem (hY.1.mem_iff.2 hy)
  have hsV := hV.2; have hsY := hY.2
  rw [h1] at hsV; rw [h2] at hsY
  have h3 := abs_lt.1 hc.1
  have h4 := abs_lt.1 hc.2
  refine ⟨⟨hU.1.mem_iff.2 hu, hc, a, b, d, e, h1, h2, ?_, ?_⟩, hX⟩
  · intro v' hv' hle
    have hp := (List.pairwise_append.1 hsV).2.2 v' hv' v (by simp)
    have := oV v' (hV.1.mem_iff.1 (by rw [h1]; simp [hv'])) (abs_le.2 ⟨by unfold Cfg.tU Cfg.tV; linarith [h3.1], hle⟩)
    exact absurd (this ▸ hv') hna
  · intro y' hy' hle
    have hp := (List.pairwise_append.1 hsY).2.2 y' hy' y (by simp)
    have := oY y' (hY.1.mem_iff.1 (by rw [h2]; simp [hy'])) (abs_le.2 ⟨by unfold Cfg.tU Cfg.tY; linarith [h4.1], hle⟩)
    exact absurd (this ▸ hy') hnd

/-- the configuration of the examples: wire `w` of V and Y cross every U wire at height `w` -/
def exCfg : Cfg := ⟨10, 1, 1, 0, 0, 0, 2, fun v _ => some (v, 0), fun y _ => some (y, 0)⟩

/-- three hits of one wire number make a point -/
example : create exCfg [⟨0, 100, 3⟩] [⟨1, 50, 3⟩, ⟨2, 101, 7⟩] [⟨3, 99, 7⟩, ⟨4, 150, 7⟩] Out.none
    = some ⟨[⟨0, 200, 7, 0, 0, 0⟩], [[⟨0, 100, 3⟩, ⟨2, 101, 7⟩, ⟨3, 99, 7⟩]]⟩ := by
  decide +kernel

/-- **C144, the full claim is false.** Two V hits and two Y hits near a U hit: the first V hit and the second Y hit, which cross at the same
point and are close in time, are never tried together, and no point is made. -/
theorem triples_complete_refuted : ∃ (c : Cfg) (us vs ys : List Hit) (o : Out), Sorted us ∧ Sorted vs ∧ Sorted ys ∧ us.Nodup ∧ vs.Nodup ∧
    ys.Nodup ∧ create c us vs ys Out.none = some o ∧ o.hits = [] ∧
    ∃ u ∈ us, ∃ v ∈ vs, ∃ y ∈ ys, Close c u v y ∧ ∃ a b, Cross c u v y a b := by
  refine ⟨exCfg, [⟨0, 100, 0⟩], [⟨1, 101, 5⟩, ⟨2, 102, 7⟩], [⟨3, 103, 9⟩, ⟨4, 104, 5⟩], Out.none, by simp [Sorted], ?_, ?_,
    by decide, by decide, by decide, by decide +kernel, rfl, ⟨0, 100, 0⟩, by simp, ⟨1, 101, 5⟩, by simp, ⟨4, 104, 5⟩, by simp, ?_, (5, 0), (5, 0), ?_⟩
  · simp [Sorted]; norm_num
  · simp [Sorted]; norm_num
  · unfold Close; decide +kernel
  · unfold Cross; exact ⟨by decide +kernel, by decide +kernel, by decide +kernel, by decide +kernel⟩

/-- **C144, the edge of the window.** A single V hit exactly `TimeDiffMax` before the U hit hides every later V hit of that U hit. -/
theorem triples_edge_refuted : ∃ (c : Cfg) (us vs ys : List Hit) (o : Out), Sorted us ∧ Sorted vs ∧ Sorted ys ∧
    create c us vs ys Out.none = some o ∧ o.hits = [] ∧ ∃ u ∈ us, ∃ v ∈ vs, ∃ y ∈ ys, Close c u v y ∧ (∃ a b, Cross c u v y a b) ∧
      ys = [y] ∧ us = [u] ∧ ∀ v' ∈ vs, v' ≠ v → ¬ |c.tU u - c.tV v'| < c.dT := by
  refine ⟨exCfg, [⟨0, 100, 0⟩], [⟨1, 90, 5⟩, ⟨2, 100, 7⟩], [⟨3, 100, 7⟩], Out.none, by simp [Sorted], ?_, by simp [Sorted],
    by decide +kernel, rfl, ⟨0, 100, 0⟩, by simp, ⟨2, 100, 7⟩, by simp, ⟨3, 100, 7⟩, by simp, ?_, ⟨(7, 0), (7, 0), ?_⟩, rfl, rfl, ?_⟩
  · simp [Sorted]; norm_num
  · unfold Close; decide +kernel
  · unfold Cross; exact ⟨by decide +kernel, by decide +kernel, by decide +kernel, by decide +kernel⟩
  · decide +kernel

/-! ## C145 -/

/-- **C145 (independence of the order of the hits), partial.** Hits with different times in each plane give the same collections, point by
point, whatever order they are given in and however the sort arranges them. With equal times it fails (`order_refuted`). -/
theorem order_independent_partial (c : Cfg) (hitsU hitsV hitsY hitsU' hitsV' hitsY' us vs ys us' vs' ys' : List Hit)
    (pU : hitsU'.Perm hitsU) (pV : hitsV'.Perm hitsV) (pY : hitsY'.Perm hitsY)
    (dU : ∀ a ∈ hitsU, ∀ b ∈ hitsU, a.peak = b.peak → a = b) (dV : ∀ a ∈ hitsV, ∀ b ∈ hitsV, a.peak = b.peak → a = b)
    (dY : ∀ a ∈ hitsY, ∀ b ∈ hitsY, a.peak = b.peak → a = b)
    (hU : SortOf hitsU us) (hV : SortOf hitsV vs) (hY : SortOf hitsY ys)
    (hU' : SortOf hitsU' us') (hV' : SortOf hitsV' vs') (hY' : SortOf hitsY' ys') :
    create c us vs ys Out.none = create c us' vs' ys' Out.none := by
  have key : ∀ (hits hits' l l' : List Hit), hits'.Perm hits → (∀ a ∈ hits, ∀ b ∈ hits, a.peak = b.peak → a = b) →
      SortOf hits l → SortOf hits' l' → l = l' := by
    intro hits hits' l l' p d h h'
    have hp : l.Perm l' := h.1.trans (p.symm.trans h'.1.symm)
    have h1 := h.2
    have h2 := h'.2
    unfold Sorted at h1 h2
    refine hp.eq_of_pairwise ?_ h1 h2
    intro a b ha hb hab hba
    exact d a (h.1.mem_iff.1 ha) b (p.mem_iff.1 (h'.1.mem_iff.1 hb)) (le_antisymm hab hba)
  rw [key _ _ _ _ pU dU hU hU', key _ _ _ _ pV dV hV hV', key _ _ _ _ pY dY hY hY']

/-- **C145, with equal times the result depends on the order.** Two V hits at one time: which of them meets the later Y hit is decided by the
arrangement the sort happens to choose. -/
theorem order_refuted : ∃ (c : Cfg) (us vs vs' ys : List Hit) (o o' : Out), vs.Perm vs' ∧ Sorted us ∧ Sorted vs ∧ Sorted vs' ∧ Sorted ys ∧
    create c us vs ys Out.none = some o ∧ create c us vs' ys Out.none = some o' ∧ o.hits = [] ∧ o'.hits.length = 1 := by
  refine ⟨exCfg, [⟨0, 100, 0⟩], [⟨2, 101, 7⟩, ⟨1, 101, 5⟩], [⟨1, 101, 5⟩, ⟨2, 101, 7⟩], [⟨3, 100, 5⟩, ⟨5, 102, 9⟩],
    ⟨[], []⟩, ⟨[⟨0, 602 / 3, 5, 0, 0, 0⟩], [[⟨0, 100, 0⟩, ⟨1, 101, 5⟩, ⟨3, 100, 5⟩]]⟩, List.Perm.swap _ _ _, by simp [Sorted], ?_, ?_, ?_,
    by decide +kernel, by decide +kernel, rfl, rfl⟩
  · simp [Sorted]
  · simp [Sorted]
  · simp [Sorted]; norm_num

/-- **C145, an event without hits in one of the planes is undefined.** The first hit of every plane is read before anything is checked. -/
theorem empty_undefined (c : Cfg) (us vs ys : List Hit) (o : Out) :
    create c us vs ys o = none ↔ us = [] ∨ vs = [] ∨ ys = [] := by
  cases us <;> cases vs <;> cases ys <;> simp [create]

end Verif.TimeSort

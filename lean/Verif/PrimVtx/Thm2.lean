import Verif.PrimVtx.Thm
import Mathlib.Data.List.Nodup

/-! # The vertices of tracks that come close: the collection -/

namespace Verif.PrimVtx

/-- Specification: the two tracks are close, seen from the first. -/
def Close (w : ℚ) (tr : List Track) (i j : Nat) : Prop := (near w (tr.getD i Track.none) (tr.getD j Track.none)).isSome = true

/-- A member of a vertex with its point comes from a pair that was looked at and found close, both in the vertex. -/
def FromPair (w : ℚ) (tr : List Track) (done : List (Nat × Nat)) (v : List (Nat × V3)) (m : Nat × V3) : Prop :=
  ∃ p ∈ done, ∃ t1 t2, near w (tr.getD p.1 Track.none) (tr.getD p.2 Track.none) = some (t1, t2) ∧ p.1 ∈ trs v ∧ p.2 ∈ trs v ∧ (m = (p.1, t1) ∨ m = (p.2, t2))

theorem FromPair.mono {w : ℚ} {tr : List Track} {done done' : List (Nat × Nat)} {v v' : List (Nat × V3)} {m : Nat × V3} (h : FromPair w tr done v m) (h1 : ∀ p ∈ done, p ∈ done')
    (h2 : ∀ a ∈ trs v, a ∈ trs v') : FromPair w tr done' v' m := by
  obtain ⟨p, hp, t1, t2, hn, ha, hb, hm⟩ := h
  exact ⟨p, h1 p hp, t1, t2, hn, h2 _ ha, h2 _ hb, hm⟩

/-- What holds while the pairs are looked at. -/
structure Inv (w : ℚ) (tr : List Track) (done : List (Nat × Nat)) (c : C) : Prop where
  nodup : ∀ v ∈ c, (trs v).Nodup
  two : ∀ v ∈ c, 2 ≤ v.length
  close : ∀ p ∈ done, Close w tr p.1 p.2 → ∃ v ∈ c, p.1 ∈ trs v ∧ p.2 ∈ trs v
  from_ : ∀ v ∈ c, ∀ m ∈ v, FromPair w tr done v m

theorem trs_append (v : List (Nat × V3)) (m : Nat × V3) : trs (v ++ [m]) = trs v ++ [m.1] := by simp [trs]

/-- A vertex with two tracks, added if they are not there. -/
def ext (v : List (Nat × V3)) (a b : Nat) (t1 t2 : V3) : List (Nat × V3) := v ++ (if a ∈ trs v then [] else [(a, t1)]) ++ (if b ∈ trs v then [] else [(b, t2)])

theorem mem_ext (v : List (Nat × V3)) (a b : Nat) (t1 t2 : V3) (x : Nat) : x ∈ trs (ext v a b t1 t2) ↔ x ∈ trs v ∨ x = a ∨ x = b := by
  unfold ext
  have e : ∀ l1 l2 : List (Nat × V3), trs (l1 ++ l2) = trs l1 ++ trs l2 := by intro l1 l2; simp [trs]
  rw [e, e]
  by_cases ha : a ∈ trs v
  · by_cases hb : b ∈ trs v
    · simp only [ha, hb, if_true]
      simp only [trs, List.map_nil, List.append_nil]
      constructor
      · exact Or.inl
      · rintro (h | rfl | rfl)
        · exact h
        · exact ha
        · exact hb
    · simp only [ha, hb, if_true, if_false, List.mem_append]
      constructor
      · rintro ((h | h) | h)
        · exact Or.inl h
        · simp [trs] at h
        · right; right; simpa [trs] using h
      · rintro (h | rfl | rfl)
        · exact Or.inl (Or.inl h)
        · exact Or.inl (Or.inl ha)
        · right; simp [trs]
  · by_cases hb : b ∈ trs v
    · simp only [ha, hb, if_true, if_false, List.mem_append]
      constructor
      · rintro ((h | h) | h)
        · exact Or.inl h
        · right; left; simpa [trs] using h
        · simp [trs] at h
      · rintro (h | rfl | rfl)
        · exact Or.inl (Or.inl h)
        · left; right; simp [trs]
        · exact Or.inl (Or.inl hb)
    · simp only [ha, hb, if_false, List.mem_append]
      constructor
      · rintro ((h | h) | h)
        · exact Or.inl h
        · right; left; simpa [trs] using h
        · right; right; simpa [trs] using h
      · rintro (h | rfl | rfl)
        · exact Or.inl (Or.inl h)
        · left; right; simp [trs]
        · right; simp [trs]

theorem nodup_ext (v : List (Nat × V3)) (a b : Nat) (t1 t2 : V3) (hab : a ≠ b) (h : (trs v).Nodup) : (trs (ext v a b t1 t2)).Nodup := by
  have key : ∀ (v : List (Nat × V3)) (m : Nat × V3), (trs v).Nodup → m.1 ∉ trs v → (trs (v ++ [m])).Nodup := by
    intro v m h hm
    rw [trs_append]
    exact List.nodup_append.mpr ⟨h, by simp, by
      intro x hx y hy e
      rw [List.mem_singleton] at hy
      rw [e, hy] at hx
      exact hm hx⟩
  unfold ext
  by_cases ha : a ∈ trs v
  · by_cases hb : b ∈ trs v
    · simp only [ha, hb, if_true, List.append_nil]; exact h
    · simp only [ha, hb, if_true, if_false, List.append_nil]; exact key v (b, t2) h hb
  · by_cases hb : b ∈ trs v
    · simp only [ha, hb, if_true, if_false, List.append_nil]; exact key v (a, t1) h ha
    · simp only [ha, hb, if_false]
      refine key (v ++ [(a, t1)]) (b, t2) (key v (a, t1) h ha) ?_
      rw [trs_append]
      simp [hb, hab.symm]

/-- The vertex at an index after the two additions. -/
theorem cadd2_get (c : C) (k a b : Nat) (t1 t2 : V3) (hab : a ≠ b) (i : Nat) (hi : i < c.length) :
    ∃ h : i < (cadd (cadd c k (a, t1)) k (b, t2)).length, (cadd (cadd c k (a, t1)) k (b, t2))[i] =
      if i = k then ext c[i] a b t1 t2 else c[i] := by
  have h1 : i < (cadd c k (a, t1)).length := by rw [cadd_length]; exact hi
  have h2 : i < (cadd (cadd c k (a, t1)) k (b, t2)).length := by rw [cadd_length]; exact h1
  refine ⟨h2, ?_⟩
  rw [cadd_get _ _ _ _ h2 h1, cadd_get _ _ _ _ h1 hi]
  by_cases hik : i = k
  · by_cases ha : a ∈ trs c[i] <;> by_cases hb : b ∈ trs c[i] <;> simp [ext, hik, ha, hb, trs_append, hab.symm] <;> subst hik <;> simp [ext, ha, hb, trs_append, hab.symm]
  · simp [hik]

/-- One pair keeps what holds. -/
theorem cstep_inv (w : ℚ) (tr : List Track) (done : List (Nat × Nat)) (c : C) (p : Nat × Nat) (hp : p.1 < p.2) (h : Inv w tr done c) : Inv w tr (done ++ [p]) (cstep w tr c p) := by
  have hmono : ∀ q ∈ done, q ∈ done ++ [p] := fun q hq => List.mem_append_left _ hq
  have hab : p.1 ≠ p.2 := by omega
  unfold cstep
  cases hn : near w (tr.getD p.1 Track.none) (tr.getD p.2 Track.none) with
  | none =>
    refine ⟨h.nodup, h.two, fun q hq hc => ?_, fun v hv m hm => (h.from_ v hv m hm).mono hmono (fun _ h => h)⟩
    rcases List.mem_append.mp hq with hq | hq
    · exact h.close q hq hc
    · obtain rfl := List.mem_singleton.mp hq
      unfold Close at hc
      rw [hn] at hc
      simp at hc
  | some q =>
    obtain ⟨t1, t2⟩ := q
    dsimp only
    by_cases hnew : (∀ v ∈ c, p.1 ∉ trs v) ∧ ∀ v ∈ c, p.2 ∉ trs v
    · rw [if_pos hnew]
      refine ⟨fun v hv => ?_, fun v hv => ?_, fun q hq hc => ?_, fun v hv m hm => ?_⟩
      · rcases List.mem_append.mp hv with hv | hv
        · exact h.nodup v hv
        · obtain rfl := List.mem_singleton.mp hv
          simp [trs, hab]
      · rcases List.mem_append.mp hv with hv | hv
        · exact h.two v hv
        · obtain rfl := List.mem_singleton.mp hv
          simp
      · rcases List.mem_append.mp hq with hq | hq
        · obtain ⟨v, hv, h1⟩ := h.close q hq hc
          exact ⟨v, List.mem_append_left _ hv, h1⟩
        · obtain rfl := List.mem_singleton.mp hq
          exact ⟨_, List.mem_append_right _ (List.mem_singleton.mpr rfl), by simp [trs], by simp [trs]⟩
      · rcases List.mem_append.mp hv with hv | hv
        · exact (h.from_ v hv m hm).mono hmono (fun _ h => h)
        · obtain rfl := List.mem_singleton.mp hv
          refine ⟨p, by simp, t1, t2, hn, by simp [trs], by simp [trs], ?_⟩
          simpa using hm
    · rw [if_neg hnew]
      cases hk : indexIn p.1 p.2 (toSt c).ids with
      | none =>
        exfalso
        have := indexIn_none _ _ c hk
        apply hnew
        exact ⟨fun v hv ha => this v hv (Or.inl ha), fun v hv ha => this v hv (Or.inr ha)⟩
      | some k =>
        dsimp only
        obtain ⟨hkl, hkm⟩ := indexIn_some _ _ c k hk
        have hlen : (cadd (cadd c k (p.1, t1)) k (p.2, t2)).length = c.length := by rw [cadd_length, cadd_length]
        have all : ∀ v ∈ cadd (cadd c k (p.1, t1)) k (p.2, t2), ∃ i, ∃ hi : i < c.length, v =
            if i = k then ext c[i] p.1 p.2 t1 t2 else c[i] := by
          intro v hv
          obtain ⟨i, hi, rfl⟩ := List.getElem_of_mem hv
          have hi' : i < c.length := by rw [hlen] at hi; exact hi
          exact ⟨i, hi', (cadd2_get c k p.1 p.2 t1 t2 hab i hi').2⟩
        have sub : ∀ i, (hi : i < c.length) → ∃ v ∈ cadd (cadd c k (p.1, t1)) k (p.2, t2), (∀ a ∈ trs c[i], a ∈ trs v) ∧ (i = k → p.1 ∈ trs v ∧ p.2 ∈ trs v) := by
          intro i hi
          obtain ⟨h1, h2⟩ := cadd2_get c k p.1 p.2 t1 t2 hab i hi
          refine ⟨_, List.getElem_mem h1, ?_⟩
          rw [h2]
          by_cases hik : i = k
          · rw [if_pos hik]
            exact ⟨fun a ha => (mem_ext _ _ _ _ _ _).mpr (Or.inl ha), fun _ => ⟨(mem_ext _ _ _ _ _ _).mpr (Or.inr (Or.inl rfl)), (mem_ext _ _ _ _ _ _).mpr (Or.inr (Or.inr rfl))⟩⟩
          · simp [hik]
        refine ⟨fun v hv => ?_, fun v hv => ?_, fun q hq hc => ?_, fun v hv m hm => ?_⟩
        · obtain ⟨i, hi, rfl⟩ := all v hv
          have hnd := h.nodup _ (List.getElem_mem hi)
          split
          · exact nodup_ext _ _ _ _ _ hab hnd
          · exact hnd
        · obtain ⟨i, hi, rfl⟩ := all v hv
          have := h.two _ (List.getElem_mem hi)
          split
          · simp only [ext, List.length_append]; omega
          · exact this
        · rcases List.mem_append.mp hq with hq | hq
          · obtain ⟨v, hv, h1, h2⟩ := h.close q hq hc
            obtain ⟨i, hi, rfl⟩ := List.getElem_of_mem hv
            obtain ⟨v, hv, h3, _⟩ := sub i hi
            exact ⟨v, hv, h3 _ h1, h3 _ h2⟩
          · obtain rfl := List.mem_singleton.mp hq
            obtain ⟨v, hv, _, h3⟩ := sub k hkl
            exact ⟨v, hv, h3 rfl⟩
        · obtain ⟨i, hi, rfl⟩ := all v hv
          split at hm
          · next hik =>
            rw [if_pos hik]
            have hs : ∀ a ∈ trs c[i], a ∈ trs (ext c[i] p.1 p.2 t1 t2) := fun a ha => (mem_ext _ _ _ _ _ _).mpr (Or.inl ha)
            have h1 : p.1 ∈ trs (ext c[i] p.1 p.2 t1 t2) := (mem_ext _ _ _ _ _ _).mpr (Or.inr (Or.inl rfl))
            have h2 : p.2 ∈ trs (ext c[i] p.1 p.2 t1 t2) := (mem_ext _ _ _ _ _ _).mpr (Or.inr (Or.inr rfl))
            rcases List.mem_append.mp hm with hm | hm
            · rcases List.mem_append.mp hm with hm | hm
              · exact (h.from_ _ (List.getElem_mem hi) m hm).mono hmono hs
              · split at hm
                · exact absurd hm (by simp)
                · obtain rfl := List.mem_singleton.mp hm
                  exact ⟨p, by simp, t1, t2, hn, h1, h2, Or.inl rfl⟩
            · split at hm
              · exact absurd hm (by simp)
              · obtain rfl := List.mem_singleton.mp hm
                exact ⟨p, by simp, t1, t2, hn, h1, h2, Or.inr rfl⟩
          · next hik =>
            rw [if_neg hik]
            exact (h.from_ _ (List.getElem_mem hi) m hm).mono hmono (fun _ h => h)

theorem mem_pairs (n : Nat) (p : Nat × Nat) : p ∈ pairs n ↔ p.1 < p.2 ∧ p.2 < n := by
  unfold pairs
  simp only [List.mem_flatMap, List.mem_range, List.mem_map, List.mem_range'_1]
  constructor
  · rintro ⟨i, hi, j, hj, rfl⟩; dsimp only; omega
  · rintro ⟨h1, h2⟩; exact ⟨p.1, by omega, p.2, by omega, rfl⟩

/-- Induction over the pairs looked at. -/
theorem fold_pairs (w : ℚ) (tr : List Track) (P : List (Nat × Nat) → C → Prop) (l : List (Nat × Nat)) : ∀ (done : List (Nat × Nat)) (c : C),
    (∀ done' p c, (∃ rest, done ++ l = done' ++ p :: rest) → P done' c → P (done' ++ [p]) (cstep w tr c p)) → P done c →
    ∃ c', l.foldl (step w tr) (toSt c) = toSt c' ∧ P (done ++ l) c' := by
  induction l with
  | nil => intro done c _ h; exact ⟨c, rfl, by simpa using h⟩
  | cons p l ih =>
    intro done c hs h
    rw [List.foldl_cons, step_toSt]
    obtain ⟨c', h1, h2⟩ := ih (done ++ [p]) (cstep w tr c p) (fun d q c hr hp => hs d q c (by simpa using hr) hp) (hs done p c ⟨l, rfl⟩ h)
    exact ⟨c', h1, by simpa using h2⟩

/-- The vertices of close pairs. -/
theorem pairs_inv (w : ℚ) (tr : List Track) : ∃ c, (pairs tr.length).foldl (step w tr) ⟨[], []⟩ = toSt c ∧ Inv w tr (pairs tr.length) c := by
  obtain ⟨c, h1, h2⟩ := fold_pairs w tr (Inv w tr) (pairs tr.length) [] [] (fun done p c hr h => by
      obtain ⟨rest, hr⟩ := hr
      have : p ∈ pairs tr.length := by rw [List.nil_append] at hr; rw [hr]; simp
      exact cstep_inv w tr done c p ((mem_pairs _ _).mp this).1 h) ⟨by simp, by simp, by simp, by simp⟩
  exact ⟨c, h1, h2⟩

/-- Tracks alone. -/
theorem singles (tr : List Track) (l : List Nat) (hl : l.Nodup) : ∀ c : C, l.foldl (single tr) (toSt c) =
    toSt (c ++ (l.filter fun i => decide (∀ v ∈ c, i ∉ trs v)).map fun i => [(i, (tr.getD i Track.none).start)]) := by
  induction l with
  | nil => intro c; simp
  | cons a l ih =>
    intro c
    have hnd := List.nodup_cons.mp hl
    rw [List.foldl_cons]
    rw [show single tr (toSt c) a = if isIn a (toSt c).ids then toSt c else ⟨(toSt c).ids ++ [[a]], (toSt c).pts ++ [[(tr.getD a Track.none).start]]⟩ from rfl]
    by_cases h : isIn a (toSt c).ids = true
    · rw [if_pos h, List.filter_cons_of_neg]
      · exact ih hnd.2 c
      · obtain ⟨v, hv, ha⟩ := (isIn_iff a c).mp h
        simp only [decide_eq_true_eq]
        exact fun hh => hh v hv ha
    · rw [if_neg h, List.filter_cons_of_pos]
      · have : (⟨(toSt c).ids ++ [[a]], (toSt c).pts ++ [[(tr.getD a Track.none).start]]⟩ : St) = toSt (c ++ [[(a, (tr.getD a Track.none).start)]]) := by simp [toSt]
        rw [this, ih hnd.2, List.map_cons]
        congr 1
        rw [List.append_assoc]
        congr 1
        rw [List.singleton_append]
        congr 2
        apply List.filter_congr
        intro i hi
        have : i ≠ a := fun e => hnd.1 (e ▸ hi)
        rw [decide_eq_decide]
        constructor
        · intro hh v hv; exact hh v (List.mem_append_left _ hv)
        · intro hh v hv
          rcases List.mem_append.mp hv with hv | hv
          · exact hh v hv
          · obtain rfl := List.mem_singleton.mp hv
            simpa [trs] using this
      · rw [isIn_iff] at h
        simp only [decide_eq_true_eq]
        exact fun v hv ha => h ⟨v, hv, ha⟩

theorem collect_eq (w : ℚ) (tr : List Track) : ∃ c, Inv w tr (pairs tr.length) c ∧ collect w tr =
    toSt (c ++ ((List.range tr.length).filter fun i => decide (∀ v ∈ c, i ∉ trs v)).map fun i => [(i, (tr.getD i Track.none).start)]) := by
  obtain ⟨c, h1, h2⟩ := pairs_inv w tr
  refine ⟨c, h2, ?_⟩
  unfold collect
  rw [h1, singles tr _ List.nodup_range]

end Verif.PrimVtx

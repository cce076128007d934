import Verif.PrimVtx.Thm2

/-! # The vertices of tracks that come close: what is guaranteed about them -/

namespace Verif.PrimVtx

theorem from_lt (w : ℚ) (tr : List Track) (v : List (Nat × V3)) (m : Nat × V3) (h : FromPair w tr (pairs tr.length) v m) : m.1 < tr.length := by
  obtain ⟨p, hp, t1, t2, _, _, _, hm⟩ := h
  have := (mem_pairs _ _).mp hp
  rcases hm with rfl | rfl <;> dsimp only <;> omega

/-- The vertices: those of close pairs, then the tracks left over. -/
theorem mem_collect (w : ℚ) (tr : List Track) : ∃ c, Inv w tr (pairs tr.length) c ∧ (collect w tr).ids.length = (collect w tr).pts.length ∧
    (∀ k, (hk : k < (collect w tr).ids.length) → (hk' : k < (collect w tr).pts.length) → (∃ v ∈ c, (collect w tr).ids[k] = trs v ∧ (collect w tr).pts[k] = v.map Prod.snd) ∨
      ∃ i, i < tr.length ∧ (∀ v ∈ c, i ∉ trs v) ∧ (collect w tr).ids[k] = [i] ∧ (collect w tr).pts[k] = [(tr.getD i Track.none).start]) ∧
    (∀ v ∈ c, trs v ∈ (collect w tr).ids) ∧ (∀ i, i < tr.length → (∀ v ∈ c, i ∉ trs v) → [i] ∈ (collect w tr).ids) := by
  obtain ⟨c, hc, he⟩ := collect_eq w tr
  refine ⟨c, hc, ?_, ?_, ?_, ?_⟩
  · rw [he]; simp [toSt]
  · rw [he]
    generalize hL : c ++ ((List.range tr.length).filter fun i => decide (∀ v ∈ c, i ∉ trs v)).map (fun i => [(i, (tr.getD i Track.none).start)]) = L
    intro k hk hk'
    have hkL : k < L.length := by simpa [toSt] using hk
    have e1 : (toSt L).ids[k] = trs L[k] := by simp [toSt, trs]
    have e2 : (toSt L).pts[k] = L[k].map Prod.snd := by simp [toSt]
    rw [e1, e2]
    have hm : L[k] ∈ L := List.getElem_mem hkL
    generalize L[k] = v at hm
    rw [← hL] at hm
    rcases List.mem_append.mp hm with hm | hm
    · exact Or.inl ⟨v, hm, rfl, rfl⟩
    · obtain ⟨i, hi, rfl⟩ := List.mem_map.mp hm
      rw [List.mem_filter, List.mem_range, decide_eq_true_eq] at hi
      exact Or.inr ⟨i, hi.1, hi.2, rfl, rfl⟩
  · intro v hv
    rw [he]
    exact List.mem_map.mpr ⟨v, List.mem_append_left _ hv, rfl⟩
  · intro i hi hn
    rw [he]
    refine List.mem_map.mpr ⟨[(i, (tr.getD i Track.none).start)], List.mem_append_right _ (List.mem_map.mpr ⟨i, ?_, rfl⟩), rfl⟩
    rw [List.mem_filter, List.mem_range, decide_eq_true_eq]
    exact ⟨hi, hn⟩

/-- C393: every track is in a vertex, no vertex is empty or has a track twice, all numbers of tracks are valid, and each vertex has one point per track. -/
theorem C393_all (w : ℚ) (tr : List Track) :
    (∀ i, i < tr.length → ∃ v ∈ (collect w tr).ids, i ∈ v) ∧
    (∀ v ∈ (collect w tr).ids, v ≠ [] ∧ v.Nodup ∧ ∀ i ∈ v, i < tr.length) ∧
    (collect w tr).ids.map List.length = (collect w tr).pts.map List.length := by
  obtain ⟨c, hc, hl, hk, hv, hs⟩ := mem_collect w tr
  refine ⟨fun i hi => ?_, fun v hv => ?_, ?_⟩
  · by_cases h : ∃ v ∈ c, i ∈ trs v
    · obtain ⟨v, hvc, hiv⟩ := h
      exact ⟨_, hv v hvc, hiv⟩
    · exact ⟨[i], hs i hi (fun v hvc hiv => h ⟨v, hvc, hiv⟩), by simp⟩
  · obtain ⟨k, hkl, rfl⟩ := List.getElem_of_mem hv
    rcases hk k hkl (hl ▸ hkl) with ⟨v, hvc, h1, _⟩ | ⟨i, hi, _, h1, _⟩
    · rw [h1]
      refine ⟨?_, hc.nodup v hvc, fun i hi => ?_⟩
      · intro he
        have := hc.two v hvc
        have h0 : (trs v).length = 0 := by rw [he]; rfl
        simp [trs] at h0
        rw [h0] at this
        simp at this
      · obtain ⟨m, hm, rfl⟩ := List.mem_map.mp hi
        exact from_lt w tr v m (hc.from_ v hvc m hm)
    · rw [h1]; simp [hi]
  · apply List.ext_getElem
    · simpa using hl
    · intro k h1 h2
      simp only [List.length_map] at h1 h2
      simp only [List.getElem_map]
      rcases hk k h1 h2 with ⟨v, _, h3, h4⟩ | ⟨i, _, _, h3, h4⟩
      · rw [h3, h4]; simp [trs]
      · rw [h3, h4]; rfl

/-- Specification: two tracks are close, seen from the one that comes first. -/
def CloseSym (w : ℚ) (tr : List Track) (i j : Nat) : Prop := (i < j ∧ Close w tr i j) ∨ (j < i ∧ Close w tr j i)

/-- C394: two tracks that are close have a vertex in common, and each track of a vertex with more than one track is close to another one of the vertex. -/
theorem C394_close (w : ℚ) (tr : List Track) :
    (∀ i j, i < j → j < tr.length → Close w tr i j → ∃ v ∈ (collect w tr).ids, i ∈ v ∧ j ∈ v) ∧
    (∀ v ∈ (collect w tr).ids, 2 ≤ v.length → ∀ i ∈ v, ∃ j ∈ v, CloseSym w tr i j) := by
  obtain ⟨c, hc, hl, hk, hv, hs⟩ := mem_collect w tr
  refine ⟨fun i j hij hj h => ?_, fun v hv h2 i hi => ?_⟩
  · obtain ⟨v, hvc, h1, h2⟩ := hc.close (i, j) ((mem_pairs _ _).mpr ⟨hij, hj⟩) h
    exact ⟨_, hv v hvc, h1, h2⟩
  · obtain ⟨k, hkl, rfl⟩ := List.getElem_of_mem hv
    rcases hk k hkl (hl ▸ hkl) with ⟨v, hvc, h1, _⟩ | ⟨i, _, _, h1, _⟩
    · rw [h1] at hi ⊢
      obtain ⟨m, hm, rfl⟩ := List.mem_map.mp hi
      obtain ⟨p, hp, t1, t2, hn, ha, hb, hmm⟩ := hc.from_ v hvc m hm
      have hlt := ((mem_pairs _ _).mp hp).1
      have hcl : Close w tr p.1 p.2 := by unfold Close; rw [hn]; rfl
      rcases hmm with rfl | rfl
      · exact ⟨p.2, hb, Or.inl ⟨hlt, hcl⟩⟩
      · exact ⟨p.1, ha, Or.inr ⟨hlt, hcl⟩⟩
    · rw [h1] at h2; simp at h2

/-- C392: a track that is not close to any other is alone in a vertex, and in no other one. -/
theorem C392_alone (w : ℚ) (tr : List Track) (i : Nat) (hi : i < tr.length) (h : ∀ j, j < tr.length → ¬ CloseSym w tr i j) :
    [i] ∈ (collect w tr).ids ∧ ∀ v ∈ (collect w tr).ids, i ∈ v → v = [i] := by
  obtain ⟨c, hc, hl, hk, hv, hs⟩ := mem_collect w tr
  have hno : ∀ v ∈ c, i ∉ trs v := by
    intro v hvc hiv
    obtain ⟨m, hm, rfl⟩ := List.mem_map.mp hiv
    obtain ⟨p, hp, t1, t2, hn, ha, hb, hmm⟩ := hc.from_ v hvc m hm
    have hlt := (mem_pairs _ _).mp hp
    have hcl : Close w tr p.1 p.2 := by unfold Close; rw [hn]; rfl
    rcases hmm with rfl | rfl
    · exact h p.2 hlt.2 (Or.inl ⟨hlt.1, hcl⟩)
    · exact h p.1 (by omega) (Or.inr ⟨hlt.1, hcl⟩)
  refine ⟨hs i hi hno, fun v hv hiv => ?_⟩
  obtain ⟨k, hkl, rfl⟩ := List.getElem_of_mem hv
  rcases hk k hkl (hl ▸ hkl) with ⟨v, hvc, h1, _⟩ | ⟨j, _, _, h1, _⟩
  · rw [h1] at hiv; exact absurd hiv (hno v hvc)
  · rw [h1] at hiv ⊢; rw [List.mem_singleton.mp hiv]

/-- Tracks for examples: three that meet at the origin and one far away. -/
def exTr : List Track := [tX 0 0 0, tY 0 0 0, tX 50 60 70, tZ 0 0 0]

example : (collect 1 exTr).ids = [[0, 1, 3], [2]] := by decide +kernel

/-! ### C396: positions -/

theorem mean_eq (l : List V3) : mean l = ⟨(l.map V3.x).sum / l.length, (l.map V3.y).sum / l.length, (l.map V3.z).sum / l.length⟩ := by
  have key : ∀ (l : List V3) (s : V3), l.foldl (fun s p => (⟨s.x + p.x, s.y + p.y, s.z + p.z⟩ : V3)) s = ⟨s.x + (l.map V3.x).sum, s.y + (l.map V3.y).sum, s.z + (l.map V3.z).sum⟩ := by
    intro l
    induction l with
    | nil => intro s; simp
    | cons p l ih => intro s; rw [List.foldl_cons, ih]; simp [add_assoc]
  unfold mean
  rw [key]
  simp

theorem produce_eq (w : ℚ) (tr : List Track) (key : Nat → Nat) : produce w tr key =
    (List.range (collect w tr).ids.length).map fun i => (⟨mean ((collect w tr).pts.getD i []), i, ((collect w tr).ids.getD i []).map key⟩ : Vtx) := by
  have : ∀ n, (List.range n).foldl (fun vcol i => vcol ++ [(⟨mean ((collect w tr).pts.getD i []), vcol.length, ((collect w tr).ids.getD i []).map key⟩ : Vtx)]) [] =
      (List.range n).map fun i => (⟨mean ((collect w tr).pts.getD i []), i, ((collect w tr).ids.getD i []).map key⟩ : Vtx) := by
    intro n
    induction n with
    | zero => rfl
    | succ n ih => rw [List.range_succ, List.foldl_append, ih]; simp
  exact this _

/-- Specification: the point a track gives to a vertex with other tracks is the closest point of its line to that of a track of the vertex it is close to. -/
def PointOf (w : ℚ) (tr : List Track) (v : List Nat) (i : Nat) (p : V3) : Prop :=
  ∃ j ∈ v, ∃ q, (i < j ∧ near w (tr.getD i Track.none) (tr.getD j Track.none) = some (p, q)) ∨ (j < i ∧ near w (tr.getD j Track.none) (tr.getD i Track.none) = some (q, p))

/-- C396: the vertices are numbered in order; the position of a vertex is the mean of one point per track: the start for a track alone, otherwise a point of closest approach of the track and another
track of the vertex. -/
theorem C396_position (w : ℚ) (tr : List Track) (key : Nat → Nat) (k : Nat) (hk : k < (produce w tr key).length) :
    (produce w tr key)[k].id = k ∧ ∃ (v : List Nat) (pts : List V3), (produce w tr key)[k].tracks = v.map key ∧ v ≠ [] ∧ pts.length = v.length ∧
      (produce w tr key)[k].pos = ⟨(pts.map V3.x).sum / v.length, (pts.map V3.y).sum / v.length, (pts.map V3.z).sum / v.length⟩ ∧
      (v.length = 1 → ∃ i, v = [i] ∧ pts = [(tr.getD i Track.none).start]) ∧
      (2 ≤ v.length → ∀ m ∈ v.zip pts, PointOf w tr v m.1 m.2) := by
  obtain ⟨c, hc, hl, hkk, hv, hs⟩ := mem_collect w tr
  have hlen : (produce w tr key).length = (collect w tr).ids.length := by rw [produce_eq]; simp
  have h1 : k < (collect w tr).ids.length := by omega
  have h2 : k < (collect w tr).pts.length := by omega
  have e : (produce w tr key)[k] = ⟨mean ((collect w tr).pts.getD k []), k, ((collect w tr).ids.getD k []).map key⟩ := by
    simp only [produce_eq, List.getElem_map, List.getElem_range]
  rw [e, List.getD_eq_getElem _ _ h1, List.getD_eq_getElem _ _ h2, mean_eq]
  refine ⟨rfl, (collect w tr).ids[k], (collect w tr).pts[k], rfl, ?_⟩
  dsimp only
  rcases hkk k h1 h2 with ⟨v, hvc, h3, h4⟩ | ⟨i, _, _, h3, h4⟩
  · rw [h3, h4]
    have h5 := hc.two v hvc
    have h6 : (trs v).length = v.length := by simp [trs]
    refine ⟨?_, by simp [trs], by simp [h6], fun h => by omega, fun _ m hm => ?_⟩
    · intro h; rw [h] at h6; simp at h6; omega
    · have hzip : (trs v).zip (v.map Prod.snd) = v := by
        unfold trs
        rw [List.zip_map']
        simp
      rw [hzip] at hm
      obtain ⟨p, hp, t1, t2, hn, ha, hb, hmm⟩ := hc.from_ v hvc m hm
      have hlt := ((mem_pairs _ _).mp hp).1
      rcases hmm with rfl | rfl
      · exact ⟨p.2, hb, t2, Or.inl ⟨hlt, hn⟩⟩
      · exact ⟨p.1, ha, t1, Or.inr ⟨hlt, hn⟩⟩
  · rw [h3, h4]
    exact ⟨by simp, rfl, by simp, fun _ => ⟨i, rfl, rfl⟩, fun h => by simp at h⟩

example : produce 2 [tX 0 0 0, tY 1 5 1, tX 50 60 70] id = [⟨⟨1, 0, 1 / 2⟩, 0, [0, 1]⟩, ⟨⟨50, 60, 70⟩, 1, [2]⟩] := by decide +kernel

/-! ### C395: one vertex per track -/

/-- C395: a track can be in two vertices: here tracks 0 and 2 meet, and 1 and 3, and then 2 and 3. -/
theorem C395_refuted : ¬ ∀ (w : ℚ) (tr : List Track) (i k l : Nat), k < l → l < (collect w tr).ids.length →
    i ∈ (collect w tr).ids.getD k [] → i ∉ (collect w tr).ids.getD l [] := by
  intro h
  have := h 2 [tX 0 0 0, tZ 300 100 0, tY 0 100 0, tX 500 100 0] 2 0 1
  revert this
  decide +kernel

theorem pairs_lex (n : Nat) : (pairs n).Pairwise fun p q => p.1 < q.1 ∨ p.1 = q.1 ∧ p.2 < q.2 := by
  unfold pairs
  rw [List.pairwise_flatMap]
  refine ⟨fun i _ => ?_, ?_⟩
  · rw [List.pairwise_map]
    exact (List.pairwise_lt_range' 1).imp (fun h => Or.inr ⟨rfl, h⟩)
  · refine List.pairwise_lt_range.imp (fun {i j} h => ?_)
    intro x hx y hy
    obtain ⟨a, _, rfl⟩ := List.mem_map.mp hx
    obtain ⟨b, _, rfl⟩ := List.mem_map.mp hy
    exact Or.inl h

theorem before (n : Nat) (done rest : List (Nat × Nat)) (p : Nat × Nat) (h : pairs n = done ++ p :: rest) :
    (∀ q ∈ done, q.1 ≤ p.1) ∧ ∀ q ∈ pairs n, q.1 < p.1 → q ∈ done := by
  have hp := pairs_lex n
  rw [h, List.pairwise_append] at hp
  obtain ⟨_, h2, h3⟩ := hp
  refine ⟨fun q hq => ?_, fun q hq hlt => ?_⟩
  · rcases h3 q hq p (by simp) with hh | hh <;> omega
  · rw [h] at hq
    rcases List.mem_append.mp hq with hq | hq
    · exact hq
    · rcases List.mem_cons.mp hq with rfl | hq
      · omega
      · rcases (List.pairwise_cons.mp h2).1 q hq with hh | hh <;> omega

/-- Specification: the tracks close to a track are close to each other. -/
def Trans (w : ℚ) (tr : List Track) : Prop := ∀ i j k, i < tr.length → j < tr.length → k < tr.length → CloseSym w tr i j → CloseSym w tr j k → i ≠ k → CloseSym w tr i k

theorem CloseSym.symm {w : ℚ} {tr : List Track} {i j : Nat} (h : CloseSym w tr i j) : CloseSym w tr j i := h.elim Or.inr Or.inl

/-- Vertices have no tracks in common and none that are close. -/
def Dis (w : ℚ) (tr : List Track) (c : C) : Prop := ∀ k l, (hk : k < c.length) → (hl : l < c.length) → k ≠ l → ∀ a ∈ trs c[k], ∀ b ∈ trs c[l], a ≠ b ∧ ¬ CloseSym w tr a b

theorem inv_lt (w : ℚ) (tr : List Track) (done : List (Nat × Nat)) (hd : ∀ p ∈ done, p ∈ pairs tr.length) (c : C) (h : Inv w tr done c) : ∀ v ∈ c, ∀ a ∈ trs v, a < tr.length := by
  intro v hv a ha
  obtain ⟨m, hm, rfl⟩ := List.mem_map.mp ha
  obtain ⟨p, hp, t1, t2, hn, h1, h2, h3⟩ := h.from_ v hv m hm
  have := (mem_pairs _ _).mp (hd p hp)
  rcases h3 with rfl | rfl <;> dsimp only <;> omega

theorem cstep_dis (w : ℚ) (tr : List Track) (ht : Trans w tr) (done rest : List (Nat × Nat)) (p : Nat × Nat) (hpr : pairs tr.length = done ++ p :: rest) (c : C) (h : Inv w tr done c)
    (hd : Dis w tr c) : Dis w tr (cstep w tr c p) := by
  obtain ⟨hb1, hb2⟩ := before _ _ _ _ hpr
  have hdone : ∀ q ∈ done, q ∈ pairs tr.length := fun q hq => by rw [hpr]; exact List.mem_append_left _ hq
  have hpp := (mem_pairs tr.length p).mp (by rw [hpr]; simp)
  have hltc := inv_lt w tr done hdone c h
  unfold cstep
  cases hn : near w (tr.getD p.1 Track.none) (tr.getD p.2 Track.none) with
  | none => exact hd
  | some q =>
    obtain ⟨t1, t2⟩ := q
    have hcl : CloseSym w tr p.1 p.2 := Or.inl ⟨hpp.1, by unfold Close; rw [hn]; rfl⟩
    dsimp only
    by_cases hnew : (∀ v ∈ c, p.1 ∉ trs v) ∧ ∀ v ∈ c, p.2 ∉ trs v
    · rw [if_pos hnew]
      have h1 : ∀ v ∈ c, ∀ b ∈ trs v, ¬ CloseSym w tr b p.1 := by
        intro v hv b hb hcb
        obtain ⟨m, hm, rfl⟩ := List.mem_map.mp hb
        obtain ⟨q, hq, s1, s2, hqn, hq1, hq2, hqm⟩ := h.from_ v hv m hm
        have hqlt := (mem_pairs _ _).mp (hdone q hq)
        have hqcl : CloseSym w tr q.1 q.2 := Or.inl ⟨hqlt.1, by unfold Close; rw [hqn]; rfl⟩
        have hne : q.1 ≠ p.1 := fun e => hnew.1 v hv (e ▸ hq1)
        have hlt : q.1 < p.1 := by have := hb1 q hq; omega
        have hci : CloseSym w tr q.1 p.1 := by
          rcases hqm with rfl | rfl
          · exact hcb
          · exact ht q.1 q.2 p.1 (by omega) (by omega) (by omega) hqcl hcb hne
        have hci' : Close w tr q.1 p.1 := by
          rcases hci with hh | hh
          · exact hh.2
          · omega
        obtain ⟨v', hv', _, hmem⟩ := h.close (q.1, p.1) (hb2 _ ((mem_pairs _ _).mpr ⟨hlt, by dsimp only; omega⟩) hlt) hci'
        exact hnew.1 v' hv' hmem
      have h2 : ∀ v ∈ c, ∀ b ∈ trs v, ∀ x ∈ trs [(p.1, t1), (p.2, t2)], b ≠ x ∧ ¬ CloseSym w tr b x := by
        intro v hv b hb x hx
        have hx' : x = p.1 ∨ x = p.2 := by simpa [trs] using hx
        rcases hx' with rfl | rfl
        · exact ⟨fun e => hnew.1 v hv (e ▸ hb), h1 v hv b hb⟩
        · refine ⟨fun e => hnew.2 v hv (e ▸ hb), fun hc => ?_⟩
          have hbp : b ≠ p.1 := fun e => hnew.1 v hv (e ▸ hb)
          exact h1 v hv b hb (ht b p.2 p.1 (hltc v hv b hb) hpp.2 (by omega) hc hcl.symm hbp)
      intro k l hk hl hkl a ha b hb
      rw [List.length_append, List.length_singleton] at hk hl
      by_cases hk' : k < c.length
      · by_cases hl' : l < c.length
        · rw [List.getElem_append_left hk'] at ha
          rw [List.getElem_append_left hl'] at hb
          exact hd k l hk' hl' hkl a ha b hb
        · have : l = c.length := by omega
          subst this
          rw [List.getElem_append_left hk'] at ha
          rw [List.getElem_concat_length rfl] at hb
          exact h2 _ (List.getElem_mem hk') a ha b hb
      · have : k = c.length := by omega
        subst this
        have hl' : l < c.length := by omega
        rw [List.getElem_append_left hl'] at hb
        rw [List.getElem_concat_length rfl] at ha
        have := h2 _ (List.getElem_mem hl') b hb a ha
        exact ⟨this.1.symm, fun hc => this.2 hc.symm⟩
    · rw [if_neg hnew]
      cases hk : indexIn p.1 p.2 (toSt c).ids with
      | none => exact hd
      | some k =>
        dsimp only
        obtain ⟨hkl, hkm⟩ := indexIn_some _ _ c k hk
        have hab : p.1 ≠ p.2 := by omega
        have hlen : (cadd (cadd c k (p.1, t1)) k (p.2, t2)).length = c.length := by rw [cadd_length, cadd_length]
        have hx : ∀ l, (hl : l < c.length) → l ≠ k → ∀ x, x = p.1 ∨ x = p.2 → ∀ b ∈ trs c[l], x ≠ b ∧ ¬ CloseSym w tr x b := by
          intro l hl hlk x hx b hb
          have hbl := hltc _ (List.getElem_mem hl) b hb
          have base : ∀ y z, CloseSym w tr y z → y < tr.length → z < tr.length → y ∈ trs c[k] → (y ≠ b ∧ ¬ CloseSym w tr y b) ∧ (z ≠ b ∧ ¬ CloseSym w tr z b) := by
            intro y z hyz hy hz hyk
            have h1 := hd k l hkl hl hlk.symm y hyk b hb
            refine ⟨h1, ?_, ?_⟩
            · rintro rfl; exact h1.2 hyz
            · intro hzb; exact h1.2 (ht y z b hy hz hbl hyz hzb h1.1)
          rcases hkm with hm | hm
          · have := base p.1 p.2 hcl (by omega) hpp.2 hm
            rcases hx with rfl | rfl
            · exact this.1
            · exact this.2
          · have := base p.2 p.1 hcl.symm hpp.2 (by omega) hm
            rcases hx with rfl | rfl
            · exact this.2
            · exact this.1
        intro i j hi hj hij a ha b hb
        have hi' : i < c.length := by omega
        have hj' : j < c.length := by omega
        rw [(cadd2_get c k p.1 p.2 t1 t2 hab i hi').2] at ha
        rw [(cadd2_get c k p.1 p.2 t1 t2 hab j hj').2] at hb
        by_cases hik : i = k
        · have hjk : j ≠ k := fun e => hij (hik.trans e.symm)
          rw [if_pos hik] at ha
          rw [if_neg hjk] at hb
          rcases (mem_ext _ _ _ _ _ _).mp ha with ha | ha
          · exact hd i j hi' hj' hij a ha b hb
          · exact hx j hj' hjk a ha b hb
        · rw [if_neg hik] at ha
          by_cases hjk : j = k
          · rw [if_pos hjk] at hb
            rcases (mem_ext _ _ _ _ _ _).mp hb with hb | hb
            · exact hd i j hi' hj' hij a ha b hb
            · have := hx i hi' hik b hb a ha
              exact ⟨this.1.symm, fun hc => this.2 hc.symm⟩
          · rw [if_neg hjk] at hb
            exact hd i j hi' hj' hij a ha b hb

/-- C395: if tracks close to a common track are close to each other, the vertices have no tracks in common: with C393, each track is in exactly one vertex. -/
theorem C395_one_partial (w : ℚ) (tr : List Track) (ht : Trans w tr) : (collect w tr).ids.Pairwise fun v v' => ∀ i ∈ v, i ∉ v' := by
  obtain ⟨c, h1, h2⟩ := fold_pairs w tr (fun done c => Inv w tr done c ∧ Dis w tr c) (pairs tr.length) [] [] (fun done p c hr h => by
      obtain ⟨rest, hr⟩ := hr
      rw [List.nil_append] at hr
      have : p ∈ pairs tr.length := by rw [hr]; simp
      exact ⟨cstep_inv w tr done c p ((mem_pairs _ _).mp this).1 h.1, cstep_dis w tr ht done rest p hr c h.1 h.2⟩)
    ⟨⟨by simp, by simp, by simp, by simp⟩, by intro k l hk; simp at hk⟩
  have he : (pairs tr.length).foldl (step w tr) ⟨[], []⟩ = toSt c := h1
  unfold collect
  rw [he, singles tr _ List.nodup_range]
  show ((c ++ _).map fun v => v.map Prod.fst).Pairwise _
  rw [List.pairwise_map, List.pairwise_append]
  refine ⟨?_, ?_, ?_⟩
  · rw [List.pairwise_iff_getElem]
    intro k l hk hl hkl i hi hi'
    exact (h2.2 k l hk hl (by omega) i hi i hi').1 rfl
  · rw [List.pairwise_map]
    refine (List.Nodup.filter _ List.nodup_range).imp (fun {a b} hab => ?_)
    simp [hab]
  · intro v hv v' hv' i hi hi'
    obtain ⟨j, hj, rfl⟩ := List.mem_map.mp hv'
    rw [List.mem_filter, decide_eq_true_eq] at hj
    have : i = j := by simpa using hi'
    exact hj.2 v hv (this ▸ hi)

instance (w : ℚ) (tr : List Track) (i j : Nat) : Decidable (Close w tr i j) := by unfold Close; infer_instance
instance (w : ℚ) (tr : List Track) (i j : Nat) : Decidable (CloseSym w tr i j) := by unfold CloseSym; infer_instance

example : Trans 1 exTr := by
  have h : ∀ i ∈ List.range 4, ∀ j ∈ List.range 4, ∀ k ∈ List.range 4, CloseSym 1 exTr i j → CloseSym 1 exTr j k → i ≠ k → CloseSym 1 exTr i k := by decide +kernel
  exact fun i j k hi hj hk => h i (List.mem_range.mpr hi) j (List.mem_range.mpr hj) k (List.mem_range.mpr hk)

end Verif.PrimVtx

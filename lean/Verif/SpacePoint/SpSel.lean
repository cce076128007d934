import Verif.SpacePoint.SpOut
/-!
# C155, C156: filtering and merging of space points
-/
namespace Verif.SpAlg

/-! ## Specification -/

/-- `h` is the last hit of a combination of the TPC -/
def IsLast (g : Geo) (c : Cfg) (hits : List Hit) (t : Nat) (h : Hit) : Prop := ∃ l ∈ combos g c hits t, l.getLast? = some h

/-! ## Lemmas -/

theorem mapM_all {α β : Type} (f : α → Option β) (P : α → β → Prop) (l : List α) (h : ∀ a ∈ l, ∃ b, f a = some b ∧ P a b) :
    ∃ l', l.mapM f = some l' ∧ List.Forall₂ P l l' := by
  induction l with
  | nil => exact ⟨[], rfl, List.Forall₂.nil⟩
  | cons a l ih =>
    obtain ⟨b, hb, hP⟩ := h a (by simp)
    obtain ⟨l', h1, h2⟩ := ih (fun x hx => h x (by simp [hx]))
    exact ⟨b :: l', by rw [List.mapM_cons, hb, h1]; rfl, List.Forall₂.cons hP h2⟩

theorem bestOf_go (l : List SP) (q : SP) : ∃ p, l.foldl (fun b p => match b with
    | none => some p
    | some q => if p.chisq < q.chisq then some p else some q) (some q) = some p ∧ (p = q ∨ p ∈ l) ∧ p.chisq ≤ q.chisq ∧
      ∀ x ∈ l, p.chisq ≤ x.chisq := by
  induction l generalizing q with
  | nil => exact ⟨q, rfl, Or.inl rfl, le_refl _, by simp⟩
  | cons a l ih =>
    by_cases h : a.chisq < q.chisq
    · obtain ⟨p, h1, h2, h3, h4⟩ := ih a
      refine ⟨p, by simpa [h] using h1, ?_, by linarith, ?_⟩
      · rcases h2 with rfl | h2
        · right; simp
        · right; simp [h2]
      · intro x hx
        rcases List.mem_cons.1 hx with rfl | hx
        · exact h3
        · exact h4 x hx
    · obtain ⟨p, h1, h2, h3, h4⟩ := ih q
      refine ⟨p, by simpa [h] using h1, ?_, h3, ?_⟩
      · rcases h2 with rfl | h2
        · left; rfl
        · right; simp [h2]
      · intro x hx
        rcases List.mem_cons.1 hx with rfl | hx
        · linarith
        · exact h4 x hx

theorem bestOf_spec (l : List SP) (hl : l ≠ []) : ∃ p, bestOf l = some p ∧ p ∈ l ∧ ∀ x ∈ l, p.chisq ≤ x.chisq := by
  cases l with
  | nil => exact absurd rfl hl
  | cons a l =>
    obtain ⟨p, h1, h2, h3, h4⟩ := bestOf_go l a
    refine ⟨p, h1, by simpa using h2, ?_⟩
    intro x hx
    rcases List.mem_cons.1 hx with rfl | hx
    · exact h3
    · exact h4 x hx

theorem mem_keys {m : List (Nat × SP)} {k : Nat} : k ∈ keys m ↔ ∃ p, (k, p) ∈ m := by
  unfold keys
  rw [List.mem_insertionSort, List.mem_dedup, List.mem_map]
  constructor
  · rintro ⟨⟨a, b⟩, h, rfl⟩; exact ⟨b, h⟩
  · rintro ⟨p, h⟩; exact ⟨(k, p), h, rfl⟩

theorem keys_nodup (m : List (Nat × SP)) : (keys m).Nodup :=
  (List.perm_insertionSort _ _).nodup_iff.2 (List.nodup_dedup _)

theorem mem_ofKey {m : List (Nat × SP)} {k : Nat} {p : SP} : p ∈ ofKey m k ↔ (k, p) ∈ m := by
  unfold ofKey
  rw [List.mem_map]
  constructor
  · rintro ⟨⟨a, b⟩, h, rfl⟩
    rw [List.mem_filter] at h
    obtain ⟨h, e⟩ := h
    simp only [decide_eq_true_eq] at e
    rw [← e]; exact h
  · intro h
    exact ⟨(k, p), List.mem_filter.2 ⟨h, by simp⟩, rfl⟩

theorem combos_hits {g : Geo} {c : Cfg} {hits : List Hit} {t : Nat} {l : List Hit} (h : l ∈ combos g c hits t) :
    (∀ x ∈ l, x ∈ hits) ∧ 2 ≤ l.toFinset.card ∧ l ≠ [] := by
  have hin := index_nodup g c hits t
  have two : ∀ (a b : Hit) (l : List Hit), a.plane ≠ b.plane → a ∈ l → b ∈ l → 2 ≤ l.toFinset.card := by
    intro a b l hne ha hb
    have : ({a, b} : Finset Hit) ⊆ l.toFinset := by
      intro x hx
      simp only [Finset.mem_insert, Finset.mem_singleton] at hx
      rcases hx with rfl | rfl <;> simpa
    refine le_trans ?_ (Finset.card_le_card this)
    rw [Finset.card_pair (fun e => hne (by rw [e]))]
  unfold combos at h
  rcases List.mem_append.1 h with h | h
  · unfold pairs at h
    split at h
    · obtain ⟨⟨p, q⟩, hpq, hl⟩ := List.mem_flatMap.1 h
      obtain ⟨a, b, rfl, ⟨ha, e1⟩, ⟨hb, e2⟩, _, hc⟩ := mem_pairsOf.1 hl
      have := (mem_planePairs hin (pairPlanes_sub hpq)).2.2
      dsimp only at e1 e2
      refine ⟨?_, two a b _ (by rw [e1, e2]; exact this) (by simp) (by simp), by simp⟩
      intro x hx
      simp only [List.mem_cons, List.not_mem_nil, or_false] at hx
      rcases hx with rfl | rfl
      · exact ha.1
      · exact hb.1
    · cases h
  · unfold triples at h
    split at h
    · revert h
      generalize hi : index g c hits t = i at hin
      rcases i with _ | ⟨p, _ | ⟨q, _ | ⟨r, rest⟩⟩⟩
      · intro h; cases h
      · intro h; cases h
      · intro h; cases h
      · intro h
        obtain ⟨a, b, d, rfl, ⟨ha, e1⟩, ⟨hb, e2⟩, ⟨hd, e3⟩, _⟩ := mem_triplesOf.1 h
        have hpq : p ≠ q := by
          intro e; rw [e] at hin; simp at hin
        refine ⟨?_, two a b _ (by rw [e1, e2]; exact hpq) (by simp) (by simp), by simp⟩
        intro x hx
        simp only [List.mem_cons, List.not_mem_nil, or_false] at hx
        rcases hx with rfl | rfl | rfl
        · exact ha.1
        · exact hb.1
        · exact hd.1
    · cases h

theorem key_last {g : Geo} {c : Cfg} {hits : List Hit} {t : Nat} {l : List Hit} (h : l ∈ combos g c hits t) :
    ∃ x, l.getLast? = some x ∧ x ∈ hits ∧ keyOf l = x.id := by
  obtain ⟨h1, _, h3⟩ := combos_hits h
  refine ⟨l.getLast h3, List.getLast?_eq_some_getLast h3, h1 _ (List.getLast_mem h3), ?_⟩
  unfold keyOf
  rw [List.getLast?_eq_some_getLast h3]
  rfl

theorem lasts_of_keys {hits : List Hit} (ks : List Nat) (P : Hit → Prop) (h : ∀ k ∈ ks, ∃ x, x.id = k ∧ x ∈ hits ∧ P x) :
    ∃ hs : List Hit, hs.map Hit.id = ks ∧ ∀ x ∈ hs, x ∈ hits ∧ P x := by
  induction ks with
  | nil => exact ⟨[], rfl, by simp⟩
  | cons k ks ih =>
    obtain ⟨x, h1, h2, h3⟩ := h k (by simp)
    obtain ⟨hs, h4, h5⟩ := ih (fun k hk => h k (by simp [hk]))
    refine ⟨x :: hs, by simp [h1, h4], ?_⟩
    intro y hy
    rcases List.mem_cons.1 hy with rfl | hy
    · exact ⟨h2, h3⟩
    · exact h5 y hy

/-- the state before the transfer, in a detector with one TPC -/
theorem before {g : Geo} {c : Cfg} {hits : List Hit} {t : Nat} (ht : g.tpcs = [t]) (h3 : g.nplane t ≤ 3) :
    ∃ s, Rep g (items g c hits t) s ∧ s.spts = [] ∧ make g c hits = transfer g c s := by
  obtain ⟨s, h1, h2, h3'⟩ := fold_ok (g := g) (items g c hits t) (its := []) (s := ⟨[], [], []⟩) ⟨rfl, rfl⟩ (by simpa using ordered_one g c hits t h3)
  refine ⟨s, by simpa using h2, h3', ?_⟩
  unfold make
  rw [ht, List.foldlM_cons, oneTpc_eq, h1]
  show (transfer g c s >>= fun s => ([] : List Nat).foldlM (oneTpc g c hits) s) = _
  cases transfer g c s <;> rfl

theorem Rep.mem_map {g : Geo} {its : List (Bool × List Hit)} {s : St} (h : Rep g its s) {k : Nat} {p : SP} :
    (k, p) ∈ s.map ↔ ∃ n, ∃ (hn : n < its.length), k = keyOf its[n].2 ∧ p = point g false its[n].2 (idOf n its[n].1) := by
  rw [h.map, List.mem_mapIdx]
  constructor
  · rintro ⟨n, hn, he⟩
    obtain ⟨h1, h2⟩ := Prod.mk.inj he
    exact ⟨n, hn, h1.symm, h2.symm⟩
  · rintro ⟨n, hn, h1, h2⟩
    exact ⟨n, hn, by rw [h1, h2]⟩

theorem items_mem {g : Geo} {c : Cfg} {hits : List Hit} {t : Nat} {l : List Hit} :
    l ∈ combos g c hits t ↔ ∃ n, ∃ (hn : n < (items g c hits t).length), ((items g c hits t)[n]).2 = l := by
  rw [← items_combos, List.mem_map]
  constructor
  · rintro ⟨x, hx, rfl⟩
    obtain ⟨n, hn, rfl⟩ := List.getElem_of_mem hx
    exact ⟨n, hn, rfl⟩
  · rintro ⟨n, hn, rfl⟩
    exact ⟨_, List.getElem_mem hn, rfl⟩

/-- the keys are the last hits -/
theorem keys_lasts {g : Geo} {c : Cfg} {hits : List Hit} {t : Nat} {s : St} (hR : Rep g (items g c hits t) s) (hid : (hits.map Hit.id).Nodup) :
    ∃ hs : List Hit, hs.map Hit.id = keys s.map ∧ hs.Nodup ∧ (∀ h ∈ hs, h ∈ hits) ∧ (∀ h, h ∈ hs ↔ IsLast g c hits t h) := by
  have inj : ∀ x ∈ hits, ∀ y ∈ hits, x.id = y.id → x = y := fun x hx y hy => List.inj_on_of_nodup_map hid hx hy
  obtain ⟨hs, h1, h2⟩ := lasts_of_keys (hits := hits) (keys s.map) (IsLast g c hits t) (by
    intro k hk
    obtain ⟨p, hp⟩ := mem_keys.1 hk
    obtain ⟨n, hn, e, _⟩ := hR.mem_map.1 hp
    have hc : ((items g c hits t)[n]).2 ∈ combos g c hits t := items_mem.2 ⟨n, hn, rfl⟩
    obtain ⟨x, hx, hm, hk⟩ := key_last hc
    exact ⟨x, by rw [e, hk], hm, _, hc, hx⟩)
  refine ⟨hs, h1, List.Nodup.of_map _ (by rw [h1]; exact keys_nodup _), fun h hh => (h2 h hh).1, fun h => ⟨fun hh => (h2 h hh).2, ?_⟩⟩
  rintro ⟨l, hl, hlast⟩
  obtain ⟨x, hx, hm, hk⟩ := key_last hl
  obtain rfl : x = h := by rw [hx] at hlast; exact Option.some.inj hlast
  obtain ⟨n, hn, e⟩ := items_mem.1 hl
  have : x.id ∈ keys s.map := mem_keys.2 ⟨_, hR.mem_map.2 ⟨n, hn, by rw [e, hk], rfl⟩⟩
  rw [← h1, List.mem_map] at this
  obtain ⟨y, hy, he⟩ := this
  rw [← inj y (h2 y hy).1 x hm he]
  exact hy

/-- **C155 (filter).** A detector with one TPC of at most three planes, with filter: no exception; one point for each hit that is the last hit of some
combination, and none else; that point is the point of a combination ending in that hit, remembered with its hits, and no combination ending in that hit
has a smaller chi square. -/
theorem filter_best_partial (g : Geo) (c : Cfg) (hits : List Hit) (hf : c.filter = true) (t : Nat) (ht : g.tpcs = [t]) (h3 : g.nplane t ≤ 3)
    (hid : (hits.map Hit.id).Nodup) :
    ∃ o hs, make g c hits = some o ∧ hs.Nodup ∧ (∀ h, h ∈ hs ↔ IsLast g c hits t h) ∧
      List.Forall₂ (fun h p => ∃ l ∈ combos g c hits t, l.getLast? = some h ∧ assoc o.hitMap p.id = some l ∧ p = point g false l p.id ∧
        ∀ l' ∈ combos g c hits t, l'.getLast? = some h → p.chisq ≤ (point g false l' 0).chisq) hs o.spts := by
  obtain ⟨s, hR, hs0, hmk⟩ := before (c := c) (hits := hits) ht h3
  have inj : ∀ x ∈ hits, ∀ y ∈ hits, x.id = y.id → x = y := fun x hx y hy => List.inj_on_of_nodup_map hid hx hy
  obtain ⟨hs, k1, k2, k3, k4⟩ := keys_lasts hR hid
  have hbest : ∀ h ∈ hs, ∃ p, (bestOf (ofKey s.map h.id)) = some p ∧
      (∃ l ∈ combos g c hits t, l.getLast? = some h ∧ assoc s.hitMap p.id = some l ∧ p = point g false l p.id ∧
        ∀ l' ∈ combos g c hits t, l'.getLast? = some h → p.chisq ≤ (point g false l' 0).chisq) := by
    intro h hh
    have hk : h.id ∈ keys s.map := by rw [← k1]; exact List.mem_map_of_mem hh
    obtain ⟨p0, hp0⟩ := mem_keys.1 hk
    obtain ⟨p, b1, b2, b3⟩ := bestOf_spec (ofKey s.map h.id) (List.ne_nil_of_mem (mem_ofKey.2 hp0))
    obtain ⟨n, hn, e1, e2⟩ := hR.mem_map.1 (mem_ofKey.1 b2)
    have hc : ((items g c hits t)[n]).2 ∈ combos g c hits t := items_mem.2 ⟨n, hn, rfl⟩
    obtain ⟨x, hx, hm, hkx⟩ := key_last hc
    obtain rfl : x = h := inj x hm h (k3 h hh) (by rw [← hkx, ← e1])
    have hpid : p.id = idOf n ((items g c hits t)[n]).1 := by rw [e2]; rfl
    refine ⟨p, b1, _, hc, hx, ?_, ?_, ?_⟩
    · rw [hpid]
      exact hR.assoc (ordered_one g c hits t h3) n hn
    · rw [hpid]; exact e2
    · intro l' hl' hlast'
      obtain ⟨n', hn', e'⟩ := items_mem.1 hl'
      obtain ⟨x', hx', _, hkx'⟩ := key_last hl'
      obtain rfl : x' = x := by rw [hx'] at hlast'; exact Option.some.inj hlast'
      have := b3 _ (mem_ofKey.2 (hR.mem_map.2 ⟨n', hn', by rw [e', hkx'], rfl⟩))
      rw [e'] at this
      exact this
  have hM : ∃ l', (keys s.map).mapM (fun k => bestOf (ofKey s.map k)) = some l' ∧ List.Forall₂ (fun h p =>
      (∃ l ∈ combos g c hits t, l.getLast? = some h ∧ assoc s.hitMap p.id = some l ∧ p = point g false l p.id ∧
        ∀ l' ∈ combos g c hits t, l'.getLast? = some h → p.chisq ≤ (point g false l' 0).chisq)) hs l' := by
    obtain ⟨l', m1, m2⟩ := mapM_all (fun h : Hit => bestOf (ofKey s.map h.id)) _ hs hbest
    refine ⟨l', ?_, m2⟩
    rw [← k1, List.mapM_map]
    exact m1
  obtain ⟨l', m1, m2⟩ := hM
  refine ⟨{ s with spts := s.spts ++ l' }, hs, ?_, k2, k4, ?_⟩
  · rw [hmk]
    unfold transfer doFilter
    rw [if_pos hf, m1]
    rfl
  · show List.Forall₂ _ hs (s.spts ++ l')
    rw [hs0, List.nil_append]
    exact m2

/-- two triples end in the same hit; the better one is kept -/
def exHits2 : List Hit := [⟨0, 0, 0, 0, 4, 10, 1⟩, ⟨1, 0, 1, 1, 2, 11, 1⟩, ⟨2, 0, 2, 2, 4, 12, 1⟩, ⟨3, 0, 1, 1, 2, 14, 1⟩, ⟨4, 0, 2, 2, 40, 12, 1⟩]

example : (combos (exGeo3 1) exCfg exHits2 0).map (fun l => (l.map Hit.id, (point (exGeo3 1) false l 0).chisq)) = [([0, 1, 2], 2), ([0, 3, 2], 8)] := by
  decide +kernel

example : (make (exGeo3 1) { exCfg with filter := true } exHits2).map (fun s => s.spts.map (fun p => (p.id, p.chisq))) = some [(-1, 2)] := by
  decide +kernel

/-- **C155, several TPCs repeat points.** In a detector with two TPCs the best point of a hit of the first TPC is put out twice. -/
theorem filter_repeat_refuted : ∃ (g : Geo) (c : Cfg) (hits : List Hit) (o : St), g.tpcs.length = 2 ∧ (hits.map Hit.id).Nodup ∧ c.filter = true ∧
    (combos g c hits 0).length = 1 ∧ combos g c hits 1 = [] ∧ make g c hits = some o ∧ o.spts.map SP.id = [-1, -1] := by
  have h : (make (exGeo3 2) { exCfg with filter := true } exHits).map (fun s => s.spts.map SP.id) = some [-1, -1] := by decide +kernel
  obtain ⟨o, h1, h2⟩ := Option.map_eq_some_iff.1 h
  exact ⟨exGeo3 2, { exCfg with filter := true }, exHits, o, rfl, by decide +kernel, rfl, by decide +kernel, by decide +kernel, h1, h2⟩

/-! ## C156: merging -/

/-- the hits merged for `h` -/
def Merged (g : Geo) (c : Cfg) (hits : List Hit) (t : Nat) (h : Hit) (l : List Hit) : Prop :=
  l.Nodup ∧ ∀ x, x ∈ l ↔ ∃ l' ∈ combos g c hits t, l'.getLast? = some h ∧ x ∈ l'

theorem assoc_append {m r : List (Int × List Hit)} {id : Int} {l : List Hit} (h : assoc m id = some l) : assoc (m ++ r) id = some l := by
  unfold assoc at *
  rw [List.find?_append]
  obtain ⟨q, h1, h2⟩ := Option.map_eq_some_iff.1 h
  rw [h1]
  simpa using h2

theorem assoc_new {m : List (Int × List Hit)} {id : Int} {l : List Hit} (h : id ∉ m.map Prod.fst) : assoc (m ++ [(id, l)]) id = some l := by
  unfold assoc
  rw [List.find?_append, List.find?_eq_none.2]
  · simp
  · intro q hq
    simp only [decide_eq_true_eq]
    intro e
    exact h (List.mem_map.2 ⟨q, hq, e⟩)

/-- the merged hits of a key are found while new entries are added -/
theorem mergedHits_spec {g : Geo} {c : Cfg} {hits : List Hit} {t : Nat} {s s' : St} (hR : Rep g (items g c hits t) s) (h3 : g.nplane t ≤ 3)
    (hid : (hits.map Hit.id).Nodup) (hm : s'.map = s.map) (rest : List (Int × List Hit)) (hh : s'.hitMap = s.hitMap ++ rest) {h : Hit}
    (hmem : h ∈ hits) (hl : IsLast g c hits t h) : ∃ l, mergedHits s' h.id = some l ∧ Merged g c hits t h l ∧ 2 ≤ l.length := by
  have inj : ∀ x ∈ hits, ∀ y ∈ hits, x.id = y.id → x = y := fun x hx y hy => List.inj_on_of_nodup_map hid hx hy
  have hkey : ∀ p, p ∈ ofKey s.map h.id ↔ ∃ n, ∃ (hn : n < (items g c hits t).length), ((items g c hits t)[n]).2.getLast? = some h ∧
      p = point g false ((items g c hits t)[n]).2 (idOf n ((items g c hits t)[n]).1) := by
    intro p
    rw [mem_ofKey, hR.mem_map]
    refine exists_congr (fun n => exists_congr (fun hn => and_congr_left (fun _ => ?_)))
    have hc : ((items g c hits t)[n]).2 ∈ combos g c hits t := items_mem.2 ⟨n, hn, rfl⟩
    obtain ⟨x, hx, hxm, hk⟩ := key_last hc
    rw [hk, hx]
    constructor
    · intro e; rw [inj x hxm h hmem e.symm]
    · intro e; rw [Option.some.inj e]
  obtain ⟨ls, m1, m2⟩ := mapM_all (fun p : SP => assoc s'.hitMap p.id) (fun p l => assoc s.hitMap p.id = some l) (ofKey s.map h.id) (by
    intro p hp
    obtain ⟨n, hn, _, e⟩ := (hkey p).1 hp
    have ha := hR.assoc (ordered_one g c hits t h3) n hn
    have hpid : p.id = idOf n ((items g c hits t)[n]).1 := by rw [e]; rfl
    rw [← hpid] at ha
    exact ⟨_, by rw [hh]; exact assoc_append ha, ha⟩)
  have hls : ∀ l, l ∈ ls ↔ l ∈ combos g c hits t ∧ l.getLast? = some h := by
    intro l
    constructor
    · intro hl
      obtain ⟨i, hi, rfl⟩ := List.getElem_of_mem hl
      have hi' : i < (ofKey s.map h.id).length := by rw [m2.length_eq]; exact hi
      have ha := m2.get hi' hi
      simp only [List.get_eq_getElem] at ha
      obtain ⟨n, hn, e1, e2⟩ := (hkey _).1 (List.getElem_mem hi')
      have ha' := hR.assoc (ordered_one g c hits t h3) n hn
      have hpid : ((ofKey s.map h.id)[i]).id = idOf n ((items g c hits t)[n]).1 := by rw [e2]; rfl
      rw [hpid, ha'] at ha
      rw [← Option.some.inj ha]
      exact ⟨items_mem.2 ⟨n, hn, rfl⟩, e1⟩
    · rintro ⟨hc, hlast⟩
      obtain ⟨n, hn, e⟩ := items_mem.1 hc
      have hp := (hkey _).2 ⟨n, hn, by rw [e]; exact hlast, rfl⟩
      obtain ⟨i, hi, he⟩ := List.getElem_of_mem hp
      have hi' : i < ls.length := by rw [← m2.length_eq]; exact hi
      have ha := m2.get hi hi'
      simp only [List.get_eq_getElem] at ha
      have ha' := hR.assoc (ordered_one g c hits t h3) n hn
      have hpid : ((ofKey s.map h.id)[i]).id = idOf n ((items g c hits t)[n]).1 := by rw [he]; rfl
      rw [hpid, ha', e] at ha
      rw [Option.some.inj ha]
      exact List.getElem_mem hi'
  have hM : Merged g c hits t h (ls.flatten.dedup.insertionSort (fun a b => a.id ≤ b.id)) := by
    refine ⟨(List.perm_insertionSort _ _).nodup_iff.2 (List.nodup_dedup _), ?_⟩
    intro x
    rw [List.mem_insertionSort, List.mem_dedup, List.mem_flatten]
    constructor
    · rintro ⟨l, hl, hx⟩
      exact ⟨l, ((hls l).1 hl).1, ((hls l).1 hl).2, hx⟩
    · rintro ⟨l, h1, h2, hx⟩
      exact ⟨l, (hls l).2 ⟨h1, h2⟩, hx⟩
  refine ⟨_, ?_, hM, ?_⟩
  · unfold mergedHits
    rw [hm, m1]
    rfl
  · obtain ⟨l0, hl0, hlast⟩ := hl
    rw [← List.toFinset_card_of_nodup hM.1]
    refine le_trans (combos_hits hl0).2.1 (Finset.card_le_card ?_)
    intro x hx
    rw [List.mem_toFinset] at hx ⊢
    exact (hM.2 x).2 ⟨l0, hl0, hlast, hx⟩

/-- the state with one more merged point -/
def withMerged (g : Geo) (o : St) (l : List Hit) : St where
  map := o.map
  hitMap := o.hitMap ++ [(((o.map.length + o.spts.length : Nat) : Int) - 1, l)]
  spts := o.spts ++ [point g true l (((o.map.length + o.spts.length : Nat) : Int) - 1)]

theorem merge_fold {g : Geo} {c : Cfg} {hits : List Hit} {t : Nat} {s : St} (hR : Rep g (items g c hits t) s) (h3 : g.nplane t ≤ 3)
    (hid : (hits.map Hit.id).Nodup) (hp : pairs g c hits t = []) (hs0 : s.spts = []) (hs : List Hit)
    (hm : ∀ h ∈ hs, h ∈ hits ∧ IsLast g c hits t h) :
    ∃ o rest, (hs.map Hit.id).foldlM (mergeOne g) s = some o ∧ o.map = s.map ∧ o.hitMap = s.hitMap ++ rest ∧
      (∀ id ∈ rest.map Prod.fst, id < (s.map.length : Int) + hs.length - 1) ∧
      o.spts.map SP.id = (List.range hs.length).map (fun i : Nat => (s.map.length : Int) + (i : Int) - 1) ∧
      List.Forall₂ (fun h p => ∃ l, assoc o.hitMap p.id = some l ∧ Merged g c hits t h l ∧ p = point g true l p.id) hs o.spts := by
  induction hs using List.reverseRecOn with
  | nil => exact ⟨s, [], rfl, rfl, by simp, by simp, by simp [hs0], by rw [hs0]; exact List.Forall₂.nil⟩
  | append_singleton hs h ih =>
    obtain ⟨o, rest, f1, f2, f3, f4, f5, f6⟩ := ih (fun x hx => hm x (by simp [hx]))
    obtain ⟨hmem, hlast⟩ := hm h (by simp)
    obtain ⟨l, l1, l2, l3⟩ := mergedHits_spec hR h3 hid f2 rest f3 hmem hlast
    have hlen : o.spts.length = hs.length := f6.length_eq.symm
    have hids : ∀ id ∈ s.hitMap.map Prod.fst, id < (s.map.length : Int) - 1 := by
      intro id hid
      obtain ⟨n, hn, e⟩ := (hR.ids id).1 hid
      have hb : ((items g c hits t)[n]).1 = true := by
        have : (items g c hits t)[n] ∈ items g c hits t := List.getElem_mem hn
        generalize (items g c hits t)[n] = x at this
        unfold items at this
        rw [hp] at this
        simp only [List.map_nil, List.nil_append] at this
        obtain ⟨_, _, e⟩ := List.mem_map.1 this
        rw [← e]
      rw [e, hb, hR.len]
      unfold idOf
      simp only [if_true]
      omega
    have hnew : ((o.map.length + o.spts.length : Nat) : Int) - 1 ∉ o.hitMap.map Prod.fst := by
      rw [f2, hlen, f3, List.map_append, List.mem_append]
      rintro (h | h)
      · have := hids _ h; push_cast at this; omega
      · have := f4 _ h; push_cast at this; omega
    refine ⟨(withMerged g o l),
      rest ++ [(((o.map.length + o.spts.length : Nat) : Int) - 1, l)], ?_, f2, ?_, ?_, ?_, ?_⟩
    · rw [List.map_append, List.foldlM_append, f1]
      show (([h].map Hit.id).foldlM (mergeOne g) o : Option St) = _
      rw [List.map_cons, List.map_nil, List.foldlM_cons]
      have : mergeOne g o h.id = some (withMerged g o l) := by
        unfold mergeOne
        rw [l1]
        show (remember o.hitMap (((o.map.length + o.spts.length : Nat) : Int) - 1) l >>= _) = _
        unfold remember
        rw [if_neg hnew]
        show some _ = some _
        rw [if_pos l3]
        rfl
      rw [this]
      rfl
    · show o.hitMap ++ _ = _
      rw [f3, List.append_assoc]
    · intro id hi
      rw [List.map_append, List.mem_append] at hi
      rw [List.length_append, List.length_singleton]
      rcases hi with hi | hi
      · have := f4 _ hi; push_cast; omega
      · simp only [List.map_cons, List.map_nil, List.mem_singleton] at hi
        rw [hi, f2, hlen]; push_cast; omega
    · show (o.spts ++ _).map SP.id = _
      rw [List.map_append, f5, List.length_append, List.length_singleton, List.range_succ, List.map_append, f2, hlen]
      simp [point]
    · show List.Forall₂ _ (hs ++ [h]) (o.spts ++ _)
      refine List.rel_append ?_ (List.Forall₂.cons ?_ List.Forall₂.nil)
      · refine f6.imp ?_
        rintro h p ⟨l, a1, a2, a3⟩
        exact ⟨l, assoc_append a1, a2, a3⟩
      · exact ⟨l, assoc_new hnew, l2, rfl⟩

/-- **C156 (merge).** A detector with one TPC of at most three planes, with merge and without filter, when no two-view combinations are made: no exception;
one point for each hit that is the last hit of some combination, and none else; its hits are the union of the hits of these combinations, each once, and its
number is its own. -/
theorem merge_union_partial (g : Geo) (c : Cfg) (hits : List Hit) (hf : c.filter = false) (hm : c.merge = true) (t : Nat) (ht : g.tpcs = [t])
    (h3 : g.nplane t ≤ 3) (hid : (hits.map Hit.id).Nodup) (hp : pairs g c hits t = []) :
    ∃ o hs, make g c hits = some o ∧ hs.Nodup ∧ (∀ h, h ∈ hs ↔ IsLast g c hits t h) ∧ (o.spts.map SP.id).Nodup ∧
      List.Forall₂ (fun h p => ∃ l, assoc o.hitMap p.id = some l ∧ Merged g c hits t h l ∧ p = point g true l p.id) hs o.spts := by
  obtain ⟨s, hR, hs0, hmk⟩ := before (c := c) (hits := hits) ht h3
  obtain ⟨hs, k1, k2, k3, k4⟩ := keys_lasts hR hid
  obtain ⟨o, rest, f1, f2, f3, f4, f5, f6⟩ := merge_fold hR h3 hid hp hs0 hs (fun h hh => ⟨k3 h hh, (k4 h).1 hh⟩)
  refine ⟨o, hs, ?_, k2, k4, ?_, f6⟩
  · rw [hmk]
    unfold transfer
    rw [hf, hm, ← k1]
    simpa using f1
  · rw [f5]
    refine List.nodup_range.map ?_
    intro i j h
    have h : (s.map.length : Int) + i - 1 = s.map.length + j - 1 := h
    omega

example : (make (exGeo3 1) { exCfg with merge := true } exHits2).map (fun s => s.spts.map (fun p => (p.id, (assoc s.hitMap p.id).map (List.map Hit.id)))) =
    some [(1, some [0, 1, 2, 3])] := by
  decide +kernel

/-- **C156, two-view points cannot be merged.** With one TPC of at most three planes, merging two-view points always ends in the exception "hit already
present". -/
theorem merge_two_view_throws (g : Geo) (c : Cfg) (hits : List Hit) (hf : c.filter = false) (hm : c.merge = true) (t : Nat) (ht : g.tpcs = [t])
    (h3 : g.nplane t ≤ 3) (hp : pairs g c hits t ≠ []) : make g c hits = none := by
  obtain ⟨s, hR, hs0, hmk⟩ := before (c := c) (hits := hits) ht h3
  have htr : triples g c hits t = [] := (not_both g c hits t h3).resolve_left hp
  have hlen : (items g c hits t).length = (pairs g c hits t).length := by
    unfold items; rw [htr]; simp
  have hpos : 0 < (pairs g c hits t).length := List.length_pos_of_ne_nil hp
  have hb : ∀ n (hn : n < (items g c hits t).length), ((items g c hits t)[n]).1 = false := by
    intro n hn
    have : (items g c hits t)[n] ∈ items g c hits t := List.getElem_mem hn
    generalize (items g c hits t)[n] = x at this
    unfold items at this
    rw [htr] at this
    simp only [List.map_nil, List.append_nil] at this
    obtain ⟨_, _, e⟩ := List.mem_map.1 this
    rw [← e]
  have htaken : ((s.map.length + s.spts.length : Nat) : Int) - 1 ∈ s.hitMap.map Prod.fst := by
    rw [hR.ids]
    refine ⟨(items g c hits t).length - 1, by omega, ?_⟩
    rw [hb, hR.len, hs0]
    unfold idOf
    simp
    omega
  have hkeys : keys s.map ≠ [] := by
    have h0 : 0 < (items g c hits t).length := by omega
    exact List.ne_nil_of_mem (mem_keys.2 ⟨_, hR.mem_map.2 ⟨0, h0, rfl, rfl⟩⟩)
  rw [hmk]
  unfold transfer
  rw [hf, hm]
  simp only [Bool.false_eq_true, if_false, if_true]
  cases hk : keys s.map with
  | nil => exact absurd hk hkeys
  | cons k ks =>
    rw [List.foldlM_cons]
    have : mergeOne g s k = none := by
      unfold mergeOne
      cases mergedHits s k with
      | none => rfl
      | some l =>
        show (remember s.hitMap (((s.map.length + s.spts.length : Nat) : Int) - 1) l >>= _) = _
        unfold remember
        rw [if_pos htaken]
        rfl
    rw [this]
    rfl

/-- the two-view case is met: two planes with hits, one pair -/
example : pairs (exGeo3 1) { exCfg with merge := true, minViews := 2 } [⟨0, 0, 0, 0, 4, 10, 1⟩, ⟨1, 0, 1, 1, 2, 11, 1⟩] 0 ≠ [] := by decide +kernel

/-- **C156, several TPCs.** With two TPCs that each have one three-view combination, merging ends in the exception. -/
theorem merge_tpcs_refuted : ∃ (g : Geo) (c : Cfg) (hits : List Hit), (hits.map Hit.id).Nodup ∧ c.filter = false ∧ c.merge = true ∧ g.tpcs = [0, 1] ∧
    (∀ t ∈ g.tpcs, pairs g c hits t = [] ∧ (triples g c hits t).length = 1) ∧ make g c hits = none := by
  refine ⟨exGeo3 2, { exCfg with merge := true }, exHits ++ [⟨3, 1, 0, 0, 4, 10, 1⟩, ⟨4, 1, 1, 1, 2, 11, 1⟩, ⟨5, 1, 2, 2, 4, 12, 1⟩], by decide +kernel, rfl, rfl,
    by decide +kernel, by decide +kernel, by decide +kernel⟩

end Verif.SpAlg

import Verif.CCrawl.HistProps
import Mathlib.Data.List.Perm.Subperm

/-! Properties of splitting, merging and compacting in ClusterCrawler: C269 - C274. -/

namespace Verif.CCrawl

theorem modify_last (l : List Cl) (c : Cl) (f : Cl → Cl) :
    (l ++ [c]).modify ((l ++ [c]).length - 1) f = l ++ [f c] := by
  rw [show (l ++ [c]).length - 1 = l.length by simp]
  induction l with
  | nil => rfl
  | cons a t ih => simp [List.modify_succ_cons]; simpa using ih

/-! ### C269 splitting -/

theorem storable_sub {s : St} {c : Cl} {l : List Nat} (hsub : l.Sublist c.hits) (hz : ∀ h ∈ l, s.inClus h = 0)
    (hnd : c.hits.Nodup) (hpl : ∀ h ∈ c.hits, (s.hit h).plane = c.plane) (hf : c.proc < 900 → Falling s.hit c.hits) :
    Storable s.hit s.inClus c.proc l :=
  ⟨hz, hsub.nodup hnd, fun a ha b hb => (hpl a (hsub.subset ha)).trans (hpl b (hsub.subset hb)).symm,
    fun hp => (hf hp).sublist hsub⟩

/-- C269: a live cluster split with at least three hits before the split and at least four after it is replaced by exactly
two clusters, with the hits before and from the split on, the vertex between them and the old vertices at the outer ends;
no other cluster changes, and no hit changes its cluster but to these. -/
theorem C269_split_partial {s : St} (I : Inv s) {icl pos : Nat} (ivx : Int) {c : Cl} (hc : s.tcl[icl]? = some c) (hp : 0 < c.id)
    (hf : c.proc < 900 → Falling s.hit c.hits) (hn : c.hits.length ≤ s.n) (hnum : s.num + 2 ≤ 32767)
    (h1 : 3 ≤ pos) (h2 : pos + 4 ≤ c.hits.length) :
    (split s icl pos ivx).1 = true ∧
    ∃ a b, (split s icl pos ivx).2.tcl = s.tcl.set icl { c with id := -c.id } ++ [a, b] ∧
      a.hits = c.hits.take pos ∧ b.hits = c.hits.drop pos ∧ a.id = (s.num : Int) + 1 ∧ b.id = (s.num : Int) + 2 ∧
      a.beginVtx = c.beginVtx ∧ a.endVtx = ivx ∧ b.beginVtx = ivx ∧ b.endVtx = c.endVtx ∧
      ∀ h, h ∉ c.hits → (split s icl pos ivx).2.inClus h = s.inClus h := by
  have hmem := List.mem_of_getElem? hc
  have hz := (C266_kill_restore I hc hp).1
  have hother := (C266_kill_restore I hc hp).2.1
  have I1 := inv_obsolete I icl
  have hon := obsolete_num s icl
  have htcl : (obsolete s icl).tcl = s.tcl.set icl { c with id := -c.id } := by rw [obsolete_live hc hp]
  unfold split
  simp only [hc]
  rw [if_neg (by omega : ¬ c.id < 0), if_pos (by omega : pos > 2)]
  generalize hs1 : obsolete s icl = s1 at *
  have hnd := I.nodup c hmem
  have hplc : ∀ h ∈ c.hits, (s1.hit h).plane = c.plane := by rw [hon.2.1]; exact I.plane c hmem
  have hst1 : (tmpStore s1 (c.hits.take pos) c.proc).1 = true := by
    rw [C263_stored_iff]
    refine ⟨by simp; omega, by rw [hon.2.2]; simp; omega, by omega, ?_⟩
    exact storable_sub (List.take_sublist _ _) (fun h hh => hz h (List.mem_of_mem_take hh)) hnd hplc
      (by rw [hon.2.1]; exact hf)
  rw [if_pos hst1]
  obtain ⟨f, l, _, _, e3, e4, e5, en, e6, e7⟩ := store_eq s1 (c.hits.take pos) c.proc hst1
  generalize tmpStore s1 (c.hits.take pos) c.proc = r at *
  have hdz : ∀ h ∈ c.hits.drop pos, r.2.inClus h = 0 := by
    intro h hh
    rw [e7 h (fun ht => (List.disjoint_take_drop hnd le_rfl) ht hh)]
    exact hz h (List.mem_of_mem_drop hh)
  unfold splitUS
  have hen : enoughUS pos c.hits.length = true := by
    unfold enoughUS
    rw [if_neg (by omega)]
    simp; omega
  rw [if_pos hen]
  have hany : ((c.hits.drop pos).any fun h =>
      (setVtx r.2 (r.2.tcl.length - 1) c.beginVtx ivx).inClus h ≠ 0) = false := by
    rw [List.any_eq_false]
    intro h hh
    have : (setVtx r.2 (r.2.tcl.length - 1) c.beginVtx ivx).inClus h = 0 := hdz h hh
    simp [this]
  rw [if_neg (by rw [hany]; simp)]
  generalize hs2 : setVtx r.2 (r.2.tcl.length - 1) c.beginVtx ivx = s2 at *
  have t2 : s2.tcl = s1.tcl ++ [⟨(s1.num : Int) + 1, c.proc, (s1.hit f).plane, (s1.hit f).wire, (s1.hit f).time, c.beginVtx,
        (s1.hit l).wire, (s1.hit l).time, ivx, c.hits.take pos⟩] := by
    rw [← hs2]
    unfold setVtx
    dsimp only
    rw [e3]
    rw [modify_last]
  have hn2 : s2.num = s1.num + 1 ∧ s2.n = s1.n ∧ s2.hit = s1.hit ∧ s2.inClus = r.2.inClus := by
    rw [← hs2]; exact ⟨e4, en, e5, rfl⟩
  have hst2 : (tmpStore s2 (c.hits.drop pos) c.proc).1 = true := by
    rw [C263_stored_iff]
    refine ⟨by simp; omega, by rw [hn2.2.1, hon.2.2]; simp; omega, by rw [hn2.1]; omega, ?_⟩
    refine storable_sub (List.drop_sublist _ _) ?_ hnd (by rw [hn2.2.2.1]; exact hplc) (by rw [hn2.2.2.1, hon.2.1]; exact hf)
    intro h hh
    rw [hn2.2.2.2]; exact hdz h hh
  rw [if_pos hst2]
  obtain ⟨f', l', _, _, g3, g4, g5, _, g6, g7⟩ := store_eq s2 (c.hits.drop pos) c.proc hst2
  generalize tmpStore s2 (c.hits.drop pos) c.proc = r2 at *
  refine ⟨rfl, ⟨(s1.num : Int) + 1, c.proc, (s1.hit f).plane, (s1.hit f).wire, (s1.hit f).time, c.beginVtx,
        (s1.hit l).wire, (s1.hit l).time, ivx, c.hits.take pos⟩,
        ⟨(s2.num : Int) + 1, c.proc, (s2.hit f').plane, (s2.hit f').wire, (s2.hit f').time, ivx,
        (s2.hit l').wire, (s2.hit l').time, c.endVtx, c.hits.drop pos⟩, ?_, rfl, rfl, ?_, ?_, rfl, rfl, rfl, rfl, ?_⟩
  · unfold setVtx
    dsimp only
    rw [g3]
    rw [modify_last]
    rw [t2, htcl]
    simp
  · dsimp only; rw [hon.1]
  · dsimp only; rw [hn2.1, hon.1]; push_cast; omega
  · intro h hh
    show r2.2.inClus h = s.inClus h
    rw [g7 h (fun hx => hh (List.mem_of_mem_drop hx)), hn2.2.2.2, e7 h (fun hx => hh (List.mem_of_mem_take hx)), hother h hh]

/-- C269: split at one of its first three hits, a cluster with not enough hits after the split is deleted, nothing is put
in its place, and success is reported. -/
theorem C269_lost {s : St} {icl pos : Nat} (ivx : Int) {c : Cl} (hc : s.tcl[icl]? = some c) (hp : 0 < c.id)
    (h1 : pos ≤ 2) (h2 : 3 ≤ c.hits.length) (h3 : c.hits.length ≤ pos + 3) :
    (split s icl pos ivx).1 = true ∧ (split s icl pos ivx).2.tcl = s.tcl.set icl { c with id := -c.id } ∧
      ∀ h ∈ c.hits, (split s icl pos ivx).2.inClus h = 0 := by
  unfold split
  simp only [hc]
  rw [if_neg (by omega : ¬ c.id < 0), if_neg (by omega : ¬ pos > 2)]
  have hen : enoughUS pos c.hits.length = false := by
    unfold enoughUS
    rw [if_neg (by omega)]
    simp; omega
  unfold splitUS
  rw [if_neg (by rw [hen]; simp), obsolete_live hc hp]
  refine ⟨rfl, rfl, ?_⟩
  intro h hh
  dsimp only
  rw [setAll_mem, if_pos hh]

/-- C269 (refuted): splitting a cluster of two hits between them deletes another cluster, the last one, and fails. -/
theorem C269_refuted : ¬ ∀ (H : Nat → Hit) (n : Nat) (ops : List Op) (icl pos : Nat) (ivx : Int) (j : Nat) (c : Cl),
    j ≠ icl → (ops.foldl step (start H n)).tcl[j]? = some c →
    (split (ops.foldl step (start H n)) icl pos ivx).2.tcl[j]? = some c := by
  intro h
  have := h exHit 10 [Op.store [0, 1] 0, Op.store [3, 4, 5, 6] 0] 0 1 7 1 ⟨2, 0, 0, 17, 103, -99, 14, 106, -99, [3, 4, 5, 6]⟩
    (by decide) (by decide +kernel)
  revert this
  decide +kernel

example : let s := [Op.store [0, 1, 2, 3, 4, 5, 6, 7] 0].foldl step (start exHit 10)
    (split s 0 4 7).2.tcl.map (fun c => (c.id, c.hits, c.beginVtx, c.endVtx)) =
    [(-1, [0, 1, 2, 3, 4, 5, 6, 7], -99, -99), (2, [0, 1, 2, 3], -99, 7), (3, [4, 5, 6, 7], 7, -99)] := by decide +kernel
example : let s := [Op.store [0, 1, 2, 3, 4] 0].foldl step (start exHit 10)
    (split s 0 2 7).1 = true ∧ (split s 0 2 7).2.tcl.map (fun c => c.id) = [-1] := by decide +kernel

/-! ### C270 merging -/

/-- the hits of the cluster are on falling wires, from its begin wire to its end wire -/
structure Along (H : Nat → Hit) (c : Cl) : Prop where
  falling : Falling H c.hits
  begin_ : ∀ f, c.hits.head? = some f → c.beginWir = (H f).wire
  end_ : ∀ l, c.hits.getLast? = some l → c.endWir = (H l).wire

theorem along_range {H : Nat → Hit} {c : Cl} (A : Along H c) {h : Nat} (hh : h ∈ c.hits) :
    c.endWir ≤ (H h).wire ∧ (H h).wire ≤ c.beginWir := by
  obtain ⟨hf, hb, he⟩ := A
  cases hl : c.hits with
  | nil => rw [hl] at hh; cases hh
  | cons a t =>
    rw [hl] at hf hb he hh
    have hb' := hb a rfl
    have hne : (a :: t) ≠ [] := by simp
    have he' := he _ (List.getLast?_eq_some_getLast hne)
    refine ⟨?_, ?_⟩
    · rw [he']
      have hd : (a :: t) = (a :: t).dropLast ++ [(a :: t).getLast hne] := (List.dropLast_append_getLast hne).symm
      rw [hd] at hh hf
      rcases List.mem_append.mp hh with h1 | h1
      · have := (List.pairwise_append.mp hf).2.2 h h1 _ (List.mem_singleton.mpr rfl)
        exact le_of_lt this
      · rw [List.mem_singleton.mp h1]
    · rw [hb']
      rcases List.mem_cons.mp hh with rfl | h1
      · exact le_rfl
      · exact le_of_lt ((List.pairwise_cons.mp hf).1 h h1)

/-- a hit of the list with that wire -/
theorem foldl_wire (H : Nat → Hit) (lo : Nat) (l : List Nat) (hlo : ∀ h ∈ l, lo ≤ (H h).wire) (f : Nat → Option Nat) (k : Nat) :
    ((∀ h ∈ l, (H h).wire ≠ lo + k) →
      l.foldl (fun f h => Function.update f ((H h).wire - lo) (some h)) f k = f k) ∧
    ((∃ h ∈ l, (H h).wire = lo + k) → ∃ h ∈ l, (H h).wire = lo + k ∧
      l.foldl (fun f h => Function.update f ((H h).wire - lo) (some h)) f k = some h) := by
  induction l generalizing f with
  | nil => simp
  | cons a t ih =>
    have hlo' : ∀ h ∈ t, lo ≤ (H h).wire := fun h hh => hlo h (by simp [hh])
    have ha := hlo a (by simp)
    rw [List.foldl_cons]
    obtain ⟨i1, i2⟩ := ih hlo' (Function.update f ((H a).wire - lo) (some a))
    constructor
    · intro h
      rw [i1 (fun x hx => h x (by simp [hx]))]
      have := h a (by simp)
      exact Function.update_of_ne (by omega) _ _
    · intro _
      by_cases ht : ∃ h ∈ t, (H h).wire = lo + k
      · obtain ⟨x, hx, e1, e2⟩ := i2 ht
        exact ⟨x, by simp [hx], e1, e2⟩
      · push Not at ht
        rename_i hex
        obtain ⟨x, hx, ex⟩ := hex
        have hxa : x = a := by
          rcases List.mem_cons.mp hx with e | e
          · exact e
          · exact absurd ex (ht x e)
        subst hxa
        refine ⟨x, by simp, ex, ?_⟩
        rw [i1 ht, show (H x).wire - lo = k by omega, Function.update_self]

/-- which hit stands for a wire: the one of the first cluster, else the one of the second -/
theorem wireHit_iff {H : Nat → Hit} {lo : Nat} {h1 h2 : List Nat} (hlo : ∀ h ∈ h2 ++ h1, lo ≤ (H h).wire)
    (u1 : Falling H h1) (u2 : Falling H h2) (k x : Nat) :
    wireHit H lo h1 h2 k = some x ↔ (H x).wire = lo + k ∧ (x ∈ h1 ∨ (x ∈ h2 ∧ ∀ y ∈ h1, (H y).wire ≠ lo + k)) := by
  have inj : ∀ l : List Nat, Falling H l → ∀ a ∈ l, ∀ b ∈ l, (H a).wire = (H b).wire → a = b := by
    intro l hl
    induction l with
    | nil => simp
    | cons c t ih =>
      have hp := List.pairwise_cons.mp hl
      intro a ha b hb e
      rcases List.mem_cons.mp ha with rfl | ha' <;> rcases List.mem_cons.mp hb with rfl | hb'
      · rfl
      · have := hp.1 b hb'; omega
      · have := hp.1 a ha'; omega
      · exact ih hp.2 a ha' b hb' e
  have hlo1 : ∀ h ∈ h1, lo ≤ (H h).wire := fun h hh => hlo h (by simp [hh])
  have hlo2 : ∀ h ∈ h2, lo ≤ (H h).wire := fun h hh => hlo h (by simp [hh])
  unfold wireHit
  rw [List.foldl_append]
  generalize hg : h2.foldl (fun f h => Function.update f ((H h).wire - lo) (some h)) (fun _ => none) = g
  obtain ⟨a1, a2⟩ := foldl_wire H lo h1 hlo1 g k
  obtain ⟨b1, b2⟩ := foldl_wire H lo h2 hlo2 (fun _ => none) k
  rw [hg] at b1 b2
  by_cases e1 : ∃ h ∈ h1, (H h).wire = lo + k
  · obtain ⟨y, hy, ey, ey'⟩ := a2 e1
    rw [ey']
    constructor
    · rintro h
      cases h
      exact ⟨ey, Or.inl hy⟩
    · rintro ⟨ex, hx | ⟨hx, hx'⟩⟩
      · rw [inj h1 u1 x hx y hy (by omega)]
      · exact absurd ey (hx' y hy)
  · push Not at e1
    rw [a1 e1]
    by_cases e2 : ∃ h ∈ h2, (H h).wire = lo + k
    · obtain ⟨y, hy, ey, ey'⟩ := b2 e2
      rw [ey']
      constructor
      · intro h
        cases h
        exact ⟨ey, Or.inr ⟨hy, e1⟩⟩
      · rintro ⟨ex, hx | ⟨hx, _⟩⟩
        · exact absurd ex (e1 x hx)
        · rw [inj h2 u2 x hx y hy (by omega)]
    · push Not at e2
      rw [b1 e2]
      constructor
      · intro h; cases h
      · rintro ⟨ex, hx | ⟨hx, _⟩⟩
        · exact absurd ex (e1 x hx)
        · exact absurd ex (e2 x hx)

/-- the hits of the merged cluster: those of the first cluster and those of the second on wires where the first has none -/
theorem mem_mergedHits {H : Nat → Hit} {c1 c2 : Cl} (A1 : Along H c1) (A2 : Along H c2) (x : Nat) :
    x ∈ mergedHits H (min c1.endWir c2.endWir) (max c1.beginWir c2.beginWir) c1.hits c2.hits ↔
      x ∈ c1.hits ∨ (x ∈ c2.hits ∧ ∀ y ∈ c1.hits, (H y).wire ≠ (H x).wire) := by
  have hlo : ∀ h ∈ c2.hits ++ c1.hits, min c1.endWir c2.endWir ≤ (H h).wire := by
    intro h hh
    rcases List.mem_append.mp hh with hh | hh
    · have := along_range A2 hh; omega
    · have := along_range A1 hh; omega
  unfold mergedHits
  rw [List.mem_filterMap]
  constructor
  · rintro ⟨k, _, hk⟩
    obtain ⟨e, h⟩ := (wireHit_iff hlo A1.falling A2.falling k x).mp hk
    rw [e]; exact h
  · intro h
    have hr : min c1.endWir c2.endWir ≤ (H x).wire ∧ (H x).wire ≤ max c1.beginWir c2.beginWir := by
      rcases h with h | ⟨h, _⟩
      · have := along_range A1 h; omega
      · have := along_range A2 h; omega
    refine ⟨(H x).wire - min c1.endWir c2.endWir, by simp; omega, ?_⟩
    rw [wireHit_iff hlo A1.falling A2.falling]
    have e : min c1.endWir c2.endWir + ((H x).wire - min c1.endWir c2.endWir) = (H x).wire := by omega
    rw [e]
    exact ⟨rfl, h⟩

theorem falling_mergedHits {H : Nat → Hit} {c1 c2 : Cl} (A1 : Along H c1) (A2 : Along H c2) :
    Falling H (mergedHits H (min c1.endWir c2.endWir) (max c1.beginWir c2.beginWir) c1.hits c2.hits) := by
  have hlo : ∀ h ∈ c2.hits ++ c1.hits, min c1.endWir c2.endWir ≤ (H h).wire := by
    intro h hh
    rcases List.mem_append.mp hh with hh | hh
    · have := along_range A2 hh; omega
    · have := along_range A1 hh; omega
  unfold mergedHits Falling
  rw [List.pairwise_filterMap]
  have hp : ((List.range (max c1.beginWir c2.beginWir + 2 - min c1.endWir c2.endWir)).reverse).Pairwise (fun a b => b < a) := by
    rw [List.pairwise_reverse]
    exact List.pairwise_lt_range
  refine hp.imp ?_
  intro a b hab x hx y hy
  have ex := ((wireHit_iff hlo A1.falling A2.falling a x).mp hx).1
  have ey := ((wireHit_iff hlo A1.falling A2.falling b y).mp hy).1
  omega

theorem falling_nodup {H : Nat → Hit} {l : List Nat} (h : Falling H l) : l.Nodup := by
  refine List.Pairwise.imp ?_ h
  intro a b hab e
  rw [e] at hab
  omega

theorem nodup_length_le {l : List Nat} {n : Nat} (hn : l.Nodup) (h : ∀ x ∈ l, x < n) : l.length ≤ n := by
  have hs : l ⊆ List.range n := by
    intro x hx
    exact List.mem_range.mpr (h x hx)
  have := (List.subperm_of_subset hn hs).length_le
  rwa [List.length_range] at this

/-- the last cluster with another processor code -/
def withProc (s : St) (q : Int) : St :=
  { s with tcl := s.tcl.modify (s.tcl.length - 1) fun c => { c with proc := q } }

/-- C270: two live clusters of one plane, each of at least three hits on falling wires, that pass the fit are replaced by one:
its hits are those of the first and those of the second on wires where the first has none, in falling order of the wires, each
marked with its number; all other hits of the second are free.  It has the begin vertex of the cluster that begins at the
higher wire and the end vertex of the other. -/
theorem C270_merged {s : St} (I : Inv s) {i1 i2 : Nat} {c1 c2 : Cl} (p q : Int) (h1 : s.tcl[i1]? = some c1)
    (h2 : s.tcl[i2]? = some c2) (hne : i1 ≠ i2) (p1 : 0 < c1.id) (p2 : 0 < c2.id) (hpl : c1.plane = c2.plane)
    (A1 : Along s.hit c1) (A2 : Along s.hit c2) (l1 : 3 ≤ c1.hits.length) (l2 : 3 ≤ c2.hits.length)
    (hb : ∀ h ∈ c1.hits ++ c2.hits, h < s.n) (hnum : s.num < 32767) :
    let s' := doMerge s i1 i2 p q true
    ∃ m, s'.tcl = (s.tcl.set i1 { c1 with id := -c1.id }).set i2 { c2 with id := -c2.id } ++ [m] ∧
      m.id = (s.num : Int) + 1 ∧ m.proc = q ∧ Falling s.hit m.hits ∧
      (∀ x, x ∈ m.hits ↔ x ∈ c1.hits ∨ (x ∈ c2.hits ∧ ∀ y ∈ c1.hits, (s.hit y).wire ≠ (s.hit x).wire)) ∧
      (∀ x ∈ m.hits, s'.inClus x = m.id) ∧ (∀ x ∈ c2.hits, x ∉ m.hits → s'.inClus x = 0) ∧
      (∀ x, x ∉ c1.hits → x ∉ c2.hits → s'.inClus x = s.inClus x) ∧
      (m.beginVtx, m.endVtx) =
        if c2.beginWir ≤ c1.beginWir then (c1.beginVtx, c2.endVtx) else (c2.beginVtx, c1.endVtx) := by
  intro s'
  have hmem1 := List.mem_of_getElem? h1
  have hmem2 := List.mem_of_getElem? h2
  have k1 := C266_kill_restore I h1 p1
  have I1 := inv_obsolete I i1
  have h2' : (obsolete s i1).tcl[i2]? = some c2 := by rw [obsolete_other i2 (Ne.symm hne)]; exact h2
  have k2 := C266_kill_restore I1 h2' p2
  have n1 := obsolete_num s i1
  have n2 := obsolete_num (obsolete s i1) i2
  have ht : (obsolete (obsolete s i1) i2).tcl = (s.tcl.set i1 { c1 with id := -c1.id }).set i2 { c2 with id := -c2.id } := by
    rw [obsolete_live h2' p2, obsolete_live h1 p1]
  have hdis := live_disjoint I h1 h2 hne p1 p2
  have hmh := mem_mergedHits A1 A2
  have hfm := falling_mergedHits A1 A2
  generalize hs1 : obsolete (obsolete s i1) i2 = s1 at *
  have hz1 : ∀ h ∈ c1.hits, s1.inClus h = 0 := by
    intro h hh
    rw [k2.2.1 h (hdis h hh)]; exact k1.1 h hh
  have hz2 : ∀ h ∈ c2.hits, s1.inClus h = 0 := k2.1
  generalize hL : mergedHits s.hit (min c1.endWir c2.endWir) (max c1.beginWir c2.beginWir) c1.hits c2.hits = L at *
  have hsub : ∀ x ∈ L, x ∈ c1.hits ∨ x ∈ c2.hits := by
    intro x hx
    rcases (hmh x).mp hx with h | h
    · exact Or.inl h
    · exact Or.inr h.1
  have hlen : 3 ≤ L.length := by
    have : (c1.hits.Subperm L) := List.subperm_of_subset (falling_nodup A1.falling) (fun x hx => (hmh x).mpr (Or.inl hx))
    exact le_trans l1 this.length_le
  have hst : (tmpStore s1 L p).1 = true := by
    rw [C263_stored_iff]
    refine ⟨by omega, ?_, by omega, ?_, falling_nodup hfm, ?_, ?_⟩
    · rw [n2.2.2, n1.2.2]
      refine nodup_length_le (falling_nodup hfm) ?_
      intro x hx
      rcases hsub x hx with h | h
      · exact hb x (by simp [h])
      · exact hb x (by simp [h])
    · intro x hx
      rcases hsub x hx with h | h
      · exact hz1 x h
      · exact hz2 x h
    · have : ∀ x ∈ L, (s1.hit x).plane = c1.plane := by
        intro x hx
        rw [n2.2.1, n1.2.1]
        rcases hsub x hx with h | h
        · exact I.plane c1 hmem1 x h
        · rw [hpl]; exact I.plane c2 hmem2 x h
      intro a ha b hb'
      rw [this a ha, this b hb']
    · intro _
      rw [n2.2.1, n1.2.1]; exact hfm
  obtain ⟨f, l, _, _, e3, e4, e5, _, e6, e7⟩ := store_eq s1 L p hst
  have hs' : s' = (if !decide (c2.beginWir > c1.beginWir)
      then setVtx (withProc (tmpStore s1 L p).2 q) ((tmpStore s1 L p).2.tcl.length - 1) c1.beginVtx c2.endVtx
      else setVtx (withProc (tmpStore s1 L p).2 q) ((tmpStore s1 L p).2.tcl.length - 1) c2.beginVtx c1.endVtx) := by
    show doMerge s i1 i2 p q true = _
    unfold doMerge mergeRange
    simp only [h1, h2]
    rw [if_neg (by omega), if_neg (by simp), hs1, hL, if_pos hst]
    rfl
  generalize tmpStore s1 L p = r at *
  have hset : ∀ b e : Int, (setVtx (withProc r.2 q)
      (r.2.tcl.length - 1) b e).tcl = s1.tcl ++ [⟨(s1.num : Int) + 1, q, (s1.hit f).plane, (s1.hit f).wire,
        (s1.hit f).time, b, (s1.hit l).wire, (s1.hit l).time, e, L⟩] := by
    intro b e
    unfold setVtx withProc
    dsimp only
    rw [e3]
    generalize hk : (s1.tcl ++ [_]).length - 1 = k
    rw [← hk, modify_last]
    have : ∀ (a b : Cl), (s1.tcl ++ [a]).length - 1 = (s1.tcl ++ [b]).length - 1 := by intro a b; simp
    rw [this _ { id := (s1.num : Int) + 1, proc := q, plane := (s1.hit f).plane, beginWir := (s1.hit f).wire, beginTim := (s1.hit f).time, beginVtx := -99, endWir := (s1.hit l).wire, endTim := (s1.hit l).time, endVtx := -99, hits := L }, modify_last]
  have hic : s'.inClus = r.2.inClus := by
    rw [hs']; split <;> rfl
  have hnum1 : (s1.num : Int) = s.num := by rw [n2.1, n1.1]
  have hrest : ∀ b e : Int, s'.tcl = (setVtx (withProc r.2 q)
      (r.2.tcl.length - 1) b e).tcl →
      ((b, e) = if c2.beginWir ≤ c1.beginWir then (c1.beginVtx, c2.endVtx) else (c2.beginVtx, c1.endVtx)) →
      ∃ m, s'.tcl = (s.tcl.set i1 { c1 with id := -c1.id }).set i2 { c2 with id := -c2.id } ++ [m] ∧
      m.id = (s.num : Int) + 1 ∧ m.proc = q ∧ Falling s.hit m.hits ∧
      (∀ x, x ∈ m.hits ↔ x ∈ c1.hits ∨ (x ∈ c2.hits ∧ ∀ y ∈ c1.hits, (s.hit y).wire ≠ (s.hit x).wire)) ∧
      (∀ x ∈ m.hits, s'.inClus x = m.id) ∧ (∀ x ∈ c2.hits, x ∉ m.hits → s'.inClus x = 0) ∧
      (∀ x, x ∉ c1.hits → x ∉ c2.hits → s'.inClus x = s.inClus x) ∧
      (m.beginVtx, m.endVtx) =
        if c2.beginWir ≤ c1.beginWir then (c1.beginVtx, c2.endVtx) else (c2.beginVtx, c1.endVtx) := by
    intro b e hbe hv
    refine ⟨_, by rw [hbe, hset, ht], by dsimp only; rw [hnum1], rfl, hfm, hmh, ?_, ?_, ?_, hv⟩
    · intro x hx
      rw [hic, e6 x hx]
    · intro x hx hxL
      rw [hic, e7 x hxL]; exact hz2 x hx
    · intro x hx1 hx2
      rw [hic, e7 x (fun hx => (hsub x hx).elim hx1 hx2), k2.2.1 x hx2, k1.2.1 x hx1]
  by_cases hbw : c2.beginWir ≤ c1.beginWir
  · refine hrest c1.beginVtx c2.endVtx ?_ (by rw [if_pos hbw])
    rw [hs', if_pos (by simp; omega)]
  · refine hrest c2.beginVtx c1.endVtx ?_ (by rw [if_neg hbw])
    rw [hs', if_neg (by simp; omega)]

/-- C270: with 32767 clusters a merge deletes both clusters and puts nothing in their place. -/
theorem C270_limit {s : St} {i1 i2 : Nat} {c1 c2 : Cl} (p q : Int) (h1 : s.tcl[i1]? = some c1)
    (h2 : s.tcl[i2]? = some c2) (l1 : 3 ≤ c1.hits.length) (l2 : 3 ≤ c2.hits.length) (hnum : s.num = 32767) :
    (doMerge s i1 i2 p q true).tcl = (obsolete (obsolete s i1) i2).tcl := by
  unfold doMerge
  simp only [h1, h2]
  rw [if_neg (by omega), if_neg (by simp)]
  generalize mergedHits s.hit (mergeRange c1 c2).1 (mergeRange c1 c2).2.1 c1.hits c2.hits = L
  have hf : (tmpStore (obsolete (obsolete s i1) i2) L p).1 = false := by
    by_contra hc
    have := ((C263_stored_iff _ _ _).mp (by simpa using hc)).2.2.1
    rw [(obsolete_num _ _).1, (obsolete_num _ _).1] at this
    exact this hnum
  rw [if_neg (by rw [hf]; simp)]
  exact (store_fail _ _ _ hf).1

example : let s := [Op.store [0, 1, 2] 0, Op.store [3, 4, 5] 0].foldl step (start exHit 10)
    (doMerge s 0 1 0 50 true).tcl.map (fun c => (c.id, c.hits)) =
    [(-1, [0, 1, 2]), (-2, [3, 4, 5]), (3, [0, 1, 2, 3, 4, 5])] := by decide +kernel
/-- the cluster of the example meets the hypothesis -/
example : Along exHit ⟨1, 0, 0, 20, 100, -99, 18, 102, -99, [0, 1, 2]⟩ :=
  ⟨by unfold Falling; decide +kernel, by intro f h; cases h; rfl, by intro f h; cases h; rfl⟩

/-! ### C271 the vertices of merged clusters -/

/-- C271 (part): the cluster made of two overlapping ones has the begin vertex of the downstream one. -/
theorem C271_overlap_begin_partial {s : St} {i j : Nat} {ci cj : Cl} (hits : List Nat) (hi : s.tcl[i]? = some ci)
    (hj : s.tcl[j]? = some cj) (pi : 0 < ci.id) (pj : 0 < cj.id)
    (h : s.tcl.length < (mergeOverlap s i j hits).tcl.length) :
    ∃ m, (mergeOverlap s i j hits).tcl.getLast? = some m ∧ m.beginVtx = cj.beginVtx ∧ m.hits = hits := by
  unfold mergeOverlap at h ⊢
  simp only [hi, hj] at h ⊢
  rw [if_neg (by omega)] at h ⊢
  split at h
  · rename_i hs
    rw [if_pos hs]
    obtain ⟨f, l, _, _, e3, _⟩ := store_eq _ _ _ hs
    generalize tmpStore (obsolete (obsolete s i) j) hits (ci.proc + 500) = r at *
    unfold setVtx
    dsimp only
    rw [e3]
    generalize obsolete (obsolete s i) j = s1 at *
    rw [modify_last]
    simp
  · rename_i hf
    exfalso
    have rlen : ∀ (t : St) k, (restore t k).tcl.length = t.tcl.length := by
      intro t k
      unfold restore
      split
      · split <;> simp
      · rfl
    rw [rlen, rlen, (store_fail _ _ _ (by simpa using hf)).1, obsolete_len, obsolete_len] at h
    omega

/-- C271 (refuted): its end vertex is the begin vertex of the upstream cluster, not the end vertex. -/
theorem C271_refuted : ¬ ∀ (s : St) (i j : Nat) (ci cj : Cl) (hits : List Nat), Inv s → s.tcl[i]? = some ci →
    s.tcl[j]? = some cj → s.tcl.length < (mergeOverlap s i j hits).tcl.length →
    ∃ m, (mergeOverlap s i j hits).tcl.getLast? = some m ∧ m.endVtx = ci.endVtx := by
  intro h
  let s : St := setVtx ([Op.store [0, 1, 2] 0, Op.store [3, 4, 5] 0].foldl step (start exHit 10)) 1 3 5
  have I : Inv s := inv_setVtx (inv_history exHit 10 _) _ _ _
  have := h s 1 0 ⟨2, 0, 0, 17, 103, 3, 15, 105, 5, [3, 4, 5]⟩ ⟨1, 0, 0, 20, 100, -99, 18, 102, -99, [0, 1, 2]⟩
    [0, 1, 2, 3, 4, 5] I (by decide +kernel) (by decide +kernel) (by decide +kernel)
  obtain ⟨m, hm, he⟩ := this
  have : (mergeOverlap s 1 0 [0, 1, 2, 3, 4, 5]).tcl.getLast? =
      some ⟨3, 500, 0, 20, 100, -99, 15, 105, 3, [0, 1, 2, 3, 4, 5]⟩ := by decide +kernel
  rw [this] at hm
  cases hm
  revert he
  decide

/-! ### C273 shortening -/

/-- C273 (part): if the shortened cluster can be stored, it takes the place of the old one: its first hits, with the vertex
at its end. -/
theorem C273_shorten_partial {s : St} {icl k : Nat} (iv : Int) {c : Cl} (hc : s.tcl[icl]? = some c) (hp : 0 < c.id)
    (h : s.tcl.length < (shorten s icl k iv).tcl.length) :
    ∃ m, (shorten s icl k iv).tcl = s.tcl.set icl { c with id := -c.id } ++ [m] ∧ m.hits = c.hits.take k ∧ m.endVtx = iv := by
  unfold shorten at h ⊢
  simp only [hc] at h ⊢
  rw [if_neg (by omega)] at h ⊢
  simp only [List.length_modify] at h
  have hs : (tmpStore (obsolete s icl) (c.hits.take k) (c.proc + 700)).1 = true := by
    by_contra hf
    rw [(store_fail _ _ _ (by simpa using hf)).1, obsolete_len] at h
    omega
  obtain ⟨f, l, _, _, e3, _⟩ := store_eq _ _ _ hs
  generalize tmpStore (obsolete s icl) (c.hits.take k) (c.proc + 700) = r at *
  have ht : (obsolete s icl).tcl = s.tcl.set icl { c with id := -c.id } := by rw [obsolete_live hc hp]
  generalize obsolete s icl = s1 at *
  dsimp only
  rw [e3]
  rw [modify_last, ht]
  exact ⟨_, rfl, rfl, rfl⟩

/-- C273 (refuted): if only one hit is left the shortened cluster is not stored, the old one is gone, and the vertex is given
to another cluster. -/
theorem C273_refuted : ¬ ∀ (H : Nat → Hit) (n : Nat) (ops : List Op) (icl k : Nat) (iv : Int) (j : Nat) (c : Cl),
    j ≠ icl → (ops.foldl step (start H n)).tcl[j]? = some c →
    (shorten (ops.foldl step (start H n)) icl k iv).tcl[j]? = some c := by
  intro h
  have := h exHit 10 [Op.store [0, 1, 2] 0, Op.store [3, 4, 5, 6] 0] 0 1 7 1 ⟨2, 0, 0, 17, 103, -99, 14, 106, -99, [3, 4, 5, 6]⟩
    (by decide) (by decide +kernel)
  revert this
  decide +kernel

/-! ### C274 duplicates -/

/-- C274: the check for duplicate hits finds them exactly if a hit comes twice. -/
theorem C274_duplicates (hits : List Nat) : duplicates hits = true ↔ ¬ hits.Nodup := by
  unfold duplicates
  have key : ∀ (l seen : List Nat) (n : Nat),
      (l.foldl (fun (r : List Nat × Nat) h => (h :: r.1, if h ∈ r.1 then r.2 + 1 else r.2)) (seen, n)).2 ≥ n ∧
      ((l.foldl (fun (r : List Nat × Nat) h => (h :: r.1, if h ∈ r.1 then r.2 + 1 else r.2)) (seen, n)).2 = n ↔
        l.Nodup ∧ ∀ h ∈ l, h ∉ seen) := by
    intro l
    induction l with
    | nil => simp
    | cons a t ih =>
      intro seen n
      rw [List.foldl_cons]
      by_cases ha : a ∈ seen
      · rw [if_pos ha]
        obtain ⟨k1, _⟩ := ih (a :: seen) (n + 1)
        dsimp only at k1 ⊢
        refine ⟨by omega, ?_⟩
        constructor
        · intro e; omega
        · rintro ⟨_, h⟩
          exact absurd ha (h a (by simp))
      · rw [if_neg ha]
        obtain ⟨k1, k2⟩ := ih (a :: seen) n
        refine ⟨k1, k2.trans ?_⟩
        rw [List.nodup_cons]
        constructor
        · rintro ⟨h1, h2⟩
          refine ⟨⟨fun hat => h2 a hat (by simp), h1⟩, ?_⟩
          intro h hh
          rcases List.mem_cons.mp hh with rfl | hh
          · exact ha
          · intro hs; exact h2 h hh (by simp [hs])
        · rintro ⟨⟨h1, h2⟩, h3⟩
          refine ⟨h2, ?_⟩
          intro h hh hs
          rcases List.mem_cons.mp hs with rfl | hs
          · exact h1 hh
          · exact h3 h (by simp [hh]) hs
  obtain ⟨k1, k2⟩ := key hits [] 0
  simp only [List.not_mem_nil, not_false_eq_true, implies_true, and_true] at k2
  rw [← k2]
  simp only [decide_eq_true_eq]
  omega

example : duplicates [3, 5, 3] = true ∧ duplicates [3, 5, 4] = false := by decide +kernel

/-- C273: a cluster replaced by one with other hits is kept, obsolete, and the new one has its begin vertex, the end vertex
given, else that of the old one; no other cluster changes. -/
theorem C273_replaced {s : St} {i : Nat} {c : Cl} (hits : List Nat) (add : Int) (e : Option Int) (h : s.tcl[i]? = some c)
    (hp : 0 < c.id) (hs : s.tcl.length < (replaceCl s i hits add e).tcl.length) :
    ∃ m, (replaceCl s i hits add e).tcl = s.tcl.set i { c with id := -c.id } ++ [m] ∧ m.hits = hits ∧
      m.id = (s.num : Int) + 1 ∧ m.proc = c.proc + add ∧ m.beginVtx = c.beginVtx ∧ m.endVtx = e.getD c.endVtx := by
  unfold replaceCl at hs ⊢
  rw [h] at hs ⊢
  simp only at hs ⊢
  rw [if_neg (by omega)] at hs ⊢
  have ho : obsolete s i = { s with tcl := s.tcl.set i { c with id := -c.id }, inClus := setAll s.inClus c.hits 0 } := by
    unfold obsolete; rw [h]; simp only; rw [if_neg (by omega)]
  rw [ho] at hs ⊢
  generalize hr : tmpStore { s with tcl := s.tcl.set i { c with id := -c.id }, inClus := setAll s.inClus c.hits 0 } hits (c.proc + add) = r at hs ⊢
  unfold tmpStore at hr
  split at hr
  · split at hr
    · subst hr; simp at hs
    · split at hr
      · subst hr; simp at hs
      · simp only at hr
        split at hr
        · subst hr
          rename_i a b t _ _ _
          refine ⟨{ newCl s.hit ((s.num : Int) + 1) (c.proc + add) a ((b :: t).getLastD b) (a :: b :: t) with
            beginVtx := c.beginVtx, endVtx := e.getD c.endVtx }, ?_, rfl, rfl, rfl, rfl, rfl⟩
          simp only [if_true, setVtx]
          simp [List.modify_eq_set_getElem?]
        · subst hr; simp at hs
  · subst hr; simp at hs

example : let s := [Op.store [0, 1, 2, 3] 0].foldl step (start exHit 10)
    (replaceCl s 0 [0, 1, 2] 700 (some 4)).tcl.map (fun c => (c.id, c.hits, c.beginVtx, c.endVtx)) =
    [(-1, [0, 1, 2, 3], -99, -99), (2, [0, 1, 2], -99, 4)] := by decide +kernel

end Verif.CCrawl

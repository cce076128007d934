import Verif.Track.StitchProofs
import Mathlib.Tactic.Linarith
/-!
# C148-C151: the theorems
-/
namespace Verif.Stitch

/-! ## C148 -/

/-- an end point with its direction: the first or the last of a track -/
def IsEnd (t : Trk) (p d : V3) : Prop := (p = t.start ∧ d = t.startDir) ∨ (p = t.stop ∧ d = t.stopDir)

/-- some end of `a` is nearer than the tolerance to some end of `b`, with directions aligned within the tolerance -/
def Touch (c : Cfg) (a b : Trk) : Prop := ∃ p d q e, IsEnd a p d ∧ IsEnd b q e ∧
  c.cos < |d.x * e.x + d.y * e.y + d.z * e.z| ∧ (p.x - q.x) ^ 2 + (p.y - q.y) ^ 2 + (p.z - q.z) ^ 2 < c.sep ^ 2

theorem touch_of_any {c : Cfg} {a b : Trk} (h : AnyMatch c a b) : Touch c a b := by
  have key : ∀ d e p q, matchEnds c d e p q = true → c.cos < |d.x * e.x + d.y * e.y + d.z * e.z| ∧
      (p.x - q.x) ^ 2 + (p.y - q.y) ^ 2 + (p.z - q.z) ^ 2 < c.sep ^ 2 := by
    intro d e p q hm
    simp only [matchEnds, V3.dot, dist2, Bool.and_eq_true] at hm
    exact ⟨of_decide_eq_true hm.1, of_decide_eq_true hm.2⟩
  rcases h with h | h | h | h
  · exact ⟨_, _, _, _, Or.inl ⟨rfl, rfl⟩, Or.inr ⟨rfl, rfl⟩, key _ _ _ _ h⟩
  · obtain ⟨h1, h2⟩ := key _ _ _ _ h
    exact ⟨_, _, _, _, Or.inr ⟨rfl, rfl⟩, Or.inl ⟨rfl, rfl⟩, h1, by nlinarith [h2]⟩
  · exact ⟨_, _, _, _, Or.inl ⟨rfl, rfl⟩, Or.inl ⟨rfl, rfl⟩, key _ _ _ _ h⟩
  · exact ⟨_, _, _, _, Or.inr ⟨rfl, rfl⟩, Or.inr ⟨rfl, rfl⟩, key _ _ _ _ h⟩

/-- **C148 (links join matching tracks), partial.** `fh` and `ft` have one entry per track; an entry is either empty, or names an end of a later track
of the event, one of whose ends is aligned with and close to an end of the track the entry belongs to. The full claim, that the two ends named
by the entry are the ones that match, fails (`link_ends_refuted`). -/
theorem links_partial (c : Cfg) (trks : List Trk) :
    (findLinks c trks).1.length = trks.length ∧ (findLinks c trks).2.length = trks.length ∧
    ∀ tab, tab = (findLinks c trks).1 ∨ tab = (findLinks c trks).2 → ∀ k (h : k < tab.length),
      (tab[k].lab = .NA ∧ tab[k].tgt = none) ∨
      (tab[k].lab ≠ .NA ∧ ∃ j a b, tab[k].tgt = some j ∧ k < j ∧ trks[k]? = some a ∧ trks[j]? = some b ∧ Touch c a b) := by
  obtain ⟨h1, h2⟩ := findLinks_good c trks
  refine ⟨h1.1, h2.1, ?_⟩
  rintro tab (rfl | rfl) k hk
  · rcases h1.2 k hk with h | ⟨h, j, a, b, r1, r2, r3, r4, r5⟩
    · exact Or.inl h
    · exact Or.inr ⟨h, j, a, b, r1, r2, r3, r4, touch_of_any r5⟩
  · rcases h2.2 k hk with h | ⟨h, j, a, b, r1, r2, r3, r4, r5⟩
    · exact Or.inl h
    · exact Or.inr ⟨h, j, a, b, r1, r2, r3, r4, touch_of_any r5⟩

/-- a track along x -/
def along (x1 x2 y : ℚ) : Trk := ⟨⟨x1, y, 0⟩, ⟨x2, y, 0⟩, ⟨1, 0, 0⟩, ⟨1, 0, 0⟩⟩
/-- the configuration of the examples -/
def exCfg : Cfg := ⟨9 / 10, 2⟩

/-- two tracks end to end -/
example : findLinks exCfg [along 0 10 0, along 10 20 0] = ([noLink, noLink], [⟨.H, some 1, 100⟩, noLink]) := by
  decide +kernel

/-- **C148, the ends named may not match.** Three tracks in one line, 1 before 0 before 2: the flag `head` set by track 1 is still set when track 2
is tried, the tie is split by comparing with the length of track 2, and the link of the start of track 0 to the end of track 1 is replaced
by one to the start of track 2, ten centimetres away with a tolerance of two; track 1 is linked to nothing. -/
theorem link_ends_refuted : ∃ (c : Cfg) (trks : List Trk) (a b : Trk) (l : Link), (findLinks c trks).1[0]? = some l ∧ l.lab = .H ∧ l.tgt = some 2 ∧
    trks[0]? = some a ∧ trks[2]? = some b ∧ c11 c a b = false ∧ c.sep ^ 2 < dist2 a.start b.start ∧
    (∃ m, trks[1]? = some m ∧ c12 c a m = true ∧ dist2 a.start m.stop = 0) := by
  refine ⟨exCfg, [along 0 10 0, along (-30) 0 0, along 10 40 0], along 0 10 0, along 10 40 0, ⟨.H, some 2, 100⟩, by decide +kernel, rfl, rfl, rfl, rfl,
    by decide +kernel, by decide +kernel, along (-30) 0 0, rfl, by decide +kernel, by decide +kernel⟩

/-! ## C149 -/

/-- **C149 (walking the links).** For every event and any `fuel` above the number of tracks: the walks end; composites, link lists and stitched tracks
are in step, with one link fewer than components; all components are tracks of the event; and every track of the event is a component of
at least one composite. -/
theorem walk_covers (c : Cfg) (trks : List Trk) (fuel : Nat) (hfuel : trks.length < fuel) :
    ∃ o done, walkStitch fuel (findLinks c trks).1 (findLinks c trks).2 = some (o, done) ∧
      o.hts.length = o.comps.length ∧ o.vec.length = o.comps.length ∧
      (∀ k (h : k < o.comps.length) (h' : k < o.hts.length), (o.hts[k]).length + 1 = (o.comps[k]).length) ∧
      (∀ cp ∈ o.comps, ∀ t ∈ cp, t < trks.length) ∧ (∀ t < trks.length, ∃ cp ∈ o.comps, t ∈ cp) := by
  obtain ⟨h1, h2⟩ := findLinks_good c trks
  obtain ⟨s, e, i⟩ := walkStitch_ok (goodTab_fwd h1) (goodTab_fwd h2) h1.1 hfuel
  refine ⟨s.1, s.2, e, i.valid.len, ?_, i.valid.pair, i.range, i.cover⟩
  rw [i.valid.vec, List.length_zipWith, i.valid.len]; simp

/-- three tracks in a row -/
example : (walkStitch 4 (findLinks exCfg [along 0 10 0, along 10 20 0, along 20 30 0]).1
    (findLinks exCfg [along 0 10 0, along 10 20 0, along 20 30 0]).2).map (fun s => s.1.comps) = some [[2, 1, 0]] := by
  decide +kernel

/-- **C149, repeats are not all removed.** The loop meant to protect against stitching a component twice removes one repeat per component and looks
at each once: a component met three times stays twice in the stitched track. -/
theorem repeats_refuted : ∃ (c : Cfg) (trks : List Trk) (o : Out) (done : List Nat),
    walkStitch (trks.length + 1) (findLinks c trks).1 (findLinks c trks).2 = some (o, done) ∧ ∃ cp ∈ o.comps, ¬ cp.Nodup := by
  have h : (walkStitch 6 (findLinks exCfg [along (3 / 2) 3 0, along 0 (3 / 2) 0, along 3 (3 / 2) 1, along (3 / 2) 0 1, along 3 (3 / 2) 1]).1
      (findLinks exCfg [along (3 / 2) 3 0, along 0 (3 / 2) 0, along 3 (3 / 2) 1, along (3 / 2) 0 1, along 3 (3 / 2) 1]).2).map (fun s => s.1.comps)
      = some [[0, 4], [4, 3, 2, 1, 4]] := by decide +kernel
  obtain ⟨s, e, hs⟩ := Option.map_eq_some_iff.1 h
  refine ⟨exCfg, _, s.1, s.2, e, [4, 3, 2, 1, 4], by rw [hs]; simp, by decide⟩

/-! ## C150 -/

/-- **C150 (joining composites that share a track), partial.** Starting from composites, links and stitched tracks in step, each successful call takes
away one composite, keeps the three in step and invents no component; repeated calls end, and then no track is in two composites. The full
claim, that no track is lost, fails (`join_loses_refuted`): it holds for a call whose common track is the first or the last of the later
composite. -/
theorem join_partial (o : Out) (h : Valid o) :
    (∀ o', commonStitch o = some o' → Valid o' ∧ o'.comps.length + 1 = o.comps.length ∧
      (∀ t, (∃ c ∈ o'.comps, t ∈ c) → ∃ c ∈ o.comps, t ∈ c) ∧
      (∀ i j a b, findCommon o.comps = some (i, j, a, b) → (b = 0 ∨ b = (o.comps.getD j []).length - 1) →
        ∀ t, (∃ c ∈ o.comps, t ∈ c) → ∃ c ∈ o'.comps, t ∈ c)) ∧
    (∀ fuel, o.comps.length < fuel → ∃ r, commonLoop fuel o = some r ∧ Valid r ∧
      (∀ i j, i < j → j < r.comps.length → ∀ t, t ∈ r.comps.getD i [] → t ∉ r.comps.getD j []) ∧
      (∀ t, (∃ c ∈ r.comps, t ∈ c) → ∃ c ∈ o.comps, t ∈ c)) := by
  refine ⟨?_, ?_⟩
  · intro o' ho'
    obtain ⟨h1, h2⟩ := commonStitch_ok h ho'
    exact ⟨h1.valid, h1.less, h1.sub, h2⟩
  · intro fuel
    induction fuel generalizing o with
    | zero => intro hf; omega
    | succ fuel ih =>
      intro hf
      rw [commonLoop]
      cases e : commonStitch o with
      | none =>
        refine ⟨o, rfl, h, ?_, fun t ht => ht⟩
        have hnone : findCommon o.comps = none := by
          unfold commonStitch at e
          split at e
          · assumption
          · cases e
        intro i j hij hj t h1 h2
        exact findCommon_none hnone hij hj t h1 h2
      | some o' =>
        obtain ⟨h1, _⟩ := commonStitch_ok h e
        obtain ⟨r, e', v, d, s⟩ := ih o' h1.valid (by have := h1.less; omega)
        exact ⟨r, e', v, d, fun t ht => h1.sub t (s t ht)⟩

/-- **C150 (the producer), partial.** For every event and any `fuel` above the number of tracks the whole stitching ends; its composites, links and
stitched tracks are in step, hold only tracks of the event and no track is in two composites; and when the walks alone leave no track in
two composites, every track is in a stitched track. -/
theorem run_partial (c : Cfg) (trks : List Trk) (fuel : Nat) (hfuel : trks.length < fuel) :
    ∃ r, run fuel c trks = some r ∧ Valid r ∧ (∀ cp ∈ r.comps, ∀ t ∈ cp, t < trks.length) ∧
      (∀ i j, i < j → j < r.comps.length → ∀ t, t ∈ r.comps.getD i [] → t ∉ r.comps.getD j []) ∧
      (∀ o done, walkStitch fuel (findLinks c trks).1 (findLinks c trks).2 = some (o, done) →
        (∀ i j, i < j → j < o.comps.length → ∀ t, t ∈ o.comps.getD i [] → t ∉ o.comps.getD j []) →
          ∀ t < trks.length, ∃ cp ∈ r.comps, t ∈ cp) := by
  obtain ⟨h1, h2⟩ := findLinks_good c trks
  obtain ⟨s, e, i⟩ := walkStitch_ok (goodTab_fwd h1) (goodTab_fwd h2) h1.1 hfuel
  obtain ⟨r, er, v, d, sub⟩ := (join_partial s.1 i.valid).2 fuel (by have := i.count; omega)
  refine ⟨r, ?_, v, ?_, d, ?_⟩
  · unfold run
    rw [e]
    exact er
  · intro cp hcp t ht
    obtain ⟨c', hc', ht'⟩ := sub t ⟨cp, hcp, ht⟩
    exact i.range c' hc' t ht'
  · intro o done ho hdis
    rw [e] at ho
    obtain rfl : s = (o, done) := Option.some.inj ho
    have hnone : findCommon o.comps = none := by
      cases hc : findCommon o.comps with
      | none => rfl
      | some q =>
        obtain ⟨i', j', a', b'⟩ := q
        obtain ⟨hij, hj, ha, hb, hab⟩ := findCommon_some hc
        exact absurd (List.getElem_mem hb) (by rw [← hab]; exact hdis i' j' hij hj _ (List.getElem_mem ha))
    have hro : r = o := by
      cases fuel with
      | zero => omega
      | succ fuel =>
        rw [commonLoop] at er
        have : commonStitch o = none := by unfold commonStitch; rw [hnone]
        rw [this] at er
        exact (Option.some.inj er).symm
    rw [hro]; exact i.cover

/-- two pairs of tracks side by side -/
example : run 10 exCfg [along 0 10 0, along 0 10 20, along 10 20 0, along 10 20 20]
    = some ⟨[[2, 0], [3, 1]], [[(.H, .T)], [(.H, .T)]], [[(2, true), (0, true)], [(3, true), (1, true)]]⟩ := by
  decide +kernel

/-- **C150, tracks are lost.** Tracks 0 and 1 both meet the start of track 2, and track 3 continues track 2: the composites are 0-2-3 and 3-2-1; the
common track 2 is in the middle of the second, so nothing is moved there from the first, which is erased all the same: track 0 is in no
stitched track. -/
theorem join_loses_refuted : ∃ (c : Cfg) (trks : List Trk) (o : Out), run (trks.length + 2) c trks = some o ∧ 0 < trks.length ∧
    ∀ cp ∈ o.comps, 0 ∉ cp := by
  refine ⟨exCfg, [along 0 (-10) (3 / 2), along (-10) 0 (-3 / 2), along 0 10 0, along 10 20 0],
    ⟨[[3, 2, 1]], [[(.H, .T), (.H, .T)]], [[(3, true), (2, true), (1, true)]]⟩, by decide +kernel, by decide, by decide⟩

/-! ## C151 -/

/-- the points of one component in a stitched track -/
def block {P : Type} (pts : Nat → List P) (q : Nat × Bool) : List P := if q.2 then (pts q.1).reverse else pts q.1

/-- the points of a stitched track, StitchAlg.cxx:280-305 -/
def points {P : Type} (pts : Nat → List P) (v : List (Nat × Bool)) : List P := v.flatMap (block pts)

/-- the end point named by a letter: "H" is the first point of the track, "T" the last -/
def endPoint {P : Type} (pts : Nat → List P) (t : Nat) : Lab → Option P
  | .T => (pts t).getLast?
  | _ => (pts t).head?

theorem firstStitch_fst (comp : List Nat) (ht : List (Lab × Lab)) : (firstStitch comp ht).map Prod.fst = comp := by
  unfold firstStitch
  apply List.ext_getElem
  · simp
  · intro i h1 h2; simp

theorem firstStitch_get (comp : List Nat) (ht : List (Lab × Lab)) (i : Nat) (h : i < (firstStitch comp ht).length) (h' : i < comp.length) :
    (firstStitch comp ht)[i] = (comp[i], if ht.length = 0 then false
      else if i = 0 then decide ((ht.getD 0 (.NA, .NA)).1 = .H) else decide ((ht.getD (i - 1) (.NA, .NA)).2 = .T)) := by
  unfold firstStitch
  simp

/-- **C151 (a stitched track is made of its components).** In any state in step, in particular after every walk and every joining, stitched track `k` is
composed of the components of composite `k` in order, each with all of its points, in order or reversed; so it has as many points as its components
together. The first block ends at the end its first link names and every later block starts at the end the link before it names. -/
theorem stitched_points {P : Type} (pts : Nat → List P) (o : Out) (h : Valid o) (k : Nat) (hk : k < o.comps.length) (hk' : k < o.hts.length)
    (hv : k < o.vec.length) :
    (o.vec[k]).map Prod.fst = o.comps[k] ∧
    (points pts o.vec[k]).length = ((o.comps[k]).map (fun t => (pts t).length)).sum ∧
    (points pts o.vec[k]).Perm ((o.comps[k]).flatMap pts) ∧
    (∀ (x y : Lab) (hl : 0 < (o.hts[k]).length) (h0 : 0 < (o.comps[k]).length) (hb : 0 < (o.vec[k]).length), (o.hts[k])[0] = (x, y) →
      x = .H ∨ x = .T → (block pts (o.vec[k])[0]).getLast? = endPoint pts (o.comps[k])[0] x) ∧
    (∀ i (x y : Lab) (hl : i < (o.hts[k]).length) (h0 : i + 1 < (o.comps[k]).length) (hb : i + 1 < (o.vec[k]).length), (o.hts[k])[i] = (x, y) →
      y = .H ∨ y = .T → (block pts (o.vec[k])[i + 1]).head? = endPoint pts (o.comps[k])[i + 1] y) := by
  have e : o.vec[k] = firstStitch o.comps[k] o.hts[k] := by
    simp only [h.vec, List.getElem_zipWith]
  have hmap : (o.vec[k]).map Prod.fst = o.comps[k] := by rw [e]; exact firstStitch_fst _ _
  have hlenb : ∀ q, (block pts q).length = (pts q.1).length := by
    intro q; unfold block; split <;> simp
  refine ⟨hmap, ?_, ?_, ?_, ?_⟩
  · unfold points
    rw [List.length_flatMap, ← hmap, List.map_map]
    congr 1
    refine List.map_congr_left ?_
    intro q _
    exact hlenb q
  · unfold points
    rw [← hmap, List.flatMap_map]
    generalize o.vec[k] = v
    induction v with
    | nil => exact List.Perm.refl _
    | cons q v ih =>
      rw [List.flatMap_cons, List.flatMap_cons]
      refine List.Perm.append ?_ ih
      unfold block
      split
      · exact List.reverse_perm _
      · exact List.Perm.refl _
  · intro x y hl h0 hb hxy hx
    simp only [e] at hb ⊢
    rw [firstStitch_get _ _ 0 hb h0, if_neg (by omega)]
    have hg : (o.hts[k]).getD 0 (.NA, .NA) = (x, y) := by rw [List.getD_eq_getElem _ _ hl, hxy]
    rw [hg]
    simp only [if_true]
    unfold block endPoint
    rcases hx with rfl | rfl
    · simp
    · simp
  · intro i x y hl h0 hb hxy hy
    simp only [e] at hb ⊢
    rw [firstStitch_get _ _ (i + 1) hb h0, if_neg (by omega), if_neg (by omega)]
    have hg : (o.hts[k]).getD (i + 1 - 1) (.NA, .NA) = (x, y) := by
      rw [Nat.add_sub_cancel, List.getD_eq_getElem _ _ hl, hxy]
    rw [hg]
    unfold block endPoint
    rcases hy with rfl | rfl
    · simp
    · simp

/-- the hypothesis is met by the result of the walks of every event -/
theorem stitched_reached (c : Cfg) (trks : List Trk) (o : Out) (done : List Nat) (fuel : Nat) (hfuel : trks.length < fuel)
    (h : walkStitch fuel (findLinks c trks).1 (findLinks c trks).2 = some (o, done)) : Valid o := by
  obtain ⟨h1, h2⟩ := findLinks_good c trks
  obtain ⟨s, e, i⟩ := walkStitch_ok (goodTab_fwd h1) (goodTab_fwd h2) h1.1 hfuel
  rw [e] at h
  have : s = (o, done) := Option.some.inj h
  have := i.valid
  simp_all

/-- points of two tracks joined end to start: the second is taken backwards, so that the join is seamless -/
example : points (fun t => if t = 0 then [0, 1, 2] else [2, 3, 4]) (firstStitch [1, 0] [(.H, .T)]) = [4, 3, 2, 2, 1, 0] := by
  decide

end Verif.Stitch

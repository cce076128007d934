import Verif.SCE.Thm

namespace Verif.SCE

/-! ### What is produced -/

/-- Specification: the time of the slice at a position of the input. -/
def bestOf (cfg : Cfg) (ev : Ev) (si : ℕ) : Option (ℕ × Bool) :=
  best ev (sliceT0s cfg ev ((ev.slices[si]?).getD ([], [])).1)

/-- Specification: the new space points of a particle (slice, key). -/
def newSPs (cfg : Cfg) (ev : Ev) (x : ℕ × ℕ) : List (ℕ × V3) :=
  (ev.pfpSP x.2).map (fun s => (s, correct cfg ev (bestOf cfg ev x.1) (spTpc ev s) (ev.spPos s)))

/-- Specification: the new vertices of a particle. -/
def newVtxs (cfg : Cfg) (ev : Ev) (x : ℕ × ℕ) : List (ℕ × V3) :=
  (ev.pfpVtx x.2).filterMap (newVtx cfg ev (bestOf cfg ev x.1) x.2)

/-- Specification: a collection of objects with an association from particles: each object is
associated exactly once, and a particle with exactly its objects, in order. -/
structure Link {β : Type} (pf : List (ℕ × ℕ)) (coll : List β) (assn : List (ℕ × ℕ))
    (g : ℕ × ℕ → List β) : Prop where
  once : assn.map (·.2) = List.range coll.length
  lt : ∀ a ∈ assn, a.1 < pf.length
  of : ∀ n p, pf[n]? = some p →
    (assn.filter (fun a => a.1 = n)).map (fun a => coll[a.2]?) = (g p).map some

theorem zip_get {β : Type} (coll new : List β) :
    (new.zipIdx coll.length).map (fun x => (coll ++ new)[x.2]?) = new.map some := by
  apply List.ext_getElem
  · simp
  · intro i h1 h2
    simp only [List.length_map] at h2
    simp [List.getElem?_append_right, h2]

theorem Link.extend {β : Type} {pf : List (ℕ × ℕ)} {coll : List β} {assn : List (ℕ × ℕ)}
    {g : ℕ × ℕ → List β} (h : Link pf coll assn g) (p : ℕ × ℕ) (new : List β) (hn : new = g p) :
    Link (pf ++ [p]) (coll ++ new)
      (assn ++ (new.zipIdx coll.length).map (fun x => (pf.length, x.2))) g := by
  refine ⟨?_, ?_, ?_⟩
  · rw [List.map_append, h.once, List.map_map]
    have : (new.zipIdx coll.length).map ((fun a : ℕ × ℕ => a.2) ∘ fun x => (pf.length, x.2)) =
        List.range' coll.length new.length := by
      rw [← List.zipIdx_map_snd]
      rfl
    rw [this, List.length_append, List.range_add, List.range'_eq_map_range]
  · intro a ha
    rcases List.mem_append.1 ha with h1 | h1
    · have := h.lt a h1
      simp; omega
    · obtain ⟨x, _, rfl⟩ := List.mem_map.1 h1
      simp
  · intro n q hq
    rw [List.filter_append, List.map_append]
    rcases Nat.lt_trichotomy n pf.length with hlt | heq | hgt
    · rw [List.getElem?_append_left hlt] at hq
      have e2 : ((new.zipIdx coll.length).map (fun x => (pf.length, x.2))).filter
          (fun a => a.1 = n) = [] := by
        rw [List.filter_eq_nil_iff]
        intro a ha
        obtain ⟨x, _, rfl⟩ := List.mem_map.1 ha
        simp; omega
      rw [e2, List.map_nil, List.append_nil, ← h.of n q hq]
      apply List.map_congr_left
      intro a ha
      have hm : a.2 ∈ assn.map (·.2) := List.mem_map.2 ⟨a, (List.mem_filter.1 ha).1, rfl⟩
      rw [h.once] at hm
      rw [List.getElem?_append_left (List.mem_range.1 hm)]
    · subst heq
      have : p = q := by simpa using hq
      subst this
      have e1 : assn.filter (fun a => a.1 = pf.length) = [] := by
        rw [List.filter_eq_nil_iff]
        intro a ha
        have := h.lt a ha
        simp; omega
      have e2 : ((new.zipIdx coll.length).map (fun x => (pf.length, x.2))).filter
          (fun a => a.1 = pf.length) = (new.zipIdx coll.length).map (fun x => (pf.length, x.2)) := by
        rw [List.filter_eq_self]
        intro a ha
        obtain ⟨x, _, rfl⟩ := List.mem_map.1 ha
        simp
      rw [e1, e2, List.map_nil, List.nil_append, List.map_map, ← hn]
      exact zip_get coll new
    · rw [List.getElem?_eq_none (by simp; omega)] at hq
      simp at hq

theorem fold_vtx (cfg : Cfg) (ev : Ev) (b : Option (ℕ × Bool)) (p n : ℕ) (o : Out) (l : List ℕ) :
    l.foldl (doVtx cfg ev b p n) o = { o with
      vtxs := o.vtxs ++ l.filterMap (newVtx cfg ev b p)
      pfpVtx := o.pfpVtx ++
        ((l.filterMap (newVtx cfg ev b p)).zipIdx o.vtxs.length).map (fun x => (n, x.2)) } := by
  induction l using List.reverseRecOn with
  | nil => simp
  | append_singleton l a ih =>
    rw [List.foldl_append, ih]
    simp only [List.foldl_cons, List.foldl_nil, doVtx]
    cases h : newVtx cfg ev b p a with
    | none => simp [List.filterMap_append, h]
    | some nv => simp [List.filterMap_append, h, List.zipIdx_append]

theorem fold_sp (cfg : Cfg) (ev : Ev) (b : Option (ℕ × Bool)) (n : ℕ) (o : Out) (l : List ℕ) :
    l.foldl (doSP cfg ev b n) o = { o with
      sps := o.sps ++ l.map (fun s => (s, correct cfg ev b (spTpc ev s) (ev.spPos s)))
      pfpSP := o.pfpSP ++ ((l.map (fun s => (s, correct cfg ev b (spTpc ev s) (ev.spPos s)))).zipIdx
        o.sps.length).map (fun x => (n, x.2))
      spHit := o.spHit ++ ((l.map (fun s => (s, correct cfg ev b (spTpc ev s) (ev.spPos s)))).zipIdx
        o.sps.length).map (fun x => (x.2, (ev.spHits x.1.1).headD 0)) } := by
  induction l using List.reverseRecOn with
  | nil => simp
  | append_singleton l a ih =>
    rw [List.foldl_append, ih]
    simp [doSP, List.zipIdx_append]

theorem fold_clu (ev : Ev) (n : ℕ) (o : Out) (l : List ℕ) :
    l.foldl (doClu ev n) o = { o with
      clus := o.clus ++ l
      pfpClu := o.pfpClu ++ (l.zipIdx o.clus.length).map (fun x => (n, x.2))
      cluHit := o.cluHit ++
        (l.zipIdx o.clus.length).flatMap (fun x => (ev.cluHits x.1).map (fun h => (x.2, h))) } := by
  induction l using List.reverseRecOn with
  | nil => simp
  | append_singleton l a ih =>
    rw [List.foldl_append, ih]
    simp [doClu, List.zipIdx_append]

theorem fold_meta (n : ℕ) (o : Out) (l : List ℕ) :
    l.foldl (doMeta n) o = { o with
      metas := o.metas ++ l
      pfpMeta := o.pfpMeta ++ (l.zipIdx o.metas.length).map (fun x => (n, x.2)) } := by
  induction l using List.reverseRecOn with
  | nil => simp
  | append_singleton l a ih =>
    rw [List.foldl_append, ih]
    simp [doMeta, List.zipIdx_append]

/-- The time associated with a particle. -/
def timeOf (cfg : Cfg) (ev : Ev) (x : ℕ × ℕ) : List (Option ℕ) :=
  match bestOf cfg ev x.1 with
  | some (t, _) => [some t]
  | none => []

/-- What holds of the result after some slices. -/
structure Inv (cfg : Cfg) (ev : Ev) (o : Out) : Prop where
  vtx : Link o.pfps o.vtxs o.pfpVtx (newVtxs cfg ev)
  sp : Link o.pfps o.sps o.pfpSP (newSPs cfg ev)
  clu : Link o.pfps o.clus o.pfpClu (fun x => ev.pfpClu x.2)
  mt : Link o.pfps o.metas o.pfpMeta (fun x => ev.pfpMeta x.2)
  slice : o.pfpSlice = o.pfps.zipIdx.map (fun x => (x.2, x.1.1))
  t0lt : ∀ a ∈ o.t0Pfp, a.2 < o.pfps.length ∧ a.1 < o.t0s.length
  t0 : ∀ n x, o.pfps[n]? = some x →
    (o.t0Pfp.filter (fun a => a.2 = n)).map (fun a => o.t0s[a.1]?) = timeOf cfg ev x
  spHit : o.spHit = o.sps.zipIdx.map (fun x => (x.2, (ev.spHits x.1.1).headD 0))
  cluHit : o.cluHit = o.clus.zipIdx.flatMap (fun x => (ev.cluHits x.1).map (fun h => (x.2, h)))

theorem doPfp_fields (cfg : Cfg) (ev : Ev) (b : Option (ℕ × Bool)) (si ns : ℕ) (nt : Option ℕ) (o : Out)
    (p : ℕ) :
    (doPfp cfg ev b si ns nt o p).pfps = o.pfps ++ [(si, p)] ∧
    (doPfp cfg ev b si ns nt o p).slices = o.slices ∧
    (doPfp cfg ev b si ns nt o p).t0s = o.t0s ∧
    (doPfp cfg ev b si ns nt o p).sliceHit = o.sliceHit := by
  unfold doPfp
  simp only [fold_vtx, fold_sp, fold_clu, fold_meta]
  simp

theorem doPfp_inv {cfg : Cfg} {ev : Ev} {o : Out} (h : Inv cfg ev o) (si p : ℕ) (nt : Option ℕ)
    (hnt : match bestOf cfg ev si with
      | some (t, _) => ∃ j, nt = some j ∧ o.t0s[j]? = some t
      | none => nt = none) :
    Inv cfg ev (doPfp cfg ev (bestOf cfg ev si) si si nt o p) := by
  have hv := h.vtx.extend (si, p) ((ev.pfpVtx p).filterMap (newVtx cfg ev (bestOf cfg ev si) p)) rfl
  have hs := h.sp.extend (si, p)
    ((ev.pfpSP p).map (fun s => (s, correct cfg ev (bestOf cfg ev si) (spTpc ev s) (ev.spPos s)))) rfl
  have hc := h.clu.extend (si, p) (ev.pfpClu p) rfl
  have hm := h.mt.extend (si, p) (ev.pfpMeta p) rfl
  unfold doPfp
  simp only [fold_vtx, fold_sp, fold_clu, fold_meta]
  refine ⟨hv, hs, hc, hm, ?_, ?_, ?_, ?_, ?_⟩
  · simp [h.slice, List.zipIdx_append]
  · intro a ha
    dsimp only at ha ⊢
    have hold : a ∈ o.t0Pfp → a.2 < (o.pfps ++ [(si, p)]).length ∧ a.1 < o.t0s.length := by
      intro h1
      have := h.t0lt a h1
      simp; omega
    cases nt with
    | none => exact hold ha
    | some j =>
      rcases List.mem_append.1 ha with h1 | h1
      · exact hold h1
      · obtain rfl : a = (j, o.pfps.length) := by simpa using h1
        refine ⟨by simp, ?_⟩
        revert hnt
        cases bestOf cfg ev si with
        | none => intro hnt; simp at hnt
        | some tf =>
          obtain ⟨t, f⟩ := tf
          rintro ⟨j', hj, hj'⟩
          obtain rfl : j = j' := by simpa using hj
          exact (List.getElem?_eq_some_iff.1 hj').1
  · intro n x hx
    dsimp only at hx ⊢
    have hnone : o.t0Pfp.filter (fun a => a.2 = o.pfps.length) = [] := by
      rw [List.filter_eq_nil_iff]
      intro a ha
      have := (h.t0lt a ha).1
      simp; omega
    rcases Nat.lt_trichotomy n o.pfps.length with hlt | heq | hgt
    · rw [List.getElem?_append_left hlt] at hx
      rw [← h.t0 n x hx]
      cases nt with
      | none => rfl
      | some j =>
        dsimp only
        rw [List.filter_append]
        have : [(j, o.pfps.length)].filter (fun a => a.2 = n) = [] := by
          rw [List.filter_eq_nil_iff]
          intro a ha
          obtain rfl : a = (j, o.pfps.length) := by simpa using ha
          simp; omega
        rw [this, List.append_nil]
    · subst heq
      have : (si, p) = x := by simpa using hx
      subst this
      unfold timeOf
      revert hnt
      dsimp only
      cases bestOf cfg ev si with
      | none =>
        intro hnt
        dsimp only at hnt
        subst hnt
        simp [hnone]
      | some tf =>
        obtain ⟨t, f⟩ := tf
        rintro ⟨j, rfl, hj⟩
        simp [List.filter_append, hnone, hj]
    · rw [List.getElem?_eq_none (by simp; omega)] at hx
      simp at hx
  · simp [h.spHit, List.zipIdx_append]
  · simp [h.cluHit, List.zipIdx_append]

theorem fold_pfp {cfg : Cfg} {ev : Ev} (si : ℕ) (nt : Option ℕ) (l : List ℕ) {o : Out}
    (h : Inv cfg ev o)
    (hnt : match bestOf cfg ev si with
      | some (t, _) => ∃ j, nt = some j ∧ o.t0s[j]? = some t
      | none => nt = none) :
    let o' := l.foldl (doPfp cfg ev (bestOf cfg ev si) si si nt) o
    Inv cfg ev o' ∧ o'.pfps = o.pfps ++ l.map (fun p => (si, p)) ∧ o'.slices = o.slices ∧
      o'.t0s = o.t0s ∧ o'.sliceHit = o.sliceHit := by
  induction l generalizing o with
  | nil => exact ⟨h, by simp, rfl, rfl, rfl⟩
  | cons p r ih =>
    obtain ⟨f1, f2, f3, f4⟩ := doPfp_fields cfg ev (bestOf cfg ev si) si si nt o p
    have h1 := doPfp_inv h si p nt hnt
    obtain ⟨i1, i2, i3, i4, i5⟩ := ih h1 (by rw [f3]; exact hnt)
    rw [List.foldl_cons]
    refine ⟨i1, ?_, ?_, ?_, ?_⟩
    · rw [i2, f1]; simp
    · rw [i3, f2]
    · rw [i4, f3]
    · rw [i5, f4]

/-- Specification: the slice is corrected: it has a time, or slices without are corrected too. -/
def Done (cfg : Cfg) (ev : Ev) (si : ℕ) : Prop := bestOf cfg ev si ≠ none ∨ cfg.noT0 = true

instance (cfg : Cfg) (ev : Ev) (si : ℕ) : Decidable (Done cfg ev si) := by
  unfold Done; infer_instance

/-- The particles that are copied. -/
def copied (cfg : Cfg) (ev : Ev) (l : List ((List ℕ × List ℕ) × ℕ)) : List (ℕ × ℕ) :=
  l.flatMap (fun s => if Done cfg ev s.2 then s.1.1.map (fun p => (s.2, p)) else [])

def copiedHits (cfg : Cfg) (ev : Ev) (l : List ((List ℕ × List ℕ) × ℕ)) : List (ℕ × ℕ) :=
  l.flatMap (fun s => if Done cfg ev s.2 then s.1.2.map (fun h => (s.2, h)) else [])

/-- The times that are copied. -/
def copiedT0 (cfg : Cfg) (ev : Ev) (l : List ((List ℕ × List ℕ) × ℕ)) : List ℕ :=
  l.filterMap (fun s => (bestOf cfg ev s.2).map (·.1))

theorem inv_head {cfg : Cfg} {ev : Ev} {o : Out} (h : Inv cfg ev o) (sl : List ℕ) (sh : List (ℕ × ℕ))
    (ts : List ℕ) : Inv cfg ev { o with slices := sl, sliceHit := sh, t0s := o.t0s ++ ts } := by
  refine ⟨h.vtx, h.sp, h.clu, h.mt, h.slice, ?_, ?_, h.spHit, h.cluHit⟩
  · intro a ha
    have := h.t0lt a ha
    refine ⟨this.1, ?_⟩
    dsimp only
    rw [List.length_append]; omega
  · intro n x hx
    rw [← h.t0 n x hx]
    apply List.map_congr_left
    intro a ha
    dsimp only
    rw [List.getElem?_append_left (h.t0lt a (List.mem_filter.1 ha).1).2]

theorem doSlice_inv {cfg : Cfg} {ev : Ev} {o : Out} (h : Inv cfg ev o) (s : (List ℕ × List ℕ) × ℕ)
    (hs : ev.slices[s.2]? = some s.1) (hsl : o.slices = List.range s.2) :
    let o' := doSlice cfg ev o s
    Inv cfg ev o' ∧ o'.slices = List.range (s.2 + 1) ∧
      o'.pfps = o.pfps ++ copied cfg ev [s] ∧ o'.sliceHit = o.sliceHit ++ copiedHits cfg ev [s] ∧
      o'.t0s = o.t0s ++ copiedT0 cfg ev [s] := by
  have hb : best ev (sliceT0s cfg ev s.1.1) = bestOf cfg ev s.2 := by
    unfold bestOf; rw [hs]; rfl
  have hlen : o.slices.length = s.2 := by rw [hsl]; simp
  have hr : o.slices ++ [s.2] = List.range (s.2 + 1) := by rw [hsl, List.range_succ]
  unfold doSlice copied copiedHits copiedT0
  simp only [hb, hlen, hr]
  cases hbo : bestOf cfg ev s.2 with
  | none =>
    dsimp only
    by_cases hno : cfg.noT0 = true
    · have hd : Done cfg ev s.2 := Or.inr hno
      simp only [hno, Bool.not_true, Bool.false_eq_true, if_false]
      have h1 := inv_head h (List.range (s.2 + 1)) (o.sliceHit ++ s.1.2.map (fun h => (s.2, h))) []
      rw [List.append_nil] at h1
      have h2 := fold_pfp s.2 none s.1.1 h1 (by rw [hbo])
      rw [hbo] at h2
      obtain ⟨i1, i2, i3, i4, i5⟩ := h2
      refine ⟨i1, i3, ?_, ?_, ?_⟩
      · rw [i2]; simp [hd]
      · rw [i5]; simp [hd]
      · rw [i4]; simp [hbo]
    · have hd : ¬ Done cfg ev s.2 := by
        rintro (h | h)
        · exact h hbo
        · exact hno h
      simp only [hno, Bool.not_false, if_true]
      have h1 := inv_head h (List.range (s.2 + 1)) o.sliceHit []
      rw [List.append_nil] at h1
      refine ⟨h1, trivial, ?_, ?_, ?_⟩
      · simp [hd]
      · simp [hd]
      · simp [hbo]
  | some tf =>
    obtain ⟨t, f⟩ := tf
    have hd : Done cfg ev s.2 := Or.inl (by rw [hbo]; simp)
    dsimp only
    have h1 := inv_head h (List.range (s.2 + 1)) (o.sliceHit ++ s.1.2.map (fun h => (s.2, h))) [t]
    have h2 := fold_pfp s.2 (some o.t0s.length) s.1.1 h1 (by
      rw [hbo]
      exact ⟨o.t0s.length, rfl, by simp⟩)
    rw [hbo] at h2
    obtain ⟨i1, i2, i3, i4, i5⟩ := h2
    refine ⟨i1, i3, ?_, ?_, ?_⟩
    · rw [i2]; simp [hd]
    · rw [i5]; simp [hd]
    · rw [i4]; simp [hbo]

theorem link_nil {β : Type} (g : ℕ × ℕ → List β) : Link [] [] [] g :=
  ⟨rfl, by simp, by simp⟩

theorem produce_all (cfg : Cfg) (ev : Ev) :
    let o := produce cfg ev
    Inv cfg ev o ∧ o.slices = List.range ev.slices.length ∧
      o.pfps = copied cfg ev ev.slices.zipIdx ∧ o.sliceHit = copiedHits cfg ev ev.slices.zipIdx ∧
      o.t0s = copiedT0 cfg ev ev.slices.zipIdx := by
  have key : ∀ k ≤ ev.slices.length,
      let o := (ev.slices.zipIdx.take k).foldl (doSlice cfg ev) {}
      Inv cfg ev o ∧ o.slices = List.range k ∧
      o.pfps = copied cfg ev (ev.slices.zipIdx.take k) ∧
      o.sliceHit = copiedHits cfg ev (ev.slices.zipIdx.take k) ∧
      o.t0s = copiedT0 cfg ev (ev.slices.zipIdx.take k) := by
    intro k
    induction k with
    | zero =>
      intro _
      refine ⟨⟨link_nil _, link_nil _, link_nil _, link_nil _, rfl, by simp, by simp, rfl, rfl⟩,
        rfl, rfl, rfl, rfl⟩
    | succ k ih =>
      intro hk
      have hk' : k < ev.slices.zipIdx.length := by simp; omega
      obtain ⟨i1, i2, i3, i4, i5⟩ := ih (by omega)
      rw [List.take_succ_eq_append_getElem hk', List.foldl_append]
      simp only [List.foldl_cons, List.foldl_nil]
      have hg : ev.slices.zipIdx[k] = (ev.slices[k], k) := by simp
      obtain ⟨j1, j2, j3, j4, j5⟩ := doSlice_inv i1 ev.slices.zipIdx[k]
        (by rw [hg]; exact List.getElem?_eq_getElem (by omega)) (by rw [hg]; exact i2)
      refine ⟨j1, ?_, ?_, ?_, ?_⟩
      · rw [j2, hg]
      · rw [j3, i3]; unfold copied; rw [List.flatMap_append]
      · rw [j4, i4]; unfold copiedHits; rw [List.flatMap_append]
      · rw [j5, i5]; unfold copiedT0; rw [List.filterMap_append]
  have := key ev.slices.length (le_refl _)
  rw [List.take_of_length_le (by simp)] at this
  exact this

/-- **C430**: every slice is copied; the particles copied are those of the slices that have a time (all,
if so set), in order, each associated with the copy of its slice and, if the slice has a time, with
exactly one copy of it. -/
theorem C430_slices (cfg : Cfg) (ev : Ev) :
    let o := produce cfg ev
    o.slices = List.range ev.slices.length ∧
    o.pfps = ev.slices.zipIdx.flatMap
      (fun s => if Done cfg ev s.2 then s.1.1.map (fun p => (s.2, p)) else []) ∧
    o.pfpSlice = o.pfps.zipIdx.map (fun x => (x.2, x.1.1)) ∧
    (∀ n x, o.pfps[n]? = some x →
      (o.t0Pfp.filter (fun a => a.2 = n)).map (fun a => o.t0s[a.1]?) =
        match bestOf cfg ev x.1 with
        | some (t, _) => [some t]
        | none => []) ∧
    o.t0s = ev.slices.zipIdx.filterMap (fun s => (bestOf cfg ev s.2).map (·.1)) := by
  obtain ⟨h1, h2, h3, h4, h5⟩ := produce_all cfg ev
  exact ⟨h2, h3, h1.slice, h1.t0, h5⟩

/-- **C431**: a new particle has exactly the corrected space points and vertices, the clusters and the
metadata of the original, in order, and each new object belongs to exactly one new particle. -/
theorem C431_objects (cfg : Cfg) (ev : Ev) :
    let o := produce cfg ev
    Link o.pfps o.sps o.pfpSP (newSPs cfg ev) ∧ Link o.pfps o.vtxs o.pfpVtx (newVtxs cfg ev) ∧
    Link o.pfps o.clus o.pfpClu (fun x => ev.pfpClu x.2) ∧
    Link o.pfps o.metas o.pfpMeta (fun x => ev.pfpMeta x.2) := by
  obtain ⟨h, _⟩ := produce_all cfg ev
  exact ⟨h.sp, h.vtx, h.clu, h.mt⟩

/-- **C432**, part: new clusters have the hits of the original; a new space point has exactly the first
hit of the original; the hits of a slice are those of the original if the slice was corrected.  Missing:
the other hits of a space point, and the hits of the other slices, which the code drops. -/
theorem C432_hits_partial (cfg : Cfg) (ev : Ev) :
    let o := produce cfg ev
    o.cluHit = o.clus.zipIdx.flatMap (fun x => (ev.cluHits x.1).map (fun h => (x.2, h))) ∧
    ((∀ s, ev.spHits s ≠ []) →
      o.spHit.map (fun a => (a.1, some a.2)) = o.sps.zipIdx.map (fun x => (x.2, (ev.spHits x.1.1).head?))) ∧
    o.sliceHit = ev.slices.zipIdx.flatMap
      (fun s => if Done cfg ev s.2 then s.1.2.map (fun h => (s.2, h)) else []) := by
  obtain ⟨h1, h2, h3, h4, h5⟩ := produce_all cfg ev
  refine ⟨h1.cluHit, ?_, h4⟩
  intro hne
  rw [h1.spHit, List.map_map]
  apply List.map_congr_left
  intro x _
  dsimp only [Function.comp]
  have := hne x.1.1
  cases hl : ev.spHits x.1.1 with
  | nil => exact absurd hl this
  | cons a r => simp

/-- An event: two slices, the second with a time for the label; one space point of two hits in each. -/
def exEv : Ev where
  slices := [([0], [5]), ([1], [6, 7])]
  pfpT0 := fun _ p => if p = 1 then [3] else []
  pfpTrk := fun _ => []
  trkT0 := fun _ _ => []
  time := fun _ => 2000
  pfpSP := fun p => [p]
  allSP := [0, 1]
  spPos := fun s => ⟨s, 10, 20⟩
  spHits := fun s => if s = 1 then [6, 7] else [5]
  hitTpc := fun _ => 0
  drift := fun _ => (.x, -1)
  vel := 3
  sceOn := false
  sce := fun _ _ => ⟨0, 0, 0⟩
  pfpVtx := fun p => [p]
  vtxPos := fun _ => ⟨0, 0, 0⟩
  pfpClu := fun p => [p]
  cluHits := fun _ => [6]
  pfpMeta := fun p => [p]

/-- The second particle is moved by 6 against x. -/
example : (produce ⟨true, true, false, [true]⟩ exEv).sps =
    [(0, ⟨0, 10, 20⟩), (1, ⟨-5, 10, 20⟩)] ∧
    (produce ⟨true, true, false, [true]⟩ exEv).pfpSP = [(0, 0), (1, 1)] ∧
    (produce ⟨true, true, false, [true]⟩ exEv).t0Pfp = [(0, 1)] ∧
    (∀ s, exEv.spHits s ≠ []) := by
  refine ⟨by decide +kernel, by decide +kernel, by decide +kernel, ?_⟩
  intro s
  by_cases h : s = 1 <;> simp [exEv, h]

/-- **C432**, counterexample: a slice without time loses its hits and particles, a space point all but
its first hit. -/
theorem C432_refuted : (produce ⟨false, true, false, [true]⟩ exEv).sliceHit = [(1, 6), (1, 7)] ∧
    (produce ⟨false, true, false, [true]⟩ exEv).slices = [0, 1] ∧
    (produce ⟨false, true, false, [true]⟩ exEv).pfps = [(1, 1)] ∧
    (produce ⟨false, true, false, [true]⟩ exEv).spHit = [(0, 6)] := by decide +kernel

end Verif.SCE

import Verif.ProdMisc.Thm

/-!
# Properties C466-C468: `TrackProducerFromTrack`
-/

namespace Verif.ProdMisc

/-- The groups of a list of associations written track by track: each track with hits gives one group. -/
theorem groups_cons (t : ℕ) (hs : List ℕ) (r : List (ℕ × ℕ)) (hne : hs ≠ [])
    (hr : ∀ p, r.head? = some p → p.1 ≠ t) :
    groups (hs.map (fun h => (t, h)) ++ r) = hs :: groups r := by
  induction hs with
  | nil => exact absurd rfl hne
  | cons h hs ih =>
    cases hs with
    | nil =>
      cases r with
      | nil => simp [groups]
      | cons p r =>
        obtain ⟨t', h'⟩ := p
        have hq : t' ≠ t := hr _ rfl
        have hgr : ∀ l : List (ℕ × ℕ), ∀ p, groups (p :: l) ≠ [] := by
          intro l
          induction l with
          | nil => intro p; simp [groups]
          | cons q l ihl =>
            intro p
            unfold groups
            cases hg : groups ((q.1, q.2) :: l) with
            | nil => simp
            | cons g gs => dsimp only; split <;> simp
        simp only [List.map_cons, List.map_nil, List.cons_append, List.nil_append]
        rw [groups]
        cases hg : groups ((t', h') :: r) with
        | nil => exact absurd hg (hgr _ _)
        | cons g gs => dsimp only; rw [if_neg (fun e => hq e.symm)]
    | cons h' hs =>
      have := ih (by simp)
      simp only [List.map_cons, List.cons_append] at this ⊢
      rw [groups, this]
      dsimp only
      rw [if_pos rfl]

/-- **C466**, what is proved: if every track has hits and the associations are written track by track, then the
groups are the hits of the tracks, so that each track is fitted with exactly its own hits.  Missing: tracks without
hits. -/
theorem C466_hits_partial (hits : List (List ℕ)) (hne : ∀ l ∈ hits, l ≠ []) :
    groups (hits.zipIdx.flatMap (fun x => x.1.map (fun h => (x.2, h)))) = hits := by
  have : ∀ (l : List (List ℕ)) (k : ℕ), (∀ x ∈ l, x ≠ []) →
      groups ((l.zipIdx k).flatMap (fun x => x.1.map (fun h => (x.2, h)))) = l := by
    intro l
    induction l with
    | nil => intro k _; simp [groups]
    | cons x l ih =>
      intro k h
      rw [List.zipIdx_cons, List.flatMap_cons, groups_cons, ih (k + 1) (fun y hy => h y (by simp [hy]))]
      · exact h x (by simp)
      · intro p hp
        have := List.mem_of_mem_head? hp
        rw [List.mem_flatMap] at this
        obtain ⟨y, hy, hm⟩ := this
        rw [List.mem_map] at hm
        obtain ⟨_, _, rfl⟩ := hm
        have := List.le_snd_of_mem_zipIdx hy
        simp only; omega
  exact this hits 0 hne

/-- **C466**, counterexample: the first track has no hits, so that it is fitted with the hits of the second, and the
second is not fitted. -/
theorem C466_refuted : ∃ (hits : List (List ℕ)) (assns : List (ℕ × ℕ)),
    hits = [[], [7, 8]] ∧ assns = hits.zipIdx.flatMap (fun x => x.1.map (fun h => (x.2, h))) ∧
    prodTracks (fun t hs => some ⟨hs.map (fun _ => some t), hs, []⟩) false false assns =
      some { tracks := [[some 0, some 0]], th := [(0, 7), (0, 8)] } :=
  ⟨_, _, rfl, rfl, by decide +kernel⟩

/-- The space points that are made for a fit, with their hits. -/
def spOf {σ : Type} (doSp traj : Bool) (f : Fit σ) : List (σ × ℕ) :=
  if doSp then
    (if traj then (f.points.zip f.hits).filterMap (fun x => x.1.map (fun p => (p, x.2))) else f.sps)
  else []

theorem addSp_fold {σ : Type} (l : List (σ × ℕ)) (o : ProdOut σ) :
    l.foldl addSp o = { o with
      sps := o.sps ++ l.map (·.1)
      hs := o.hs ++ (l.zipIdx o.sps.length).map (fun s => (s.1.2, s.2)) } := by
  induction l generalizing o with
  | nil => simp
  | cons s l ih =>
    rw [List.foldl_cons, ih]
    simp [addSp, List.zipIdx_cons]

theorem addHit_fold {σ : Type} (traj : Bool) (f : Fit σ) (n : ℕ) (ps : List (Option σ)) (hs : List ℕ) (k : ℕ)
    (hp : ps.length = hs.length) (hk : ∀ i, ps[i]? = f.points[i + k]?) (o : ProdOut σ) :
    (hs.zipIdx k).foldl (addHit traj f n) o =
      ((if traj then (ps.zip hs).filterMap (fun x => x.1.map (fun p => (p, x.2))) else []).foldl addSp
        { o with th := o.th ++ hs.map (fun h => (n, h)) }) := by
  induction hs generalizing k ps o with
  | nil => simp
  | cons h hs ih =>
    cases ps with
    | nil => simp at hp
    | cons q ps =>
      rw [List.zipIdx_cons, List.foldl_cons, ih ps (k + 1) (by simpa using hp)
        (fun i => by have := hk (i + 1); rw [List.getElem?_cons_succ] at this; rw [this]; congr 1; omega)]
      have h0 := hk 0
      simp only [List.getElem?_cons_zero, Nat.zero_add] at h0
      cases traj with
      | false => simp [addHit]
      | true =>
        simp only [if_true, List.zip_cons_cons, List.filterMap_cons, addHit]
        rw [← h0]
        cases q with
        | none => simp
        | some p =>
          simp only [Option.map_some, List.foldl_cons]
          rw [addSp_fold, addSp_fold]
          simp [addSp]

/-- The result of a fit is accepted. -/
def okFit {σ : Type} (f : Fit σ) : Prop := f.points.length = f.hits.length

theorem prodStep_some {σ : Type} (fit : ℕ → List ℕ → Option (Fit σ)) (doSp traj : Bool) (o : ProdOut σ)
    (x : List ℕ × ℕ) (f : Fit σ) (hf : fit x.2 x.1 = some f) (hl : f.points.length = f.hits.length) :
    prodStep fit doSp traj o x = some
      { tracks := o.tracks ++ [f.points]
        th := o.th ++ f.hits.map (fun h => (o.tracks.length, h))
        sps := o.sps ++ (spOf doSp traj f).map (·.1)
        hs := o.hs ++ ((spOf doSp traj f).zipIdx o.sps.length).map (fun s => (s.1.2, s.2)) } := by
  unfold prodStep
  rw [hf]
  simp only [ne_eq, hl, not_true_eq_false, if_false, Option.some.injEq]
  rw [addHit_fold (doSp && traj) f o.tracks.length f.points f.hits 0 hl (fun i => rfl)]
  unfold spOf
  cases doSp <;> cases traj <;> simp [addSp_fold]

theorem prod_fold {σ : Type} (fit : ℕ → List ℕ → Option (Fit σ)) (doSp traj : Bool) (l : List (List ℕ × ℕ))
    (a o : ProdOut σ) :
    l.foldlM (prodStep fit doSp traj) a = some o ↔
      (∀ x ∈ l, ∀ f, fit x.2 x.1 = some f → f.points.length = f.hits.length) ∧
      o.tracks = a.tracks ++ (l.filterMap (fun x => fit x.2 x.1)).map (·.points) ∧
      o.th = a.th ++ ((l.filterMap (fun x => fit x.2 x.1)).zipIdx a.tracks.length).flatMap
        (fun s => s.1.hits.map (fun h => (s.2, h))) ∧
      o.sps = a.sps ++ ((l.filterMap (fun x => fit x.2 x.1)).flatMap (spOf doSp traj)).map (·.1) ∧
      o.hs = a.hs ++ (((l.filterMap (fun x => fit x.2 x.1)).flatMap (spOf doSp traj)).zipIdx a.sps.length).map
        (fun s => (s.1.2, s.2)) := by
  induction l generalizing a with
  | nil =>
    cases a; cases o
    simp only [List.foldlM_nil, Option.pure_def, Option.some.injEq, ProdOut.mk.injEq, List.not_mem_nil,
      false_imp_iff, implies_true, true_and, List.filterMap_nil, List.map_nil, List.append_nil,
      List.zipIdx_nil, List.flatMap_nil]
    constructor
    · rintro ⟨rfl, rfl, rfl, rfl⟩; exact ⟨rfl, rfl, rfl, rfl⟩
    · rintro ⟨rfl, rfl, rfl, rfl⟩; exact ⟨rfl, rfl, rfl, rfl⟩
  | cons x l ih =>
    rw [List.foldlM_cons, List.filterMap_cons, List.forall_mem_cons]
    cases hf : fit x.2 x.1 with
    | none =>
      have : prodStep fit doSp traj a x = some a := by unfold prodStep; rw [hf]
      rw [this]
      simp only [Option.bind_eq_bind, Option.bind_some, reduceCtorEq, false_imp_iff, implies_true, true_and]
      exact ih a
    | some f =>
      by_cases hl : f.points.length = f.hits.length
      · rw [prodStep_some fit doSp traj a x f hf hl]
        simp only [Option.bind_eq_bind, Option.bind_some]
        rw [ih]
        simp only [Option.some.injEq, forall_eq', hl, true_and, List.map_cons, List.zipIdx_cons,
          List.flatMap_cons, List.map_append, List.zipIdx_append, List.length_append, List.length_cons,
          List.length_nil, List.append_assoc, List.singleton_append, Nat.zero_add, List.length_map]
      · have : prodStep fit doSp traj a x = none := by unfold prodStep; rw [hf]; simp [hl]
        rw [this]
        simp [hl]

/-- **C467**, **C468**: it fails only if a fit gives a track and hits of different number; otherwise there is one
track for each valid fit, in order, associated with the hits of the fit in order; the space points are those of the
valid points of the track (or those of the tool), in order, each associated with its hit. -/
theorem C467_tracks {σ : Type} (fit : ℕ → List ℕ → Option (Fit σ)) (doSp traj : Bool) (assns : List (ℕ × ℕ)) :
    (∃ o, prodTracks fit doSp traj assns = some o) ↔
      ∀ (i : ℕ) (g : List ℕ) (f : Fit σ), (groups assns)[i]? = some g → fit i g = some f →
        f.points.length = f.hits.length := by
  unfold prodTracks
  constructor
  · rintro ⟨o, ho⟩ i g f hg hf
    exact ((prod_fold fit doSp traj _ _ o).1 ho).1 (g, i) (List.mem_zipIdx_iff_getElem?.2 hg) f hf
  · intro h
    exact ⟨⟨_, _, _, _⟩, (prod_fold fit doSp traj _ _ _).2
      ⟨fun x hx f hf => h x.2 x.1 f (List.mem_zipIdx_iff_getElem?.1 hx) hf, rfl, rfl, rfl, rfl⟩⟩

/-- **C467**, **C468**: what is written; see `C467_tracks`. -/
theorem C468_written {σ : Type} (fit : ℕ → List ℕ → Option (Fit σ)) (doSp traj : Bool) (assns : List (ℕ × ℕ))
    (o : ProdOut σ) (ho : prodTracks fit doSp traj assns = some o) :
    ∃ fs : List (Fit σ), fs = (groups assns).zipIdx.filterMap (fun x => fit x.2 x.1) ∧
      o.tracks = fs.map (·.points) ∧
      (∀ k h, (k, h) ∈ o.th ↔ ∃ f, fs[k]? = some f ∧ h ∈ f.hits) ∧
      (∀ f k, fs[k]? = some f → (o.th.filter (fun x => x.1 = k)).map (·.2) = f.hits) ∧
      ∃ sp : List (σ × ℕ), sp = fs.flatMap (fun f =>
          if doSp = false then []
          else if traj = true then (f.points.zip f.hits).filterMap (fun x => x.1.map (fun p => (p, x.2)))
          else f.sps) ∧
        o.sps = sp.map (·.1) ∧ o.hs = sp.zipIdx.map (fun s => (s.1.2, s.2)) := by
  unfold prodTracks at ho
  obtain ⟨_, h1, h2, h3, h4⟩ := (prod_fold fit doSp traj _ _ o).1 ho
  simp only [List.nil_append, List.length_nil] at h1 h2 h3 h4
  refine ⟨_, rfl, h1, ?_, ?_, _, rfl, ?_, ?_⟩
  · intro k h
    rw [h2, List.mem_flatMap]
    constructor
    · rintro ⟨⟨f, j⟩, hf, hm⟩
      rw [List.mem_map] at hm
      obtain ⟨h', hh, e⟩ := hm
      simp only [Prod.mk.injEq] at e
      obtain ⟨rfl, rfl⟩ := e
      exact ⟨f, List.mem_zipIdx_iff_getElem?.1 hf, hh⟩
    · rintro ⟨f, hf, hh⟩
      exact ⟨(f, k), List.mem_zipIdx_iff_getElem?.2 hf, List.mem_map.2 ⟨h, hh, rfl⟩⟩
  · intro f k hf
    rw [h2]
    generalize (groups assns).zipIdx.filterMap (fun x => fit x.2 x.1) = fs at hf
    clear h1 h2 h3 h4 ho
    have : ∀ (l : List (Fit σ)) (n : ℕ), l[k - n]? = some f → n ≤ k →
        (((l.zipIdx n).flatMap (fun s => s.1.hits.map (fun h => (s.2, h)))).filter
          (fun x => x.1 = k)).map (·.2) = f.hits := by
      intro l
      have hnone : ∀ (l : List (Fit σ)) (n : ℕ), k < n →
          ((l.zipIdx n).flatMap (fun s => s.1.hits.map (fun h => (s.2, h)))).filter (fun x => x.1 = k) = [] := by
        intro l n hn
        rw [List.filter_eq_nil_iff]
        intro x hx
        rw [List.mem_flatMap] at hx
        obtain ⟨y, hy, hm⟩ := hx
        rw [List.mem_map] at hm
        obtain ⟨_, _, rfl⟩ := hm
        have := List.le_snd_of_mem_zipIdx hy
        simp only [decide_eq_true_eq]; omega
      induction l with
      | nil => intro n h _; simp at h
      | cons g l ih =>
        intro n h hn
        rw [List.zipIdx_cons, List.flatMap_cons, List.filter_append, List.map_append]
        rcases Nat.lt_or_ge n k with hlt | hge
        · have e : k - n = (k - (n + 1)) + 1 := by omega
          rw [e, List.getElem?_cons_succ] at h
          rw [ih (n + 1) h (by omega)]
          have : (g.hits.map (fun h => (n, h))).filter (fun x => x.1 = k) = [] := by
            rw [List.filter_eq_nil_iff]
            intro x hx
            rw [List.mem_map] at hx
            obtain ⟨_, _, rfl⟩ := hx
            simp only [decide_eq_true_eq]; omega
          rw [this]; rfl
        · have e : n = k := by omega
          subst e
          simp only [Nat.sub_self, List.getElem?_cons_zero, Option.some.injEq] at h
          subst h
          rw [hnone l (n + 1) (by omega)]
          simp [List.filter_map, Function.comp_def]
    exact this fs 0 hf (Nat.zero_le _)
  · rw [h3]; congr 2; funext f; unfold spOf; cases doSp <;> simp
  · rw [h4]; congr 2; congr 1; funext f; unfold spOf; cases doSp <;> simp

example : prodTracks (fun t hs => if t = 1 then none else some ⟨hs.map (fun h => if h = 5 then none else some h), hs, []⟩)
      true true [(0, 4), (0, 5), (1, 6), (2, 7)] =
    some { tracks := [[some 4, none], [some 7]], th := [(0, 4), (0, 5), (1, 7)], sps := [4, 7],
           hs := [(4, 0), (7, 1)] } := by decide +kernel

end Verif.ProdMisc

import Verif.Seg2D.Thm4

/-! # The module that finds showers among hits (larreco/ClusterFinder/TrackShowerSplitter/TrackShowerHits_module.cc) -/

namespace Verif.Seg2D
open List (Perm)
open scoped List

/-- The two loops over clusters, TrackShowerHits_module.cc:110-125, 131-147: a cluster that is skipped stays; another is taken out and what it is split into is put at the end and not visited.  `n` is the
number of clusters to visit (`clsSize - c`). -/
def splitLoop (skip : Part → Bool) (f : Part → Option (List Part)) : Nat → Nat → List Part → Option (List Part)
  | 0, _, cls => some cls
  | n + 1, k, cls =>
    match cls[k]? with
    | none => some cls
    | some p =>
      if skip p then splitLoop skip f n (k + 1) cls
      else match f p with
        | none => none
        | some new => splitLoop skip f n k ((cls ++ new).eraseIdx k)

/-- What a cluster is split into in the first loop, TrackShowerHits_module.cc:116-124. -/
def hugeParts (c : Cfg) (p : Part) : Option (List Part) :=
  some [⟨(splitNaive c p.hits).1, false, false, false, false⟩, ⟨(splitNaive c p.hits).2, false, false, false, true⟩]

/-- The first loop, TrackShowerHits_module.cc:107-126. -/
def huge (c : Cfg) (cls : List Part) : Option (List Part) := splitLoop (fun p => decide (p.hits.length < 2)) (hugeParts c) cls.length 0 cls

/-- The second loop, TrackShowerHits_module.cc:128-148. -/
def bySeg (c : Cfg) (cls : List Part) : Option (List Part) := splitLoop (fun p => p.em || decide (p.hits.length < 2)) (fun p => (run c p.hits).map Prod.snd) cls.length 0 cls

/-- The clusters of one plane, TrackShowerHits_module.cc:104-150. -/
def plane (c : Cfg) (findHuge findMore : Bool) (hits : List Hit) : Option (List Part) :=
  let cls := (c.cl hits).map fun s => (⟨s, false, false, false, false⟩ : Part)
  match (if findHuge then huge c cls else some cls) with
  | none => none
  | some cls1 => if findMore then bySeg c cls1 else some cls1

/-- The output: the clusters that are showers and not empty, with their numbers, TrackShowerHits_module.cc:150-190; `n` is the number of the first. -/
def number : Nat → List Part → List (Nat × List Hit)
  | _, [] => []
  | n, p :: l => if p.hits = [] then number n l else if !p.em then number n l else (n + 65536, p.hits) :: number (n + 1) l

/-- The planes one after the other, TrackShowerHits_module.cc:99-192. -/
def produce (c : Cfg) (findHuge findMore : Bool) : Nat → List (List Hit) → Option (List (Nat × List Hit))
  | _, [] => some []
  | n, h :: l =>
    match plane c findHuge findMore h with
    | none => none
    | some cls => (produce c findHuge findMore (n + (number n cls).length) l).map fun r => number n cls ++ r

/-- Among the parts after the loop those that were there and skipped come first, then those not visited, then what the others were split into. -/
theorem splitLoop_spec (skip : Part → Bool) (f : Part → Option (List Part)) : ∀ (n k : Nat) (pre mid post r : List Part), pre.length = k → mid.length = n →
    splitLoop skip f n k (pre ++ mid ++ post) = some r → ∃ news : List (List Part), List.Forall₂ (fun p new => f p = some new) (mid.filter fun p => !skip p) news ∧ r = pre ++ mid.filter skip ++ post ++ news.flatten
  | 0, k, pre, mid, post, r, hk, hm, h => by
    have : mid = [] := List.eq_nil_of_length_eq_zero hm
    subst this
    unfold splitLoop at h
    simp only [Option.some.injEq] at h
    exact ⟨[], by simp, by simp [← h]⟩
  | n + 1, k, pre, mid, post, r, hk, hm, h => by
    cases mid with
    | nil => simp at hm
    | cons p mid =>
      have e : (pre ++ p :: mid ++ post)[k]? = some p := by
        rw [List.append_assoc, List.getElem?_append_right (by omega), hk]
        simp
      unfold splitLoop at h
      rw [e] at h
      dsimp only at h
      split at h
      · rename_i hs
        have e2 : pre ++ p :: mid ++ post = (pre ++ [p]) ++ mid ++ post := by simp
        rw [e2] at h
        obtain ⟨news, h1, h2⟩ := splitLoop_spec skip f n (k + 1) (pre ++ [p]) mid post r (by simp [hk]) (by simpa using hm) h
        refine ⟨news, by simpa [hs] using h1, ?_⟩
        rw [h2]
        simp [hs]
      · rename_i hs
        split at h
        · simp at h
        · rename_i new hf
          have e2 : (pre ++ p :: mid ++ post ++ new).eraseIdx k = pre ++ mid ++ (post ++ new) := by
            have : pre ++ p :: mid ++ post ++ new = pre ++ (p :: (mid ++ (post ++ new))) := by simp
            rw [this, List.eraseIdx_append_of_length_le (by omega), hk]
            simp
          rw [e2] at h
          obtain ⟨news, h1, h2⟩ := splitLoop_spec skip f n k pre mid (post ++ new) r hk (by simpa using hm) h
          refine ⟨new :: news, ?_, ?_⟩
          · simp only [hs, List.filter_cons, Bool.not_false, if_true]
            exact List.Forall₂.cons hf h1
          · rw [h2]
            simp [hs]

theorem splitLoop_ends (skip : Part → Bool) (f : Part → Option (List Part)) (hf : ∀ p, (f p).isSome = true) : ∀ (n k : Nat) (cls : List Part), (splitLoop skip f n k cls).isSome = true
  | 0, k, cls => rfl
  | n + 1, k, cls => by
    unfold splitLoop
    split
    · rfl
    · split
      · exact splitLoop_ends skip f hf n _ _
      · rename_i p _ _
        have := hf p
        split
        · rename_i hn
          rw [hn] at this
          simp at this
        · exact splitLoop_ends skip f hf n _ _

/-- Hits are at most lost. -/
theorem splitLoop_hits (skip : Part → Bool) (f : Part → Option (List Part)) (hf : ∀ p new, f p = some new → List.Subperm (hitsOf new) p.hits) (cls r : List Part)
    (h : splitLoop skip f cls.length 0 cls = some r) : List.Subperm (hitsOf r) (hitsOf cls) := by
  obtain ⟨news, h1, h2⟩ := splitLoop_spec skip f cls.length 0 [] cls [] r rfl rfl (by simpa using h)
  simp only [List.nil_append, List.append_nil] at h2
  have hp : hitsOf cls ~ hitsOf (cls.filter skip) ++ hitsOf (cls.filter fun p => !skip p) := by
    unfold hitsOf
    rw [← List.flatMap_append]
    exact ((List.filter_append_perm skip cls).flatMap_right Part.hits).symm
  have hn : ∀ (a : List Part) (b : List (List Part)), List.Forall₂ (fun p new => f p = some new) a b → List.Subperm (hitsOf b.flatten) (hitsOf a) := by
    intro a b hab
    induction hab with
    | nil => exact List.Subperm.refl _
    | cons h _ ih =>
      unfold hitsOf at ih ⊢
      rw [List.flatten_cons, List.flatMap_append, List.flatMap_cons]
      exact List.Subperm.append (hf _ _ h) ih
  rw [h2]
  have : hitsOf (cls.filter skip ++ news.flatten) = hitsOf (cls.filter skip) ++ hitsOf news.flatten := by unfold hitsOf; rw [List.flatMap_append]
  rw [this]
  exact (List.Subperm.append (List.Subperm.refl _) (hn _ _ h1)).trans hp.symm.subperm

theorem naive_perm (c : Cfg) (l : List Hit) : (splitNaive c l).1 ++ (splitNaive c l).2 ~ l := by
  rw [C411_naive]
  have := List.filter_append_perm (fun h => decide (others c l h ≤ c.minHits)) l
  have e : (fun h => decide (c.minHits < others c l h)) = fun h => !decide (others c l h ≤ c.minHits) := by
    funext h
    rw [← decide_not]
    simp only [not_le]
  rw [e]
  exact this

theorem plane_hits (c : Cfg) (hcl : Clusters c.cl) (a b : Bool) (hits : List Hit) (r : List Part) (h : plane c a b hits = some r) : List.Subperm (hitsOf r) hits := by
  have h0 : hitsOf ((c.cl hits).map fun s => (⟨s, false, false, false, false⟩ : Part)) ~ hits := by
    have : hitsOf ((c.cl hits).map fun s => (⟨s, false, false, false, false⟩ : Part)) = (c.cl hits).flatten := by
      unfold hitsOf
      rw [List.flatMap_map]
      exact List.flatMap_id
    rw [this]
    exact (hcl hits).1
  have hH : ∀ cls r : List Part, huge c cls = some r → List.Subperm (hitsOf r) (hitsOf cls) := by
    intro cls r h
    refine splitLoop_hits _ _ ?_ cls r h
    intro p new e
    unfold hugeParts at e
    simp only [Option.some.injEq] at e
    subst e
    have := (naive_perm c p.hits).subperm
    simpa [hitsOf] using this
  have hS : ∀ cls r : List Part, bySeg c cls = some r → List.Subperm (hitsOf r) (hitsOf cls) := by
    intro cls r h
    refine splitLoop_hits _ _ ?_ cls r h
    intro p new e
    rw [Option.map_eq_some_iff] at e
    obtain ⟨⟨left, g⟩, e1, e2⟩ := e
    simp only at e2
    subst e2
    have := (C404_hits_partial c p.hits left g e1).1
    exact (List.sublist_append_left _ _).subperm.trans this.subperm
  unfold plane at h
  dsimp only at h
  split at h
  · simp at h
  · rename_i cls1 e
    have h1 : List.Subperm (hitsOf cls1) hits := by
      split at e
      · exact (hH _ _ e).trans h0.subperm
      · simp only [Option.some.injEq] at e
        rw [← e]
        exact h0.subperm
    split at h
    · exact (hS _ _ h).trans h1
    · simp only [Option.some.injEq] at h
      rw [← h]
      exact h1

theorem number_spec : ∀ (l : List Part) (n : Nat), (number n l).map Prod.fst = (List.range' n (number n l).length).map (· + 65536) ∧ (number n l).map Prod.snd = (l.filter fun p => decide (p.hits ≠ []) && p.em).map Part.hits
  | [], n => by simp [number]
  | p :: l, n => by
    unfold number
    split
    · rename_i h0
      have := number_spec l n
      refine ⟨this.1, ?_⟩
      rw [this.2]
      simp [h0]
    · rename_i h0
      split
      · rename_i he
        have := number_spec l n
        refine ⟨this.1, ?_⟩
        rw [this.2]
        simp at he
        simp [he]
      · rename_i he
        have := number_spec l (n + 1)
        simp only [Bool.not_eq_true', Bool.not_eq_false] at he
        refine ⟨?_, ?_⟩
        · rw [List.map_cons, this.1, List.length_cons, List.range'_succ]
          rfl
        · rw [List.map_cons, this.2]
          simp [h0, he]

/-- C413: each cluster in the output has hits, all clusters together have hits of the event, each at most once, and the numbers of the clusters are consecutive from 65536, over all planes. -/
theorem C413_output (c : Cfg) (hcl : Clusters c.cl) (a b : Bool) (planes : List (List Hit)) (out : List (Nat × List Hit)) (h : produce c a b 0 planes = some out) :
    (∀ x ∈ out, x.2 ≠ []) ∧ List.Subperm (out.flatMap Prod.snd) planes.flatten ∧ out.map Prod.fst = (List.range out.length).map (· + 65536) := by
  have key : ∀ (planes : List (List Hit)) (n : Nat) (out : List (Nat × List Hit)), produce c a b n planes = some out →
      (∀ x ∈ out, x.2 ≠ []) ∧ List.Subperm (out.flatMap Prod.snd) planes.flatten ∧ out.map Prod.fst = (List.range' n out.length).map (· + 65536) := by
    intro planes
    induction planes with
    | nil => intro n out h; simp [produce] at h; subst h; simp
    | cons p l ih =>
      intro n out h
      unfold produce at h
      split at h
      · simp at h
      · rename_i cls e
        rw [Option.map_eq_some_iff] at h
        obtain ⟨r, hr, rfl⟩ := h
        obtain ⟨i1, i2, i3⟩ := ih _ r hr
        obtain ⟨n1, n2⟩ := number_spec cls n
        have hsub := plane_hits c hcl a b p cls e
        refine ⟨?_, ?_, ?_⟩
        · intro x hx
          rcases List.mem_append.1 hx with hx | hx
          · have : x.2 ∈ (number n cls).map Prod.snd := List.mem_map.2 ⟨x, hx, rfl⟩
            rw [n2] at this
            obtain ⟨q, hq, e⟩ := List.mem_map.1 this
            have := (List.mem_filter.1 hq).2
            simp only [Bool.and_eq_true, decide_eq_true_eq] at this
            rw [← e]
            exact this.1
          · exact i1 x hx
        · rw [List.flatMap_append, List.flatten_cons]
          refine List.Subperm.append ?_ i2
          have e1 : (number n cls).flatMap Prod.snd = hitsOf (cls.filter fun p => decide (p.hits ≠ []) && p.em) := by
            unfold hitsOf
            rw [List.flatMap_def, n2, ← List.flatMap_def]
          rw [e1]
          refine List.Subperm.trans (List.Sublist.subperm ?_) hsub
          unfold hitsOf
          generalize (fun p : Part => decide (p.hits ≠ []) && p.em) = f
          clear * -
          induction cls with
          | nil => exact List.Sublist.refl _
          | cons q cls ih =>
            rw [List.filter_cons]
            split
            · rw [List.flatMap_cons, List.flatMap_cons]; exact ih.append_left _
            · rw [List.flatMap_cons]; exact ih.trans (List.sublist_append_right _ _)
        · rw [List.map_append, n1, i3, List.length_append, ← List.range'_append_1, List.map_append]
  have := key planes 0 out h
  rw [← List.range_eq_range'] at this
  exact this

/-- C413: with settings as in C405 and C408 the module ends for every event, and the search for huge showers alone ends always. -/
theorem C413_ends (c : Cfg) (a b : Bool) (hs : b = true → Clusters c.cl ∧ c.line ≠ 0 ∧ 0 < c.rmin ∧ 1 ≤ c.minVtx) (planes : List (List Hit)) (n : Nat) : (produce c a b n planes).isSome = true := by
  have hp : ∀ hits, (plane c a b hits).isSome = true := by
    intro hits
    have h1 : ∀ cls, (huge c cls).isSome = true := fun cls => splitLoop_ends _ _ (fun _ => rfl) _ _ _
    unfold plane
    dsimp only
    split
    · rename_i e
      split at e
      · have := h1 ((c.cl hits).map fun s => (⟨s, false, false, false, false⟩ : Part))
        rw [e] at this
        simp at this
      · simp at e
    · split
      · rename_i hb
        obtain ⟨s1, s2, s3, s4⟩ := hs hb
        exact splitLoop_ends _ _ (fun p => by rw [Option.isSome_map]; exact C405_run_partial c s1 s2 s3 s4 p.hits) _ _ _
      · rfl
  induction planes generalizing n with
  | nil => rfl
  | cons p l ih =>
    unfold produce
    have := hp p
    split
    · rename_i e
      rw [e] at this
      simp at this
    · rw [Option.isSome_map]
      exact ih _

/-- C413: what the search for huge showers gives for a plane: the clusters of one hit, then for each other cluster its hits of tracks and its hits of showers. -/
theorem C413_huge (c : Cfg) (cls : List Part) : huge c cls = some (cls.filter (fun p => decide (p.hits.length < 2)) ++ (cls.filter (fun p => decide (2 ≤ p.hits.length))).flatMap fun p =>
    [⟨(splitNaive c p.hits).1, false, false, false, false⟩, ⟨(splitNaive c p.hits).2, false, false, false, true⟩]) := by
  have h1 : (huge c cls).isSome = true := splitLoop_ends _ _ (fun _ => rfl) _ _ _
  obtain ⟨r, hr⟩ := Option.isSome_iff_exists.1 h1
  rw [hr]
  unfold huge at hr
  obtain ⟨news, h1, h2⟩ := splitLoop_spec _ _ cls.length 0 [] cls [] r rfl rfl (by simpa using hr)
  simp only [List.nil_append, List.append_nil] at h2
  rw [h2]
  congr 2
  have e : (fun p : Part => !decide (p.hits.length < 2)) = fun p => decide (2 ≤ p.hits.length) := by
    funext p
    by_cases h : p.hits.length < 2
    · have : ¬ 2 ≤ p.hits.length := by omega
      simp [h]
    · have : 2 ≤ p.hits.length := by omega
      simp [this]
  rw [e] at h1
  revert h1
  generalize cls.filter (fun p => decide (2 ≤ p.hits.length)) = m
  intro h1
  clear * - h1
  induction h1 with
  | nil => rfl
  | cons h _ ih =>
    unfold hugeParts at h
    simp only [Option.some.injEq] at h
    rw [List.flatten_cons, ih, List.flatMap_cons, h]

/-- The clusters of the example: all hits together. -/
def together (l : List Hit) : List (List Hit) := if l = [] then [] else [l]
theorem together_clusters : Clusters together := by
  intro l
  unfold together
  split
  · rename_i h; subst h; simp
  · rename_i h; simpa using h

def exM : Cfg := ⟨1, 5, 1, 2, 1, 2, 1, fun a b => decide (d2 a.pt b.pt ≤ 1), together⟩

example : Clusters exM.cl ∧ produce exM true false 0 [[⟨0, 0, 0⟩, ⟨1, 1, 0⟩, ⟨2, 0, 1⟩, ⟨3, 30, 0⟩], [], [⟨4, 0, 0⟩, ⟨5, 1, 0⟩, ⟨6, 0, 1⟩]]
    = some [(65536, [⟨0, 0, 0⟩, ⟨1, 1, 0⟩, ⟨2, 0, 1⟩]), (65537, [⟨4, 0, 0⟩, ⟨5, 1, 0⟩, ⟨6, 0, 1⟩])] := ⟨together_clusters, by decide +kernel⟩

end Verif.Seg2D

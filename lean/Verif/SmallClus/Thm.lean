import Verif.SmallClus.Model
import Mathlib.Data.List.Perm.Subperm
import Mathlib.Algebra.BigOperators.Group.List.Basic
import Mathlib.Tactic.Linarith
import Mathlib.Tactic.Ring

/-!
# Theorems about `cluster::SmallClusterFinder` and `shower::ShowerEnergyAlg`
-/

namespace Verif.SmallClus

/-! ## Specifications -/

/-- Distance of a hit from another, as configured. -/
def Within (c : Cfg) (a b : Hit) : Prop := c.dist b.wire b.time a.wire a.time < c.radius

instance (c : Cfg) (a b : Hit) : Decidable (Within c a b) := by unfold Within; infer_instance

/-- Number of hits of the list within the radius of the hit. -/
def crowd (c : Cfg) (l : List Hit) (h : Hit) : Nat := l.countP fun x => decide (Within c h x)

/-- The hit has fewer hits than configured about it, among the hits of its plane. -/
def Lonely (c : Cfg) (hits : List Hit) (h : Hit) : Prop :=
  (crowd c (hits.filter fun x => x.plane = h.plane) h : ℚ) < c.nHits

/-- The hits of a list of clusters. -/
def hitsOf (r : List Clus) : List Hit := r.flatMap Clus.hits

/-! ## Lemmas -/

theorem near_iff (c : Cfg) (s h : Hit) : near c s h = true ↔ Within c s h := by
  simp [near, Within]

theorem foldl_filter (p : Hit → Prop) [DecidablePred p] (l acc : List Hit) :
    l.foldl (fun acc h => if p h then acc ++ [h] else acc) acc = acc ++ l.filter (fun h => decide (p h)) := by
  induction l generalizing acc with
  | nil => simp
  | cons a t ih =>
    simp only [List.foldl_cons]
    rw [ih]
    by_cases h : p a <;> simp [h]

theorem selectLocal_eq (c : Cfg) (s : Hit) (l : List Hit) : selectLocal c s l = l.filter (near c s) := by
  unfold selectLocal
  rw [foldl_filter (fun h => near c s h = true)]
  simp

theorem byPlane_eq (hits : List Hit) (p : Nat) : byPlane hits p = hits.filter fun h => h.plane = p := by
  unfold byPlane
  rw [foldl_filter (fun h => h.plane = p)]
  simp

theorem createHigh_aux (q : Hit → Prop) [DecidablePred q] (l : List Hit) (s : List Hit × List Hit) :
    l.foldl (fun s h => if q h then (s.1 ++ [h], s.2) else (s.1, s.2 ++ [h])) s
      = (s.1 ++ l.filter (fun h => decide (q h)), s.2 ++ l.filter (fun h => !decide (q h))) := by
  induction l generalizing s with
  | nil => simp
  | cons a t ih =>
    simp only [List.foldl_cons]
    rw [ih]
    by_cases h : q a <;> simp [h]

theorem selectLocal_length (c : Cfg) (s : Hit) (l : List Hit) : (selectLocal c s l).length = crowd c l s := by
  rw [selectLocal_eq, crowd, List.countP_eq_length_filter]
  congr 1

theorem createHigh_eq (c : Cfg) (l : List Hit) :
    createHigh c l = (l.filter (fun h => decide ((crowd c l h : ℚ) < c.nHits)),
      l.filter (fun h => !decide ((crowd c l h : ℚ) < c.nHits))) := by
  unfold createHigh
  rw [createHigh_aux (fun h => ((selectLocal c h l).length : ℚ) < c.nHits)]
  simp [selectLocal_length]

/-- Positions (from `k`) of the hits selected. -/
def idxFrom (p : Hit → Bool) : Nat → List Hit → List Nat
  | _, [] => []
  | k, a :: t => if p a then k :: idxFrom p (k + 1) t else idxFrom p (k + 1) t

theorem selectIdx_aux (p : Hit → Bool) (l : List Hit) (s : List Hit × List Nat × Nat) :
    l.foldl (fun s h => if p h then (s.1 ++ [h], s.2.1 ++ [s.2.2], s.2.2 + 1) else (s.1, s.2.1, s.2.2 + 1)) s
      = (s.1 ++ l.filter p, s.2.1 ++ idxFrom p s.2.2 l, s.2.2 + l.length) := by
  induction l generalizing s with
  | nil => simp [idxFrom]
  | cons a t ih =>
    simp only [List.foldl_cons]
    rw [ih]
    cases h : p a <;> simp [h, idxFrom] <;> omega

theorem selectIdx_eq (c : Cfg) (s : Hit) (l : List Hit) :
    selectIdx c s l = (l.filter (near c s), idxFrom (near c s) 0 l, l.length) := by
  unfold selectIdx
  rw [selectIdx_aux]
  simp

theorem idxFrom_ge (p : Hit → Bool) (l : List Hit) (k : Nat) : ∀ i ∈ idxFrom p k l, k ≤ i := by
  induction l generalizing k with
  | nil => simp [idxFrom]
  | cons a t ih =>
    intro i hi
    unfold idxFrom at hi
    split at hi
    · rcases List.mem_cons.1 hi with rfl | hi
      · exact le_refl _
      · exact Nat.le_of_succ_le (ih _ i hi)
    · exact Nat.le_of_succ_le (ih _ i hi)

theorem eraseBack_aux (p : Hit → Bool) (l pre : List Hit) :
    eraseBack (pre ++ l) (idxFrom p pre.length l) = pre ++ l.filter (fun h => !p h) := by
  unfold eraseBack
  induction l generalizing pre with
  | nil => simp [idxFrom]
  | cons a t ih =>
    unfold idxFrom
    have h1 := ih (pre ++ [a])
    simp only [List.length_append, List.length_cons, List.length_nil, zero_add,
      List.append_assoc, List.cons_append, List.nil_append] at h1
    cases h : p a
    · simp only [Bool.false_eq_true, if_false, List.filter_cons, h, Bool.not_false, if_true]
      exact h1
    · simp only [if_true, List.reverse_cons, List.foldl_append, List.foldl_cons, List.foldl_nil, List.filter_cons,
        h, Bool.not_true, Bool.false_eq_true, if_false]
      rw [h1, List.eraseIdx_append_of_length_le (le_refl _)]
      simp

theorem eraseBack_eq (c : Cfg) (s : Hit) (l : List Hit) :
    eraseBack l (selectIdx c s l).2.1 = l.filter (fun h => !near c s h) := by
  rw [selectIdx_eq]
  exact eraseBack_aux (near c s) l []

theorem split_cons (c : Cfg) (fuel : Nat) (seed : Hit) (rest : List Hit) :
    split c (fuel + 1) (seed :: rest) =
      match split c fuel ((seed :: rest).filter fun h => !near c seed h) with
      | some r => some ((seed :: rest).filter (near c seed) :: r)
      | none => none := by
  have h := eraseBack_eq c seed (seed :: rest)
  have h2 : (selectIdx c seed (seed :: rest)).1 = (seed :: rest).filter (near c seed) := by rw [selectIdx_eq]
  conv_lhs => unfold split
  dsimp only
  rw [h, h2]
  cases split c fuel (List.filter (fun h => !near c seed h) (seed :: rest)) <;> rfl

theorem filter_perm (p : Hit → Bool) (l : List Hit) : (l.filter p ++ l.filter (fun h => !p h)).Perm l :=
  List.filter_append_perm p l

theorem split_perm (c : Cfg) (fuel : Nat) (l : List Hit) (r : List (List Hit)) (h : split c fuel l = some r) :
    r.flatten.Perm l := by
  induction fuel generalizing l r with
  | zero => cases l with
    | nil => simp [split] at h; subst h; simp
    | cons a t => simp [split] at h
  | succ n ih => cases l with
    | nil => simp [split] at h; subst h; simp
    | cons a t =>
      rw [split_cons] at h
      split at h
      · rename_i r' hr
        obtain rfl := Option.some.inj h
        rw [List.flatten_cons]
        exact ((ih _ _ hr).append_left _).trans (filter_perm _ _)
      · cases h

theorem split_some (c : Cfg) (l : List Hit) (hr : ∀ h ∈ l, Within c h h) (fuel : Nat) (hf : l.length ≤ fuel) :
    ∃ r, split c fuel l = some r := by
  induction fuel generalizing l with
  | zero => cases l with
    | nil => exact ⟨_, rfl⟩
    | cons a t => simp at hf
  | succ n ih => cases l with
    | nil => exact ⟨_, rfl⟩
    | cons a t =>
      have ha : near c a a = true := (near_iff c a a).2 (hr a (by simp))
      have hl : ((a :: t).filter fun h => !near c a h).length ≤ n := by
        simp only [List.filter_cons, ha, Bool.not_true, Bool.false_eq_true, if_false]
        have := List.length_filter_le (fun h => !near c a h) t
        simp at hf; omega
      obtain ⟨r, h⟩ := ih _ (fun h hh => hr h (List.mem_of_mem_filter hh)) hl
      exact ⟨_, by rw [split_cons, h]⟩

/-- What is known of the clusters of a split. -/
theorem split_spec (c : Cfg) (fuel : Nat) (l : List Hit) (r : List (List Hit)) (hr : ∀ h ∈ l, Within c h h)
    (h : split c fuel l = some r) :
    (∀ g ∈ r, ∃ s t, g = s :: t ∧ (∀ x ∈ g, Within c s x) ∧ g.Sublist l) ∧
    r.Pairwise (fun g k => ∀ s, g.head? = some s → ∀ x ∈ k, ¬ Within c s x) := by
  induction fuel generalizing l r with
  | zero => cases l with
    | nil => simp [split] at h; subst h; simp
    | cons a t => simp [split] at h
  | succ n ih => cases l with
    | nil => simp [split] at h; subst h; simp
    | cons a t =>
      rw [split_cons] at h
      split at h
      · rename_i r' hr'
        obtain rfl := Option.some.inj h
        obtain ⟨i1, i2⟩ := ih _ _ (fun h hh => hr h (List.mem_of_mem_filter hh)) hr'
        have ha : near c a a = true := (near_iff c a a).2 (hr a (by simp))
        have hg : (a :: t).filter (near c a) = a :: t.filter (near c a) := by
          simp [List.filter_cons, ha]
        constructor
        · intro g hg'
          rcases List.mem_cons.1 hg' with rfl | hg'
          · refine ⟨a, _, hg, fun x hx => (near_iff c a x).1 (List.mem_filter.1 hx).2, List.filter_sublist⟩
          · obtain ⟨s, u, e, w, sub⟩ := i1 g hg'
            exact ⟨s, u, e, w, sub.trans List.filter_sublist⟩
        · rw [List.pairwise_cons]
          refine ⟨?_, i2⟩
          intro k hk s hs x hx
          rw [hg] at hs
          obtain rfl := Option.some.inj hs
          obtain ⟨_, _, _, _, sub⟩ := i1 k hk
          have := (List.mem_filter.1 (sub.subset hx)).2
          intro hw
          rw [(near_iff c a x).2 hw] at this
          simp at this
      · cases h

theorem allPlanes_some (c : Cfg) (fuel : Nat) (hits : List Hit) (ps : List Nat) (r : List Clus)
    (h : allPlanes c fuel hits ps = some r) :
    ∃ o : Nat → PlaneOut, (∀ p ∈ ps, findPlane c fuel hits p = some (o p)) ∧
      r = ps.flatMap fun p => planeClusters p (o p) := by
  refine ⟨fun p => (findPlane c fuel hits p).getD ⟨[], []⟩, ?_⟩
  induction ps generalizing r with
  | nil => simp [allPlanes] at h; subst h; simp
  | cons p ps ih =>
    unfold allPlanes at h
    split at h
    · rename_i o r' ho hr'
      obtain rfl := Option.some.inj h
      obtain ⟨i1, i2⟩ := ih _ hr'
      refine ⟨?_, ?_⟩
      · intro q hq
        rcases List.mem_cons.1 hq with rfl | hq
        · simp [ho]
        · exact i1 q hq
      · simp only [List.flatMap_cons, ho, Option.getD_some]
        rw [i2]
    · cases h

theorem findPlane_spec (c : Cfg) (fuel : Nat) (hits : List Hit) (p : Nat) (o : PlaneOut)
    (h : findPlane c fuel hits p = some o) :
    o.left = (hits.filter fun x => x.plane = p).filter
        (fun x => !decide ((crowd c (hits.filter fun x => x.plane = p) x : ℚ) < c.nHits)) ∧
    split c fuel ((hits.filter fun x => x.plane = p).filter
        (fun x => decide ((crowd c (hits.filter fun x => x.plane = p) x : ℚ) < c.nHits))) = some o.small := by
  unfold findPlane at h
  dsimp only at h
  rw [byPlane_eq, createHigh_eq] at h
  split at h
  · rename_i r hr
    obtain rfl := Option.some.inj h
    exact ⟨rfl, hr⟩
  · cases h

theorem planeClusters_hits (p : Nat) (o : PlaneOut) :
    (planeClusters p o).flatMap Clus.hits = o.left ++ o.small.flatten := by
  unfold planeClusters
  rw [List.flatMap_append]
  congr 1
  · split
    · simp
    · rename_i h
      have h' : o.left = [] := by
        have : o.left.length = 0 := by omega
        exact List.length_eq_zero_iff.1 this
      simp [h']
  · rw [List.flatMap_def]
    congr 1
    apply List.ext_getElem
    · simp
    · intro i h1 h2
      simp

theorem produce_put (c : Cfg) (fuel : Nat) (hits : List Hit) (r : List Clus) (h : produce c fuel hits = .put r) :
    hits ≠ [] ∧ allPlanes c fuel hits (List.range c.nPlanes) = some r := by
  unfold produce at h
  split at h
  · cases h
  · rename_i hne
    split at h
    · rename_i r' hr
      obtain rfl := Outcome.put.inj h
      exact ⟨fun e => hne (by simp [e]), hr⟩
    · cases h

theorem perm_by_plane (hits : List Hit) (n : Nat) :
    ((List.range n).flatMap fun p => hits.filter fun x => x.plane = p).Perm
      (hits.filter fun x => decide (x.plane < n)) := by
  induction n with
  | zero => simp
  | succ n ih =>
    rw [List.range_succ, List.flatMap_append]
    simp only [List.flatMap_cons, List.flatMap_nil, List.append_nil]
    refine (ih.append_right _).trans ?_
    have h1 := filter_perm (fun x => decide (x.plane < n)) (hits.filter fun x => decide (x.plane < n + 1))
    have e1 : (hits.filter fun x => decide (x.plane < n + 1)).filter (fun x => decide (x.plane < n))
        = hits.filter fun x => decide (x.plane < n) := by
      rw [List.filter_filter]
      apply List.filter_congr
      intro x _
      rw [Bool.eq_iff_iff]; simp; omega
    have e2 : (hits.filter fun x => decide (x.plane < n + 1)).filter (fun x => !decide (x.plane < n))
        = hits.filter fun x => x.plane = n := by
      rw [List.filter_filter]
      apply List.filter_congr
      intro x _
      rw [Bool.eq_iff_iff]; simp; omega
    rw [e1, e2] at h1
    exact h1

theorem perm_flatMap_pointwise (ps : List Nat) (f g : Nat → List Hit) (h : ∀ p ∈ ps, (f p).Perm (g p)) :
    (ps.flatMap f).Perm (ps.flatMap g) := by
  induction ps with
  | nil => simp
  | cons p ps ih =>
    simp only [List.flatMap_cons]
    exact (h p (by simp)).append (ih fun q hq => h q (by simp [hq]))

theorem flatMap_flatMap' (ps : List Nat) (f : Nat → List Clus) :
    (ps.flatMap f).flatMap Clus.hits = ps.flatMap fun p => (f p).flatMap Clus.hits := by
  induction ps with
  | nil => rfl
  | cons a t ih => simp [List.flatMap_append, ih]

theorem findPlane_perm (c : Cfg) (fuel : Nat) (hits : List Hit) (p : Nat) (o : PlaneOut)
    (h : findPlane c fuel hits p = some o) :
    (o.left ++ o.small.flatten).Perm (hits.filter fun x => x.plane = p) := by
  obtain ⟨h1, h2⟩ := findPlane_spec c fuel hits p o h
  have h3 := split_perm _ _ _ _ h2
  rw [h1]
  refine (h3.append_left _).trans (List.perm_append_comm.trans ?_)
  exact filter_perm _ _

/-! ## C329: every hit in exactly one cluster -/

/-- **C329.** The clusters put in the event hold every hit of the event exactly once (all hits being of the planes of
the detector). -/
theorem C329_once (c : Cfg) (fuel : Nat) (hits : List Hit) (r : List Clus) (hp : ∀ h ∈ hits, h.plane < c.nPlanes)
    (h : produce c fuel hits = .put r) : (hitsOf r).Perm hits := by
  obtain ⟨_, h⟩ := produce_put c fuel hits r h
  obtain ⟨o, h1, rfl⟩ := allPlanes_some c fuel hits _ r h
  unfold hitsOf
  rw [flatMap_flatMap']
  simp only [planeClusters_hits]
  refine (perm_flatMap_pointwise _ _ _ fun p hp' => findPlane_perm c fuel hits p (o p) (h1 p hp')).trans ?_
  refine (perm_by_plane hits c.nPlanes).trans ?_
  rw [List.filter_eq_self.2]
  intro a ha
  simpa using hp a ha

/-- **C329.** No cluster is empty, when every hit is within the radius of itself, and all the hits of a cluster are of the same
plane. -/
theorem C329_nonempty (c : Cfg) (fuel : Nat) (hits : List Hit) (r : List Clus) (hr : ∀ h ∈ hits, Within c h h)
    (h : produce c fuel hits = .put r) :
    ∀ k ∈ r, k.hits ≠ [] ∧ ∃ p < c.nPlanes, ∀ x ∈ k.hits, x.plane = p ∧ x ∈ hits := by
  obtain ⟨_, h⟩ := produce_put c fuel hits r h
  obtain ⟨o, h1, rfl⟩ := allPlanes_some c fuel hits _ r h
  intro k hk
  obtain ⟨p, hp, hk⟩ := List.mem_flatMap.1 hk
  have hf := h1 p hp
  obtain ⟨e1, e2⟩ := findPlane_spec c fuel hits p (o p) hf
  have hsub : ∀ x ∈ k.hits, x.plane = p ∧ x ∈ hits := by
    intro x hx
    have : x ∈ (planeClusters p (o p)).flatMap Clus.hits := List.mem_flatMap.2 ⟨k, hk, hx⟩
    rw [planeClusters_hits] at this
    have := (findPlane_perm c fuel hits p (o p) hf).mem_iff.1 this
    have := List.mem_filter.1 this
    exact ⟨by simpa using this.2, this.1⟩
  refine ⟨?_, p, List.mem_range.1 hp, hsub⟩
  unfold planeClusters at hk
  rcases List.mem_append.1 hk with hk | hk
  · split at hk
    · rename_i hne
      simp at hk
      subst hk
      intro e
      apply hne
      rw [show (o p).left = [] from e]; rfl
    · simp at hk
  · obtain ⟨i, hi, rfl⟩ := List.mem_mapIdx.1 hk
    have := (split_spec c fuel _ _ (fun x hx => hr x (List.mem_of_mem_filter (List.mem_of_mem_filter hx))) e2).1
      ((o p).small[i]) (List.getElem_mem hi)
    obtain ⟨s, t, e, _⟩ := this
    simp [e]

/-! ## C330: termination -/

/-- **C330.** If every hit is within the radius of itself (distance 0 and a positive radius), the finder ends, within as many
turns as there are hits. -/
theorem C330_ends (c : Cfg) (hits : List Hit) (hne : hits ≠ []) (hr : ∀ h ∈ hits, Within c h h) (fuel : Nat)
    (hf : hits.length ≤ fuel) : ∃ r, produce c fuel hits = .put r := by
  have key : ∀ ps : List Nat, ∃ r, allPlanes c fuel hits ps = some r := by
    intro ps
    induction ps with
    | nil => exact ⟨_, rfl⟩
    | cons p ps ih =>
      obtain ⟨r, hr'⟩ := ih
      have : ∃ o, findPlane c fuel hits p = some o := by
        unfold findPlane
        dsimp only
        rw [byPlane_eq, createHigh_eq]
        obtain ⟨r, h⟩ := split_some c ((hits.filter fun x => x.plane = p).filter
          (fun x => decide ((crowd c (hits.filter fun x => x.plane = p) x : ℚ) < c.nHits)))
          (fun x hx => hr x (List.mem_of_mem_filter (List.mem_of_mem_filter hx))) fuel
          (le_trans (List.length_filter_le _ _) (le_trans (List.length_filter_le _ _) hf))
        exact ⟨⟨_, r⟩, by rw [h]⟩
      obtain ⟨o, ho⟩ := this
      exact ⟨_, by unfold allPlanes; rw [ho, hr']⟩
  obtain ⟨r, h⟩ := key (List.range c.nPlanes)
  refine ⟨r, ?_⟩
  unfold produce
  rw [if_neg (by simpa using hne), h]

/-- **C330.** With a radius that no distance is below (a radius of 0 or less), the finder never ends as soon as one hit of a plane of the
detector is in an event, when small clusters are wanted (`0 < NHitsInClust`). -/
theorem C330_endless (c : Cfg) (hits : List Hit) (h0 : 0 < c.nHits) (hr : ∀ a b, ¬ Within c a b)
    (h : ∃ x ∈ hits, x.plane < c.nPlanes) (fuel : Nat) : produce c fuel hits = .running := by
  obtain ⟨x, hx, hp⟩ := h
  have hsplit : ∀ fuel (l : List Hit), l ≠ [] → split c fuel l = none := by
    intro fuel
    induction fuel with
    | zero => intro l hl; cases l with
      | nil => exact absurd rfl hl
      | cons a t => rfl
    | succ n ih => intro l hl; cases l with
      | nil => exact absurd rfl hl
      | cons a t =>
        rw [split_cons]
        have : (a :: t).filter (fun h => !near c a h) = a :: t := by
          rw [List.filter_eq_self]
          intro y _
          have : near c a y = false := by
            cases e : near c a y
            · rfl
            · exact absurd ((near_iff c a y).1 e) (hr a y)
          simp [this]
        rw [this, ih _ (by simp)]
  have hplane : findPlane c fuel hits x.plane = none := by
    unfold findPlane
    dsimp only
    rw [byPlane_eq, createHigh_eq]
    rw [hsplit]
    apply List.ne_nil_of_mem (a := x)
    refine List.mem_filter.2 ⟨List.mem_filter.2 ⟨hx, by simp⟩, ?_⟩
    have : crowd c (hits.filter fun y => y.plane = x.plane) x = 0 := by
      unfold crowd
      rw [List.countP_eq_zero]
      intro y _
      simpa using hr x y
    simp [this, h0]
  have key : ∀ ps : List Nat, x.plane ∈ ps → allPlanes c fuel hits ps = none := by
    intro ps
    induction ps with
    | nil => simp
    | cons p ps ih =>
      intro hm
      unfold allPlanes
      rcases List.mem_cons.1 hm with e | hm
      · rw [← e, hplane]
      · rw [ih hm]
        split
        · rename_i h1 h2; cases h2
        · rfl
  unfold produce
  rw [if_neg (by intro e; rw [List.length_eq_zero_iff.1 e] at hx; simp at hx), key _ (List.mem_range.2 hp)]

/-! ## C331: which hits are in small clusters -/

/-- **C331.** A hit of plane `p` is in a cluster with the leftover number `100 p` or in a small cluster; it is in a small cluster if and
only if it has fewer hits than configured within the radius, of all the hits of its plane and itself.  Here `r` is the product; the
leftover cluster is the cluster of number `100 p` whose hits are of plane `p`. -/
theorem C331_small (c : Cfg) (fuel : Nat) (hits : List Hit) (r : List Clus)
    (h : produce c fuel hits = .put r) :
    ∀ k ∈ r, ∀ x ∈ k.hits, (Lonely c hits x ↔ k.id ≠ 100 * x.plane) := by
  obtain ⟨_, h⟩ := produce_put c fuel hits r h
  obtain ⟨o, h1, rfl⟩ := allPlanes_some c fuel hits _ r h
  intro k hk x hx
  obtain ⟨p, hp, hk⟩ := List.mem_flatMap.1 hk
  have hf := h1 p hp
  obtain ⟨e1, e2⟩ := findPlane_spec c fuel hits p (o p) hf
  unfold planeClusters at hk
  rcases List.mem_append.1 hk with hk | hk
  · split at hk
    · simp at hk
      subst hk
      dsimp only at hx ⊢
      rw [e1] at hx
      obtain ⟨hx1, hx2⟩ := List.mem_filter.1 hx
      have hpl : x.plane = p := by simpa using (List.mem_filter.1 hx1).2
      subst hpl
      constructor
      · intro hl
        unfold Lonely at hl
        simp only [hl, decide_true, Bool.not_true, Bool.false_eq_true] at hx2
      · intro hne
        exact absurd (Nat.mul_comm _ _) hne
    · simp at hk
  · obtain ⟨i, hi, rfl⟩ := List.mem_mapIdx.1 hk
    dsimp only at hx ⊢
    have hx' : x ∈ (o p).small.flatten := List.mem_flatten.2 ⟨_, List.getElem_mem hi, hx⟩
    have hx' := (split_perm _ _ _ _ e2).mem_iff.1 hx'
    obtain ⟨hx1, hx2⟩ := List.mem_filter.1 hx'
    have hpl : x.plane = p := by simpa using (List.mem_filter.1 hx1).2
    subst hpl
    constructor
    · intro _; omega
    · intro _
      unfold Lonely
      simpa using hx2

/-! ## C332: shape of the small clusters -/

/-- **C332.** Each small cluster (a cluster of lonely hits) is the hits about its first hit: all its hits are within the radius of the first, and it has
fewer hits than configured. -/
theorem C332_shape (c : Cfg) (fuel : Nat) (hits : List Hit) (r : List Clus) (hr : ∀ h ∈ hits, Within c h h)
    (h : produce c fuel hits = .put r) :
    ∀ k ∈ r, (∃ x ∈ k.hits, Lonely c hits x) →
      ∃ s t, k.hits = s :: t ∧ (∀ x ∈ k.hits, Within c s x) ∧ (k.hits.length : ℚ) < c.nHits := by
  obtain ⟨_, h⟩ := produce_put c fuel hits r h
  obtain ⟨o, h1, rfl⟩ := allPlanes_some c fuel hits _ r h
  intro k hk ⟨x, hx, hl⟩
  obtain ⟨p, hp, hk⟩ := List.mem_flatMap.1 hk
  have hf := h1 p hp
  obtain ⟨e1, e2⟩ := findPlane_spec c fuel hits p (o p) hf
  unfold planeClusters at hk
  rcases List.mem_append.1 hk with hk | hk
  · split at hk
    · simp at hk
      subst hk
      dsimp only at hx ⊢
      rw [e1] at hx
      obtain ⟨hx1, hx2⟩ := List.mem_filter.1 hx
      have hpl : x.plane = p := by simpa using (List.mem_filter.1 hx1).2
      subst hpl
      unfold Lonely at hl
      simp only [hl, decide_true, Bool.not_true, Bool.false_eq_true] at hx2
    · simp at hk
  · obtain ⟨i, hi, rfl⟩ := List.mem_mapIdx.1 hk
    have hsp := (split_spec c fuel _ _ (fun x hx => hr x (List.mem_of_mem_filter (List.mem_of_mem_filter hx))) e2).1
      ((o p).small[i]) (List.getElem_mem hi)
    obtain ⟨s, t, e, w, sub⟩ := hsp
    refine ⟨s, t, e, w, ?_⟩
    have hs : s ∈ (o p).small[i] := by rw [e]; simp
    have hs2 := (List.mem_filter.1 (sub.subset hs)).2
    simp only [decide_eq_true_eq] at hs2
    refine lt_of_le_of_lt ?_ hs2
    have hle : ((o p).small[i]).length ≤ crowd c (hits.filter fun x => x.plane = p) s := by
      unfold crowd
      have h3 := (sub.trans List.filter_sublist).countP_le (p := fun x => decide (Within c s x))
      have h4 : ((o p).small[i]).countP (fun x => decide (Within c s x)) = ((o p).small[i]).length := by
        rw [List.countP_eq_length]
        intro x hx
        simpa using w x hx
      omega
    exact_mod_cast hle

/-- **C332.** Of two small clusters of one plane, the hits of the later one are not within the radius of the first hit of the earlier. -/
theorem C332_apart (c : Cfg) (fuel : Nat) (hits : List Hit) (r : List Clus) (hr : ∀ h ∈ hits, Within c h h)
    (h : produce c fuel hits = .put r) :
    r.Pairwise (fun a b => ∀ s, a.hits.head? = some s → Lonely c hits s →
      ∀ x ∈ b.hits, x.plane = s.plane → ¬ Within c s x) := by
  obtain ⟨_, h⟩ := produce_put c fuel hits r h
  obtain ⟨o, h1, rfl⟩ := allPlanes_some c fuel hits _ r h
  have hplane : ∀ p ∈ List.range c.nPlanes, ∀ k ∈ planeClusters p (o p), ∀ x ∈ k.hits, x.plane = p := by
    intro p hp k hk x hx
    have : x ∈ (planeClusters p (o p)).flatMap Clus.hits := List.mem_flatMap.2 ⟨k, hk, hx⟩
    rw [planeClusters_hits] at this
    have := (findPlane_perm c fuel hits p (o p) (h1 p hp)).mem_iff.1 this
    simpa using (List.mem_filter.1 this).2
  rw [List.pairwise_flatMap]
  constructor
  · intro p hp
    obtain ⟨e1, e2⟩ := findPlane_spec c fuel hits p (o p) (h1 p hp)
    unfold planeClusters
    rw [List.pairwise_append]
    refine ⟨?_, ?_, ?_⟩
    · split <;> simp
    · have hsp := (split_spec c fuel _ _ (fun x hx => hr x (List.mem_of_mem_filter (List.mem_of_mem_filter hx))) e2).2
      rw [List.pairwise_iff_getElem] at hsp ⊢
      intro i j hi hj hij s hs _ x hx _
      simp only [List.length_mapIdx] at hi hj
      simp only [List.getElem_mapIdx] at hs hx
      exact hsp i j hi hj hij s hs x hx
    · intro a ha b _ s hs hl
      split at ha
      · simp at ha
        subst ha
        dsimp only at hs
        have hs' : s ∈ (o p).left := List.mem_of_mem_head? hs
        rw [e1] at hs'
        obtain ⟨hx1, hx2⟩ := List.mem_filter.1 hs'
        have hpl : s.plane = p := by simpa using (List.mem_filter.1 hx1).2
        subst hpl
        unfold Lonely at hl
        simp only [hl, decide_true, Bool.not_true, Bool.false_eq_true] at hx2
      · simp at ha
  · have hnd : (List.range c.nPlanes).Pairwise (· ≠ ·) := List.nodup_range
    refine hnd.imp_of_mem ?_
    intro p q hp hq hpq a ha b hb s hs _ x hx e
    exfalso
    apply hpq
    rw [← hplane p hp a ha s (List.mem_of_mem_head? hs), ← hplane q hq b hb x hx, e]

/-! ## C333: numbers -/

/-- **C333.** If no plane has 100 small clusters or more, the cluster numbers are distinct. -/
theorem C333_ids_partial (c : Cfg) (fuel : Nat) (hits : List Hit) (r : List Clus)
    (h : produce c fuel hits = .put r)
    (hn : ∀ p, ∀ o, findPlane c fuel hits p = some o → o.small.length < 100) : (r.map Clus.id).Nodup := by
  obtain ⟨_, h⟩ := produce_put c fuel hits r h
  obtain ⟨o, h1, rfl⟩ := allPlanes_some c fuel hits _ r h
  have hid : ∀ p ∈ List.range c.nPlanes, ∀ k ∈ planeClusters p (o p), k.id / 100 = p := by
    intro p hp k hk
    have hlt := hn p (o p) (h1 p hp)
    unfold planeClusters at hk
    rcases List.mem_append.1 hk with hk | hk
    · split at hk
      · simp at hk; subst hk; dsimp only; omega
      · simp at hk
    · obtain ⟨i, hi, rfl⟩ := List.mem_mapIdx.1 hk
      dsimp only; omega
  rw [List.Nodup, List.pairwise_map, List.pairwise_flatMap]
  constructor
  · intro p hp
    unfold planeClusters
    rw [List.pairwise_append]
    refine ⟨?_, ?_, ?_⟩
    · split <;> simp
    · rw [List.pairwise_iff_getElem]
      intro i j hi hj hij
      simp only [List.getElem_mapIdx]
      omega
    · intro a ha b hb
      split at ha
      · simp at ha
        subst ha
        obtain ⟨i, hi, rfl⟩ := List.mem_mapIdx.1 hb
        dsimp only; omega
      · simp at ha
  · have hnd : (List.range c.nPlanes).Pairwise (· ≠ ·) := List.nodup_range
    refine hnd.imp_of_mem ?_
    intro p q hp hq hpq a ha b hb e
    apply hpq
    rw [← hid p hp a ha, ← hid q hq b hb, e]

/-! ## Examples and refutations -/

/-- Distance `|wire - wire'| + |time - time'|`, radius 2, fewer than 3 hits. -/
def cfg0 : Cfg := { nPlanes := 2, radius := 2, nHits := 3, dist := fun w t w' t' => |(w : ℚ) - w'| + |t - t'| }

def ht (k p w : Nat) (t : ℚ) : Hit := ⟨k, 0, p, w, t⟩

def hits0 : List Hit := [ht 0 0 10 0, ht 1 0 11 0, ht 2 0 12 0, ht 3 0 30 5, ht 4 1 7 7, ht 5 0 31 5]

example : produce cfg0 6 hits0 = .put
    [⟨0, [ht 1 0 11 0]⟩, ⟨1, [ht 0 0 10 0]⟩, ⟨2, [ht 2 0 12 0]⟩, ⟨3, [ht 3 0 30 5, ht 5 0 31 5]⟩, ⟨101, [ht 4 1 7 7]⟩] := by
  decide +kernel

example : (∀ h ∈ hits0, h.plane < cfg0.nPlanes) ∧ (∀ h ∈ hits0, Within cfg0 h h) ∧ hits0 ≠ [] := by decide +kernel

example : ∀ p, ∀ o, findPlane cfg0 6 hits0 p = some o → o.small.length < 100 := by
  intro p o h
  have := (findPlane_perm cfg0 6 hits0 p o h).length_eq
  obtain ⟨_, e2⟩ := findPlane_spec cfg0 6 hits0 p o h
  have hs := (split_spec cfg0 6 _ _ (fun x hx => (by decide +kernel : ∀ h ∈ hits0, Within cfg0 h h) x
    (List.mem_of_mem_filter (List.mem_of_mem_filter hx))) e2).1
  have hl : (hits0.filter fun x => x.plane = p).length ≤ 6 := List.length_filter_le _ _
  have : o.small.length ≤ o.small.flatten.length := by
    have gen : ∀ L : List (List Hit), (∀ g ∈ L, g ≠ []) → L.length ≤ L.flatten.length := by
      intro L
      induction L with
      | nil => simp
      | cons a t ih =>
        intro hL
        have h1 := List.length_pos_iff.2 (hL a List.mem_cons_self)
        have h2 := ih fun g hg => hL g (List.mem_cons_of_mem _ hg)
        rw [List.flatten_cons, List.length_append, List.length_cons]; omega
    apply gen
    intro g hg
    obtain ⟨s, u, e, _⟩ := hs g hg
    simp [e]
  simp only [List.length_append] at *
  omega

/-- A radius of 0. -/
def cfgZero : Cfg := { cfg0 with radius := 0 }

/-- Witness of `C330_endless`: with radius 0, one hit is enough to keep the finder running for ever. -/
theorem C330_refuted (fuel : Nat) : produce cfgZero fuel [ht 0 0 1 1] = .running := by
  apply C330_endless
  · decide +kernel
  · intro a b h
    have h : |(b.wire : ℚ) - a.wire| + |b.time - a.time| < 0 := h
    have h1 := abs_nonneg ((b.wire : ℚ) - a.wire)
    have h2 := abs_nonneg (b.time - a.time)
    linarith
  · exact ⟨_, List.mem_cons_self, by decide⟩

/-- **C332 refuted** for "hits within the radius of one another are in the same small cluster": three hits in a row; the first and the
second are a cluster, and the third, within the radius of the second, is another. -/
theorem C332_refuted : produce { cfg0 with nHits := 4 } 3 [ht 0 0 10 0, ht 1 0 11 0, ht 2 0 12 0] = .put
    [⟨1, [ht 0 0 10 0, ht 1 0 11 0]⟩, ⟨2, [ht 2 0 12 0]⟩] ∧ Within cfg0 (ht 1 0 11 0) (ht 2 0 12 0) ∧
    Within cfg0 (ht 2 0 12 0) (ht 1 0 11 0) := by decide +kernel

/-- **C332 refuted** for "hits in one small cluster are in one TPC": two hits at the same wire and time of plane 0 of different TPCs are one
cluster. -/
theorem C332_tpc_refuted : produce cfg0 2 [⟨0, 0, 0, 5, 5⟩, ⟨1, 1, 0, 5, 5⟩] = .put
    [⟨1, [⟨0, 0, 0, 5, 5⟩, ⟨1, 1, 0, 5, 5⟩]⟩] := by decide +kernel

/-- `n` hits on plane 0, ten wires apart, and one on plane 1. -/
def far (n : Nat) : List Hit := (List.range n).map (fun i => ht i 0 (10 * i) 0) ++ [ht n 1 0 0, ht (n + 1) 1 0 0, ht (n + 2) 1 0 0]

/-- **C333 refuted** without the bound: 100 lone hits on plane 0 and three hits in a place on plane 1: the hundredth small cluster of plane 0
has the number of the leftovers of plane 1. -/
theorem C333_refuted : ∃ r, produce cfg0 103 (far 100) = .put r ∧ ¬ (r.map Clus.id).Nodup := by
  have h : ∃ r, produce cfg0 103 (far 100) = .put r := by
    apply C330_ends
    · decide +kernel
    · decide +kernel
    · decide +kernel
  obtain ⟨r, hr⟩ := h
  refine ⟨r, hr, ?_⟩
  have h2 : (match produce cfg0 103 (far 100) with | .put r => decide (r.map Clus.id).Nodup | _ => true) = false := by
    decide +kernel
  rw [hr] at h2
  simpa using h2

/-! ## C334: events without hits -/

/-- **C334.** The event receives the products if and only if it has hits (finder ended): with no hits there are no products at all, not empty
ones. -/
theorem C334_products (c : Cfg) (fuel : Nat) (hits : List Hit) :
    produce c fuel hits = .nothing ↔ hits = [] := by
  unfold produce
  constructor
  · intro h
    split at h
    · rename_i e; exact List.length_eq_zero_iff.1 e
    · split at h <;> cases h
  · rintro rfl; rfl

/-- **C334 refuted** for "every event gets the cluster collection it declares": an event without hits gets none. -/
theorem C334_refuted (fuel : Nat) : ∀ r, produce cfg0 fuel [] ≠ .put r := by
  intro r h
  rw [(C334_products cfg0 fuel []).2 rfl] at h
  cases h

/-! ## C335: shower energy -/

/-- Charge corrected for the lifetime of the hits of a plane. -/
def charge (exp : ℚ → ℚ) (coeff : ℚ) (hits : List QHit) (plane : Nat) : ℚ :=
  (hits.map fun h => if h.plane = plane then h.integral * exp (coeff * h.time) else 0).sum

theorem foldl_add_sum (l : List ℚ) (a : ℚ) : l.foldl (· + ·) a = a + l.sum := by
  induction l generalizing a with
  | nil => simp
  | cons b t ih => simp [ih]; ring

theorem charge_filter (exp : ℚ → ℚ) (coeff : ℚ) (hits : List QHit) (plane : Nat) :
    ((hits.filter (fun h => h.plane = plane)).map (fun h => h.integral * exp (coeff * h.time))).sum
      = charge exp coeff hits plane := by
  unfold charge
  induction hits with
  | nil => simp
  | cons a t ih =>
    by_cases h : a.plane = plane
    · simp [h, ih]
    · simp [h, ih]

/-- **C335.** The energy is the linear function of the plane applied to the corrected charge of the hits of that plane; 0 for a plane with
no function. -/
theorem C335_energy (exp : ℚ → ℚ) (coeff : ℚ) (fn : List (ℚ × ℚ)) (hits : List QHit) (plane : Nat) :
    (∀ f, fn[plane]? = some f → showerEnergy exp coeff fn hits plane = f.1 * charge exp coeff hits plane + f.2) ∧
    (fn.length ≤ plane → showerEnergy exp coeff fn hits plane = 0) := by
  constructor
  · intro f hf
    unfold showerEnergy
    rw [hf]
    dsimp only
    rw [foldl_add_sum, charge_filter]
    ring
  · intro h
    unfold showerEnergy
    rw [List.getElem?_eq_none h]

/-- **C335.** The energy does not depend on the order of the hits, nor on the hits of other planes. -/
theorem C335_order (exp : ℚ → ℚ) (coeff : ℚ) (fn : List (ℚ × ℚ)) (a b : List QHit) (plane : Nat)
    (h : (a.filter fun x => x.plane = plane).Perm (b.filter fun x => x.plane = plane)) :
    showerEnergy exp coeff fn a plane = showerEnergy exp coeff fn b plane := by
  unfold showerEnergy
  cases fn[plane]? with
  | none => rfl
  | some f =>
    dsimp only
    rw [foldl_add_sum, foldl_add_sum, (h.map _).sum_eq]

/-- **C335.** For functions without intercept the energy of two lots of hits is the sum of their energies; in general it counts the intercept
once too few. -/
theorem C335_additive (exp : ℚ → ℚ) (coeff : ℚ) (fn : List (ℚ × ℚ)) (a b : List QHit) (plane : Nat) (f : ℚ × ℚ)
    (hf : fn[plane]? = some f) :
    showerEnergy exp coeff fn a plane + showerEnergy exp coeff fn b plane
      = showerEnergy exp coeff fn (a ++ b) plane + f.2 := by
  rw [(C335_energy exp coeff fn a plane).1 f hf, (C335_energy exp coeff fn b plane).1 f hf,
    (C335_energy exp coeff fn (a ++ b) plane).1 f hf]
  unfold charge
  rw [List.map_append, List.sum_append]
  ring

/-- **C335.** With a positive gradient, positive exponentials and non-negative integrals, more hits do not lower the energy. -/
theorem C335_mono (exp : ℚ → ℚ) (he : ∀ x, 0 < exp x) (coeff : ℚ) (fn : List (ℚ × ℚ)) (a b : List QHit) (plane : Nat) (f : ℚ × ℚ)
    (hf : fn[plane]? = some f) (hg : 0 ≤ f.1) (hb : ∀ h ∈ b, 0 ≤ h.integral) :
    showerEnergy exp coeff fn a plane ≤ showerEnergy exp coeff fn (a ++ b) plane := by
  have h := C335_additive exp coeff fn a b plane f hf
  have h2 := (C335_energy exp coeff fn b plane).1 f hf
  have h3 : 0 ≤ charge exp coeff b plane := by
    unfold charge
    clear h2 h
    induction b with
    | nil => simp
    | cons y t ih =>
      rw [List.map_cons, List.sum_cons]
      have h1 := ih fun h hh => hb h (List.mem_cons_of_mem _ hh)
      have h2 : 0 ≤ (if y.plane = plane then y.integral * exp (coeff * y.time) else 0) := by
        split
        · exact mul_nonneg (hb y List.mem_cons_self) (he _).le
        · exact le_refl _
      exact add_nonneg h2 h1
  nlinarith [mul_nonneg hg h3]

example : showerEnergy (fun x => 1 + x) (1/10) [(2, 5), (3, 0), (1, 1)] [⟨0, 4, 10⟩, ⟨1, 7, 0⟩, ⟨0, 1, 0⟩] 0 = 23 := by
  decide +kernel

/-- **C335 refuted** for "no hits, no energy": with no hit in the plane the intercept is returned. -/
theorem C335_refuted : showerEnergy (fun x => 1 + x) 1 [(2, 5), (3, 0), (1, 1)] [] 0 = 5 := by decide +kernel

end Verif.SmallClus

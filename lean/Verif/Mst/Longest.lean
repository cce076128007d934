import Verif.Mst.Path
import Mathlib.Tactic.FieldSimp
import Mathlib.Tactic.Positivity

/-! C101: the branch of the best quality. -/
namespace Verif.Mst

/-! ## Specification -/

/-- the quality of a walk: one over its length for each edge, except that the weight counts for the last one -/
def quality (len : Nat → Nat → ℚ) : List Edge → ℚ
  | [] => 0
  | [e] => 1 / max (3 / 10) e.2.2
  | e :: d :: es => 1 / max (1 / 10) (len e.1 e.2.1) + quality len (d :: es)

/-- a walk along the edges of the map that never goes straight back and stops only where it has to -/
structure Branch (m : Nat → List Edge) (es : List Edge) : Prop where
  chain : List.IsChain (Follows m) es
  stops : ∀ x, es.getLast? = some x → ∀ d ∈ m x.2.1, d.2.1 = x.1

theorem quality_pos (len : Nat → Nat → ℚ) : ∀ e es, 0 < quality len (e :: es) := by
  intro e es
  induction es generalizing e with
  | nil => simp only [quality]; have : (0 : ℚ) < max (3 / 10) e.2.2 := lt_max_of_lt_left (by norm_num); positivity
  | cons d es ih =>
    simp only [quality]
    have : (0 : ℚ) < max (1 / 10) (len e.1 e.2.1) := lt_max_of_lt_left (by norm_num)
    have h2 : 0 < 1 / max (1 / 10) (len e.1 e.2.1) := by positivity
    have := ih d
    linarith

theorem Branch.tail {m : Nat → List Edge} {e d : Edge} {es : List Edge} (h : Branch m (e :: d :: es)) : Branch m (d :: es) ∧ d ∈ m e.2.1 ∧ d.2.1 ≠ e.1 := by
  have h1 := h.chain
  rw [List.isChain_cons_cons] at h1
  refine ⟨⟨h1.2, ?_⟩, h1.1⟩
  intro x hx
  exact h.stops x (by rw [List.getLast?_cons_cons]; exact hx)

theorem Branch.cons {m : Nat → List Edge} {e d : Edge} {es : List Edge} (h : Branch m (d :: es)) (h1 : d ∈ m e.2.1) (h2 : d.2.1 ≠ e.1) : Branch m (e :: d :: es) := by
  refine ⟨?_, ?_⟩
  · rw [List.isChain_cons_cons]; exact ⟨⟨h1, h2⟩, h.chain⟩
  · intro x hx; rw [List.getLast?_cons_cons] at hx; exact h.stops x hx

/-- what the search returns: the branch of the best quality -/
def DfsResult (m : Nat → List Edge) (len : Nat → Nat → ℚ) (e : Edge) (r : List Nat × ℚ) : Prop :=
  ∃ es, Branch m (e :: es) ∧ r = ((e :: es).map (fun x => x.2.1), quality len (e :: es)) ∧ ∀ es', Branch m (e :: es') → quality len (e :: es') ≤ quality len (e :: es)

theorem dfs_result (m : Nat → List Edge) (len : Nat → Nat → ℚ) : ∀ fuel e r, dfs m len fuel e = some r → DfsResult m len e r := by
  intro fuel
  induction fuel with
  | zero => intro e r h; simp [dfs] at h
  | succ fuel ih =>
    intro e r h
    have scan : ∀ ds pre acc out, (∀ d ∈ pre ++ ds, d ∈ m e.2.1) →
        ((acc = ([], 0, false) ∧ ∀ d ∈ pre, d.2.1 = e.1) ∨
          ∃ d es, d ∈ pre ∧ d.2.1 ≠ e.1 ∧ Branch m (d :: es) ∧ acc = ((d :: es).map (fun x => x.2.1), quality len (d :: es), true) ∧
            ∀ d' ∈ pre, d'.2.1 ≠ e.1 → ∀ es', Branch m (d' :: es') → quality len (d' :: es') ≤ quality len (d :: es)) →
        dfsScan (dfs m len fuel) e.1 ds acc = some out →
        ((out = ([], 0, false) ∧ ∀ d ∈ pre ++ ds, d.2.1 = e.1) ∨
          ∃ d es, d ∈ pre ++ ds ∧ d.2.1 ≠ e.1 ∧ Branch m (d :: es) ∧ out = ((d :: es).map (fun x => x.2.1), quality len (d :: es), true) ∧
            ∀ d' ∈ pre ++ ds, d'.2.1 ≠ e.1 → ∀ es', Branch m (d' :: es') → quality len (d' :: es') ≤ quality len (d :: es)) := by
      intro ds
      induction ds with
      | nil => intro pre acc out _ hacc h; simp [dfsScan] at h; subst h; simpa using hacc
      | cons d ds ihd =>
        intro pre acc out hm hacc h
        rw [dfsScan] at h
        split at h
        · next hd =>
          have := ihd (pre ++ [d]) acc out (by simpa using hm) (by
            rcases hacc with ⟨h1, h2⟩ | ⟨d1, es1, h1, h2, h3, h4, h5⟩
            · left; refine ⟨h1, ?_⟩
              intro x hx
              rcases List.mem_append.1 hx with hx | hx
              · exact h2 x hx
              · rw [List.mem_singleton.1 hx]; exact hd
            · right
              refine ⟨d1, es1, List.mem_append_left _ h1, h2, h3, h4, ?_⟩
              intro x hx hxe
              rcases List.mem_append.1 hx with hx | hx
              · exact h5 x hx hxe
              · exact absurd (by rw [List.mem_singleton.1 hx]; exact hd) hxe) h
          simpa using this
        · next hd =>
          split at h
          · simp at h
          · next l q hq =>
            obtain ⟨es, g1, g2, g3⟩ := ih _ _ hq
            simp only [Prod.mk.injEq] at g2
            have hpos := quality_pos len d es
            have := ihd (pre ++ [d]) _ out (by simpa using hm) (by
              right
              rcases hacc with ⟨h1, h2⟩ | ⟨d1, es1, h1, h2, h3, h4, h5⟩
              · refine ⟨d, es, by simp, hd, g1, ?_, ?_⟩
                · rw [h1, if_pos (by rw [g2.2]; exact hpos), g2.1, g2.2]
                · intro x hx hxe es' hes'
                  rcases List.mem_append.1 hx with hx | hx
                  · exact absurd (h2 x hx) hxe
                  · rw [List.mem_singleton.1 hx] at hes' ⊢; exact g3 es' hes'
              · by_cases hgt : q > acc.2.1
                · refine ⟨d, es, by simp, hd, g1, ?_, ?_⟩
                  · rw [if_pos hgt, g2.1, g2.2]
                  · intro x hx hxe es' hes'
                    rcases List.mem_append.1 hx with hx | hx
                    · have := h5 x hx hxe es' hes'
                      rw [h4] at hgt; rw [← g2.2]; exact le_of_lt (lt_of_le_of_lt this hgt)
                    · rw [List.mem_singleton.1 hx] at hes' ⊢; exact g3 es' hes'
                · refine ⟨d1, es1, List.mem_append_left _ h1, h2, h3, by rw [if_neg hgt, h4], ?_⟩
                  intro x hx hxe es' hes'
                  rcases List.mem_append.1 hx with hx | hx
                  · exact h5 x hx hxe es' hes'
                  · rw [List.mem_singleton.1 hx] at hes' ⊢
                    have := g3 es' hes'
                    rw [h4, not_lt] at hgt; rw [← g2.2] at this; exact le_trans this hgt) h
            simpa using this
    rw [dfs] at h
    split at h
    · simp at h
    · next l q rr hs =>
      simp at h
      rcases scan (m e.2.1) [] _ _ (by simp) (Or.inl ⟨rfl, by simp⟩) hs with ⟨h1, h2⟩ | ⟨d, es, h1, h2, h3, h4, h5⟩
      · simp at h1 h2
        obtain ⟨rfl, rfl, rfl⟩ := h1
        refine ⟨[], ⟨.singleton _, ?_⟩, ?_, ?_⟩
        · intro x hx; simp at hx; subst hx
          intro d hd
          obtain ⟨d1, d2, d3⟩ := d
          exact h2 _ _ _ hd
        · rw [← h]; simp [quality]
        · intro es' hes'
          cases es' with
          | nil => exact le_refl _
          | cons x es' => exact absurd (h2 _ _ _ hes'.tail.2.1) hes'.tail.2.2
      · simp at h1 h4
        obtain ⟨rfl, rfl, rfl⟩ := h4
        refine ⟨d :: es, h3.cons h1 h2, ?_, ?_⟩
        · rw [← h]; simp [quality]; ring
        · intro es' hes'
          cases es' with
          | nil => exact absurd (hes'.stops e (by simp) d h1) h2
          | cons x es' =>
            obtain ⟨t1, t2, t3⟩ := hes'.tail
            have := h5 x (by simpa using t2) t3 es' t1
            simp only [quality]; linarith

/-- the depth of this search is less than the number of hits too -/
theorem dfs_ends {T : List Edge} {V : List Nat} (hT : Grown T V) (len : Nat → Nat → ℚ) : ∀ fuel p e, (∀ f l, p ++ [e] = f :: l → f ∈ incident T f.1) →
    List.IsChain (Follows (incident T)) (p ++ [e]) → V.length < fuel + p.length + 2 → dfs (incident T) len fuel e ≠ none := by
  intro fuel
  induction fuel with
  | zero =>
    intro p e h1 h2 h3
    cases hp : p ++ [e] with
    | nil => simp at hp
    | cons f l =>
      rw [hp] at h2
      have h5 := walk_onward l f (h1 f l hp) h2
      have h6 := (List.Nodup.subperm (hT.onward_nodup _ h5) (fun x hx => Onward.mem hT h5.1 x hx)).length_le
      have h7 := congrArg List.length hp
      simp [verts] at h6 h7
      omega
  | succ fuel ih =>
    intro p e h1 h2 h3
    have scan : ∀ ds acc, (∀ d ∈ ds, d ∈ incident T e.2.1) → dfsScan (dfs (incident T) len fuel) e.1 ds acc ≠ none := by
      intro ds
      induction ds with
      | nil => intro acc _; simp [dfsScan]
      | cons d ds ihd =>
        intro acc hm
        rw [dfsScan]
        split
        · exact ihd acc (fun x hx => hm x (by simp [hx]))
        · next hd =>
          have := ih (p ++ [e]) d (by
              intro f l hfl
              cases p with
              | nil => simp at hfl; exact h1 f [] (by simp [hfl.1])
              | cons x p => simp at hfl; exact h1 f (p ++ [e]) (by simp [hfl.1])) (by
              rw [List.isChain_append]
              refine ⟨h2, .singleton _, ?_⟩
              intro x hx y hy
              simp at hx hy
              subst hx; subst hy
              exact ⟨hm d (by simp), hd⟩) (by simp; omega)
          cases hl : dfs (incident T) len fuel d with
          | none => exact absurd hl this
          | some r => exact ihd _ (fun x hx => hm x (by simp [hx]))
    rw [dfs]
    have := scan (incident T e.2.1) ([], 0, false) (fun _ h => h)
    cases hs : dfsScan (dfs (incident T) len fuel) e.1 (incident T e.2.1) ([], 0, false) with
    | none => exact absurd hs this
    | some r => simp

theorem Grown.incident_targets {T : List Edge} {V : List Nat} (h : Grown T V) (a : Nat) : ((incident T a).map (fun e => e.2.1)).Nodup := by
  induction h with
  | single h => simp [incident]
  | @grow T V u v w hT hu hv ih =>
    have huv : u ≠ v := fun h => hv (h ▸ hu)
    have hinc : incident (T ++ [(u, v, w)]) a = incident T a ++ ((if u = a then [(u, v, w)] else []) ++ (if v = a then [(v, u, w)] else [])) := by simp [incident]
    rw [hinc]
    by_cases h1 : u = a
    · have h2 : v ≠ a := fun h => huv (h1.trans h.symm)
      simp only [h1, h2, if_true, if_false, List.append_nil, List.map_append, List.map_cons, List.map_nil]
      rw [List.nodup_append]
      refine ⟨ih, by simp, ?_⟩
      intro x hx y hy
      simp at hy; subst hy
      rintro rfl
      obtain ⟨e, he, rfl⟩ := List.mem_map.1 hx
      rcases (mem_incident.1 he).2 with h | h
      · exact hv (hT.mem _ h).2
      · exact hv (hT.mem _ h).1
    · by_cases h2 : v = a
      · have h0 : incident T a = [] := by
          rw [List.eq_nil_iff_forall_not_mem]
          intro e he
          obtain ⟨h3, h4⟩ := mem_incident.1 he
          rcases h4 with h | h
          · exact hv (h2 ▸ h3 ▸ (hT.mem _ h).1)
          · exact hv (h2 ▸ h3 ▸ (hT.mem _ h).2)
        rw [h0]; simp [h1, h2]
      · simpa [h1, h2] using ih

/-- in a tree a walk has to stop exactly at the isolated hits -/
theorem stops_iff {T : List Edge} {V : List Nat} (hT : Grown T V) {x : Edge} (hx : x ∈ incident T x.1) :
    (∀ d ∈ incident T x.2.1, d.2.1 = x.1) ↔ (incident T x.2.1).length = 1 := by
  have hback : (x.2.1, x.1, x.2.2) ∈ incident T x.2.1 := by
    rw [mem_incident]
    refine ⟨rfl, ?_⟩
    have := (mem_incident.1 hx).2
    simpa using this.symm
  have hnd := hT.incident_targets x.2.1
  generalize incident T x.2.1 = l at hback hnd
  constructor
  · intro h
    match l, hback with
    | [y], _ => rfl
    | y :: z :: l, _ =>
      exfalso
      simp only [List.map_cons, List.nodup_cons] at hnd
      apply hnd.1
      rw [h y (by simp), ← h z (by simp)]; simp
  · intro h
    obtain ⟨y, rfl⟩ := List.length_eq_one_iff.1 h
    simp at hback
    intro d hd
    simp at hd
    rw [hd, ← hback]

/-- **C101**: on every cluster of at least two hits the search ends at a depth that is not more than the number of hits; the list of hits of the cluster is replaced by the hits, each once, of a path from one isolated hit to another;
no path that starts at an isolated hit and ends at one has a greater quality; all edges at the hits of the path, in whatever direction and even if they leave the path, are added to the best edges -/
theorem C101_longest (F : Finder) (att0 : Nat → Bool) (hits : List Nat) (before : List Clus) (hF : ∀ a ∈ hits, ∀ b, F.Nb a b → b ∈ hits) (len : Nat → Nat → ℚ) :
    ∃ cs, runPrim F att0 hits before = some (before ++ cs) ∧ ∀ c ∈ cs, 2 ≤ c.hits.length → ∀ edges,
      ∃ e es stop, e.1 ∈ c.isolated ∧ e ∈ c.emap e.1 ∧ List.IsChain (Follows c.emap) (e :: es) ∧ (e :: es).getLast?.map (fun x => x.2.1) = some stop ∧ stop ∈ c.isolated ∧
        (e.1 :: (e :: es).map (fun x => x.2.1)).Nodup ∧
        (∀ e' es', e'.1 ∈ c.isolated → e' ∈ c.emap e'.1 → List.IsChain (Follows c.emap) (e' :: es') → (∃ s ∈ c.isolated, (e' :: es').getLast?.map (fun x => x.2.1) = some s) →
          quality len (e' :: es') ≤ quality len (e :: es)) ∧
        findLongest c len c.hits.length edges = some ({ c with hits := e.1 :: (e :: es).map (fun x => x.2.1) }, edges ++ (e.1 :: (e :: es).map (fun x => x.2.1)).flatMap c.emap) := by
  obtain ⟨cs, h1, h2, h3, h4⟩ := runPrim_inv (F := F) (att0 := att0) before hF
  refine ⟨cs, h1, ?_⟩
  intro c hc hlen edges
  obtain ⟨p, q, hpq⟩ := List.append_of_mem hc
  obtain ⟨T, hMT, hm⟩ := h2.tree p c q hpq
  have hT := hMT.grown
  have hmf : c.emap = incident T := funext hm
  have hiso : ∀ x, x ∈ c.isolated ↔ x ∈ c.hits ∧ (incident T x).length = 1 := by
    intro x; simp [Clus.isolated, hmf]
  -- the edges of a walk are edges of the tree
  have hwalk : ∀ e es, e ∈ incident T e.1 → List.IsChain (Follows (incident T)) (e :: es) → ∀ x ∈ e :: es, x ∈ incident T x.1 := by
    intro e es he hch x hx
    rcases List.mem_cons.1 hx with rfl | hx
    · exact he
    · exact (walk_sources es e hch).2 x hx
  -- a walk ends at an isolated hit exactly if it has to stop there
  have hstop : ∀ e es, e ∈ incident T e.1 → List.IsChain (Follows (incident T)) (e :: es) →
      ((∃ s ∈ c.isolated, (e :: es).getLast?.map (fun x => x.2.1) = some s) ↔ Branch (incident T) (e :: es)) := by
    intro e es he hch
    have hl : (e :: es).getLast? = some ((e :: es).getLast (by simp)) := List.getLast?_eq_some_getLast _
    have hmem := hwalk e es he hch _ (List.getLast_mem (by simp : e :: es ≠ []))
    generalize hx : (e :: es).getLast (by simp) = x at hl hmem
    rw [hl]
    have hV : x.2.1 ∈ c.hits := by
      rcases (mem_incident.1 hmem).2 with h | h
      · exact (hT.mem _ h).2
      · exact (hT.mem _ h).1
    constructor
    · rintro ⟨s, hs, hxs⟩
      simp at hxs; subst hxs
      refine ⟨hch, ?_⟩
      intro y hy
      rw [hl] at hy; simp at hy; subst hy
      exact (stops_iff hT hmem).2 ((hiso _).1 hs).2
    · intro hb
      exact ⟨x.2.1, (hiso _).2 ⟨hV, (stops_iff hT hmem).1 (hb.stops x hl)⟩, rfl⟩
  -- the loop over the hits
  have scan : ∀ hs pre acc, pre ++ hs = c.hits →
      ((acc = ([], 0) ∧ ∀ h ∈ pre, (incident T h).length ≠ 1) ∨
        ∃ e es, e.1 ∈ pre ∧ incident T e.1 = [e] ∧ Branch (incident T) (e :: es) ∧ acc = (e.1 :: (e :: es).map (fun x => x.2.1), quality len (e :: es)) ∧
          ∀ e', e'.1 ∈ pre → incident T e'.1 = [e'] → ∀ es', Branch (incident T) (e' :: es') → quality len (e' :: es') ≤ quality len (e :: es)) →
      ∃ out, longestScan (incident T) len c.hits.length hs acc = some out ∧
      ((out = ([], 0) ∧ ∀ h ∈ c.hits, (incident T h).length ≠ 1) ∨
        ∃ e es, e.1 ∈ c.hits ∧ incident T e.1 = [e] ∧ Branch (incident T) (e :: es) ∧ out = (e.1 :: (e :: es).map (fun x => x.2.1), quality len (e :: es)) ∧
          ∀ e', e'.1 ∈ c.hits → incident T e'.1 = [e'] → ∀ es', Branch (incident T) (e' :: es') → quality len (e' :: es') ≤ quality len (e :: es)) := by
    intro hs
    induction hs with
    | nil => intro pre acc hp hacc; simp at hp; subst hp; exact ⟨acc, rfl, hacc⟩
    | cons h hs ih =>
      intro pre acc hp hacc
      by_cases hl : (incident T h).length = 1
      · obtain ⟨e, he⟩ := List.length_eq_one_iff.1 hl
        have hem : e ∈ incident T h := by rw [he]; simp
        have hes : e.1 = h := (mem_incident.1 hem).1
        have hends := dfs_ends hT len c.hits.length [] e (by intro f l hh; simp at hh; rw [← hh.1, hes]; exact hem) (.singleton _) (by simp)
        cases hd : dfs (incident T) len c.hits.length e with
        | none => exact absurd hd hends
        | some r =>
          obtain ⟨l, q⟩ := r
          obtain ⟨es, g1, g2, g3⟩ := dfs_result _ _ _ _ _ hd
          simp only [Prod.mk.injEq] at g2
          have hpos := quality_pos len e es
          have hstep : longestScan (incident T) len c.hits.length (h :: hs) acc = longestScan (incident T) len c.hits.length hs (if q > acc.2 then (e.1 :: l, q) else acc) := by
            rw [longestScan, he]; simp only [hd]
          rw [hstep]
          apply ih (pre ++ [h]) _ (by simpa using hp)
          right
          have same : ∀ e' : Edge, e'.1 = h → incident T e'.1 = [e'] → e' = e := by
            intro e' h1 h2; rw [h1, he] at h2; simpa using h2.symm
          rcases hacc with ⟨k1, k2⟩ | ⟨d1, es1, k1, k2, k3, k4, k5⟩
          · refine ⟨e, es, by simp [hes], by rw [hes]; exact he, g1, ?_, ?_⟩
            · rw [k1, if_pos (by rw [g2.2]; exact hpos), g2.1, g2.2]
            · intro e' h1 h2 es' hes'
              rcases List.mem_append.1 h1 with h1 | h1
              · exact absurd (by rw [h2]; rfl) (k2 _ h1)
              · have := same e' (List.mem_singleton.1 h1) h2
                subst this; exact g3 es' hes'
          · by_cases hgt : q > acc.2
            · refine ⟨e, es, by simp [hes], by rw [hes]; exact he, g1, ?_, ?_⟩
              · rw [if_pos hgt, g2.1, g2.2]
              · intro e' h1 h2 es' hes'
                rcases List.mem_append.1 h1 with h1 | h1
                · have := k5 e' h1 h2 es' hes'
                  rw [k4] at hgt; rw [← g2.2]; exact le_of_lt (lt_of_le_of_lt this hgt)
                · have := same e' (List.mem_singleton.1 h1) h2
                  subst this; exact g3 es' hes'
            · refine ⟨d1, es1, List.mem_append_left _ k1, k2, k3, by rw [if_neg hgt, k4], ?_⟩
              intro e' h1 h2 es' hes'
              rcases List.mem_append.1 h1 with h1 | h1
              · exact k5 e' h1 h2 es' hes'
              · have := same e' (List.mem_singleton.1 h1) h2
                subst this
                have := g3 es' hes'
                rw [k4, not_lt] at hgt; rw [← g2.2] at this; exact le_trans this hgt
      · have hstep : longestScan (incident T) len c.hits.length (h :: hs) acc = longestScan (incident T) len c.hits.length hs acc := by
          rw [longestScan]
          match hi : incident T h, hl with
          | [], _ => rfl
          | [x], hl => simp at hl
          | x :: y :: l, _ => rfl
        rw [hstep]
        apply ih (pre ++ [h]) _ (by simpa using hp)
        rcases hacc with ⟨k1, k2⟩ | ⟨d1, es1, k1, k2, k3, k4, k5⟩
        · left
          refine ⟨k1, ?_⟩
          intro x hx
          rcases List.mem_append.1 hx with hx | hx
          · exact k2 x hx
          · rw [List.mem_singleton.1 hx]; exact hl
        · right
          refine ⟨d1, es1, List.mem_append_left _ k1, k2, k3, k4, ?_⟩
          intro e' h1 h2
          rcases List.mem_append.1 h1 with h1 | h1
          · exact k5 e' h1 h2
          · exfalso; apply hl; rw [← List.mem_singleton.1 h1, h2]; rfl
  obtain ⟨out, ho, hres⟩ := scan c.hits [] ([], 0) rfl (Or.inl ⟨rfl, by simp⟩)
  rcases hres with ⟨-, hno⟩ | ⟨e, es, k1, k2, k3, k4, k5⟩
  · exfalso
    obtain ⟨a, ha, -, -, -, ha1, -⟩ := hT.two_leaves hlen
    exact hno a ha ha1
  · have hem : e ∈ incident T e.1 := by rw [k2]; simp
    obtain ⟨s, hs1, hs2⟩ := (hstop e es hem k3.chain).2 k3
    refine ⟨e, es, s, (hiso _).2 ⟨k1, by rw [k2]; rfl⟩, by rw [hmf]; exact hem, by rw [hmf]; exact k3.chain, hs2, hs1, ?_, ?_, ?_⟩
    · exact hT.onward_nodup _ (walk_onward es e hem k3.chain)
    · rw [hmf]
      intro e' es' h1 h2 h3 h4
      refine k5 e' ((hiso _).1 h1).1 ?_ es' ((hstop e' es' h2 h3).1 h4)
      obtain ⟨x, hx⟩ := List.length_eq_one_iff.1 ((hiso _).1 h1).2
      rw [hx] at h2 ⊢; simp at h2; rw [h2]
    · unfold findLongest
      rw [hmf, ho, k4]

example : ((runPrim sampleFinder (fun _ => false) [0, 1, 2, 3, 4] []).getD []).map (fun c => ((findLongest c (fun _ _ => 1) 5 []).map (fun r => r.1.hits))) = [some [1, 0, 3, 2], some [4]] := by decide +kernel

end Verif.Mst

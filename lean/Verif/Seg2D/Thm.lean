import Verif.Seg2D.Lem
import Mathlib.Tactic.NormNum

namespace Verif.Seg2D
open List (Perm)
open scoped List

/-- A function that makes clusters: each hit is in one cluster, and no cluster is empty (shown for the clustering that is used in C48-C50). -/
def Clusters (cl : List Hit → List (List Hit)) : Prop := ∀ l, (cl l).flatten ~ l ∧ [] ∉ cl l

theorem pickSeed_lt (center : P2) : ∀ (l : List (List Hit)) (i b : Nat) (m : ℚ), b < i → pickSeed center i b m l < i + l.length
  | [], i, b, m, h => by simpa [pickSeed] using h
  | a :: l, i, b, m, h => by
    unfold pickSeed
    simp only [List.length_cons]
    split
    · have := pickSeed_lt center l (i + 1) i (seedDist center a) (by omega); omega
    · have := pickSeed_lt center l (i + 1) b m (by omega); omega

theorem seedLoop_dec (c : Cfg) (hl : c.line ≠ 0) (center : P2) (n : Nat) (seeds : List (List Hit)) (st : St) (hne : seeds ≠ []) (h0 : [] ∉ seeds)
    (hm : ∀ s ∈ seeds, ∀ h ∈ s, h ∈ st.inp ∧ d2 center h.pt ≠ 0) : (seedLoop c center (n + 1) seeds st).inp.length < st.inp.length := by
  unfold seedLoop
  cases seeds with
  | nil => simp at hne
  | cons s0 rest =>
    dsimp only
    have hk := pickSeed_lt center rest 1 0 (seedDist center s0) (by omega)
    revert hk
    generalize pickSeed center 1 0 (seedDist center s0) rest = k
    intro hk
    have hk' : k < (s0 :: rest).length := by simp; omega
    have hs : (s0 :: rest).getD k [] ∈ s0 :: rest := by rw [List.getD_eq_getElem _ _ hk']; exact List.getElem_mem hk'
    split
    · rename_i hn
      unfold near at hn
      rw [closest_none] at hn
      rw [hn] at hs
      exact absurd hs h0
    · rename_i h hh
      have hmem := (closest_spec hh).1
      have h1 := hm _ hs h hmem
      have hb := build_ne c st.inp center h h1.1 hl h1.2
      have hlen := build_len c st.inp center h.pt
      have hpos := List.length_pos_iff.2 hb
      refine lt_of_le_of_lt (seedLoop_keep c center n _ _).inp ?_
      rw [if_neg hb]
      simp only
      omega

theorem runOne_dec (c : Cfg) (hcl : Clusters c.cl) (hl : c.line ≠ 0) (hr : 0 < c.rmin) (inp : List Hit) (res : List (List Hit)) (h : Hit) (cs : List P2) (hm : h ∈ inp) :
    (runOne c ⟨inp, res, h.pt :: cs⟩).inp.length < inp.length := by
  unfold runOne
  dsimp only
  split
  · rename_i hn
    rw [closest_none] at hn
    rw [hn] at hm
    simp at hm
  · rename_i h' hh
    obtain ⟨hm', hle⟩ := closest_spec hh
    have := hle h hm
    rw [d2_self] at this
    rw [if_neg (by intro hx; linarith)]
    split
    · rename_i hne
      obtain ⟨hp, h0⟩ := hcl (ring c inp h'.pt)
      have hsne : c.cl (ring c inp h'.pt) ≠ [] := by
        intro he
        rw [he] at hp
        exact hne hp.symm.eq_nil
      obtain ⟨n, hn⟩ : ∃ n, (c.cl (ring c inp h'.pt)).length = n + 1 := ⟨(c.cl (ring c inp h'.pt)).length - 1, by have := List.length_pos_iff.2 hsne; omega⟩
      rw [hn]
      refine seedLoop_dec c hl h'.pt n _ ⟨inp, res, cs⟩ hsne h0 ?_
      intro s hs x hx
      have : x ∈ ring c inp h'.pt := hp.mem_iff.1 (List.mem_flatten.2 ⟨s, hs, hx⟩)
      unfold ring at this
      rw [List.mem_filter] at this
      simp only [Bool.and_eq_true, decide_eq_true_eq] at this
      refine ⟨this.1, ?_⟩
      have h2 := this.2.1
      have : 0 < c.rmin * c.rmin := by nlinarith
      intro hz
      rw [hz] at h2
      linarith
    · simp only
      rw [List.length_erase_of_mem hm']
      have := List.length_pos_of_mem hm'
      omega

theorem inner_dec (c : Cfg) (hcl : Clusters c.cl) (hl : c.line ≠ 0) (hr : 0 < c.rmin) (n : Nat) (inp : List Hit) (res : List (List Hit)) (h : Hit) (cs : List P2) (hm : h ∈ inp) (st : St)
    (e : inner c (n + 1) ⟨inp, res, h.pt :: cs⟩ = some st) : st.inp.length < inp.length := by
  unfold inner at e
  rw [if_neg (by simp)] at e
  exact lt_of_le_of_lt (inner_keep c n _ _ e).2 (runOne_dec c hcl hl hr inp res h cs hm)

theorem outer_ends (c : Cfg) (hcl : Clusters c.cl) (hl : c.line ≠ 0) (hr : 0 < c.rmin) : ∀ (n : Nat) (inp : List Hit) (res : List (List Hit)), inp.length ≤ n → (outer c n inp res).isSome = true
  | 0, inp, res, h => by
    unfold outer
    rw [if_neg (by omega)]
    rfl
  | n + 1, inp, res, h => by
    unfold outer
    split
    · split
      · rfl
      · rename_i h0 ho
        have hi := inner_ends c (inp.length + 1) ⟨inp, res, [h0.pt]⟩ (by simp; omega)
        split
        · rename_i hn
          rw [hn] at hi
          simp at hi
        · rename_i st hs
          have := inner_dec c hcl hl hr inp.length inp res h0 [] (outermost_mem ho) st hs
          exact outer_ends c hcl hl hr n _ _ (by omega)
    · rfl

/-! ## Merging -/

theorem absorb_eq : ∀ (l : List Part) (pk : Part), absorb pk l = (⟨pk.hits ++ (l.filter Part.tag).flatMap Part.hits, pk.tag, pk.ds, pk.de, pk.em⟩, l.filter fun p => !p.tag)
  | [], pk => by simp [absorb]
  | p :: l, pk => by
    unfold absorb
    by_cases ht : p.tag = true
    · rw [if_pos ht, absorb_eq l]
      simp [ht]
    · rw [if_neg ht, absorb_eq l]
      simp [ht]

theorem modify_map {α : Type} (f : Part → α) (u : Part → Part) (hu : ∀ p, f (u p) = f p) (g : List Part) (i : Nat) : (g.modify i u).map f = g.map f := by
  apply List.ext_getElem?
  intro j
  simp only [List.getElem?_map, List.getElem?_modify]
  cases g[j]? with
  | none => rfl
  | some p =>
    simp only [Option.map_eq_map, Option.map_some]
    split <;> simp [hu]

theorem setTags_map {α : Type} (f : Part → α) (hf : ∀ p : Part, f { p with tag := true } = f p) : ∀ (idxs : List Nat) (g : List Part), (setTags g idxs).map f = g.map f
  | [], g => rfl
  | i :: l, g => by
    have := setTags_map f hf l (g.modify i fun p => { p with tag := true })
    unfold setTags at this ⊢
    rw [List.foldl_cons, this]
    exact modify_map f _ hf g i

theorem flat_split (g : List Part) (k : Nat) (pk : Part) (e : g[k]? = some pk) : g = g.take k ++ pk :: g.drop (k + 1) := by
  obtain ⟨hlt, rfl⟩ := List.getElem?_eq_some_iff.1 e
  simp

theorem filter_flat (l : List Part) : (l.filter Part.tag).flatMap Part.hits ++ (l.filter fun p => !p.tag).flatMap Part.hits ~ l.flatMap Part.hits := by
  rw [← List.flatMap_append]
  exact (List.filter_append_perm Part.tag l).flatMap_right _

theorem mergeParts_hits (g : List Part) (idxs : List Nat) : (mergeParts g idxs).flatMap Part.hits ~ g.flatMap Part.hits := by
  have key : ∀ u : Part → Part, (∀ p, (u p).hits = p.hits) → ∀ i, (g.modify i u).flatMap Part.hits = g.flatMap Part.hits := by
    intro u hu i
    rw [List.flatMap_def, List.flatMap_def, modify_map Part.hits u hu]
  unfold mergeParts
  split
  · rw [key (fun p => { p with em := true }) (fun _ => rfl)]
  · rw [key (fun p => { p with em := true }) (fun _ => rfl)]
  · rename_i k l _
    have hg : (setTags g (k :: l)).flatMap Part.hits = g.flatMap Part.hits := by
      rw [List.flatMap_def, List.flatMap_def, setTags_map Part.hits (fun _ => rfl)]
    dsimp only
    rw [← hg]
    generalize setTags g (k :: l) = g1
    split
    · rfl
    · rename_i pk e
      rw [absorb_eq]
      conv_rhs => rw [flat_split g1 k pk e]
      simp only [List.flatMap_append, List.flatMap_cons, List.flatMap_nil, List.append_nil, List.append_assoc]
      exact ((filter_flat _).append_left _).append_left _

theorem mergeDense_hits (c : Cfg) : ∀ (n : Nat) (g g' : List Part), mergeDense c n g = some g' → g'.flatMap Part.hits ~ g.flatMap Part.hits
  | 0, g, g', h => by
    unfold mergeDense at h
    split at h
    · simp at h; subst h; rfl
    · simp at h
  | n + 1, g, g', h => by
    unfold mergeDense at h
    split at h
    · simp at h; subst h; rfl
    · exact (mergeDense_hits c n _ _ h).trans (mergeParts_hits _ _)

/-! ## Tags of dense ends -/

theorem tagOne_map {α : Type} (c : Cfg) (f : Part → α) (hf : ∀ (p : Part) a b, f ⟨p.hits, p.tag, a, b, p.em⟩ = f p) (i : Nat) (st : List Part × Bool × Bool) (j : Nat) :
    (tagOne c i st j).1.map f = st.1.map f := by
  unfold tagOne
  split
  · rfl
  · split
    · rename_i pi pj ei ej
      dsimp only
      rw [List.map_set, hf]
      apply List.ext_getElem?
      intro m
      rw [List.getElem?_set]
      split
      · rename_i hm
        subst hm
        simp [ej]
        obtain ⟨h, _⟩ := List.getElem?_eq_some_iff.1 ej
        exact h
      · rfl
    · rfl

theorem tagFold_map {α : Type} (c : Cfg) (f : Part → α) (hf : ∀ (p : Part) a b, f ⟨p.hits, p.tag, a, b, p.em⟩ = f p) (i : Nat) : ∀ (js : List Nat) (st : List Part × Bool × Bool),
    (js.foldl (tagOne c i) st).1.map f = st.1.map f
  | [], st => rfl
  | j :: js, st => by rw [List.foldl_cons, tagFold_map c f hf i js, tagOne_map c f hf]

theorem tagPart_map {α : Type} (c : Cfg) (f : Part → α) (hf : ∀ (p : Part) a b, f ⟨p.hits, p.tag, a, b, p.em⟩ = f p) (g : List Part) (i : Nat) : (tagPart c g i).map f = g.map f := by
  unfold tagPart
  dsimp only
  rw [modify_map f _ (fun p => hf p _ _), tagFold_map c f hf]

theorem tagParts_map {α : Type} (c : Cfg) (f : Part → α) (hf : ∀ (p : Part) a b, f ⟨p.hits, p.tag, a, b, p.em⟩ = f p) : ∀ (is : List Nat) (g : List Part), (is.foldl (tagPart c) g).map f = g.map f
  | [], g => rfl
  | i :: is, g => by rw [List.foldl_cons, tagParts_map c f hf is, tagPart_map c f hf]

theorem tagDense_map {α : Type} (c : Cfg) (f : Part → α) (hf : ∀ (p : Part) a b, f ⟨p.hits, p.tag, a, b, p.em⟩ = f p) (g : List Part) : (tagDense c g).map f = g.map f :=
  tagParts_map c f hf _ g

/-! ## The properties -/

/-- The hits of the parts. -/
def hitsOf (g : List Part) : List Hit := g.flatMap Part.hits

/-- C404: the hits of the parts and the hit left are the hits of the cluster, each as often, and at most one hit is left. -/
theorem C404_hits_partial (c : Cfg) (inp left : List Hit) (g : List Part) (h : run c inp = some (left, g)) : hitsOf g ++ left ~ inp ∧ left.length ≤ 1 := by
  unfold run at h
  split at h
  · simp at h
  · rename_i l segs ho
    obtain ⟨h1, h2⟩ := outer_keep c _ _ _ _ _ ho
    dsimp only at h
    rw [Option.map_eq_some_iff] at h
    obtain ⟨g', hg, he⟩ := h
    simp only [Prod.mk.injEq] at he
    obtain ⟨rfl, rfl⟩ := he
    have h3 := mergeDense_hits c _ _ _ hg
    have h4 : (tagDense c (segs.map fun s => ⟨s, false, false, false, false⟩)).flatMap Part.hits = segs.flatten := by
      rw [List.flatMap_def, tagDense_map c Part.hits (fun _ _ _ => rfl), List.map_map]
      congr 1
      exact List.map_id _
    rw [h4] at h3
    exact ⟨(h3.append_right _).trans (by simpa using h1), h2⟩

/-- The hits are not split by an example clustering: each hit alone. -/
def alone (l : List Hit) : List (List Hit) := l.map fun h => [h]
theorem alone_clusters : Clusters alone := by
  intro l
  constructor
  · have : (alone l).flatten = l := by unfold alone; induction l <;> simp_all
    rw [this]
  · simp [alone]

/-- Settings for the examples: hits touch at a distance of one and less. -/
def exC : Cfg := ⟨1, 5, 1, 2, 1, 2, 1, fun a b => decide (d2 a.pt b.pt ≤ 1), alone⟩

def exH : List Hit := [⟨0, 0, 0⟩, ⟨1, 1, 0⟩, ⟨2, 2, 0⟩, ⟨3, 30, 0⟩, ⟨4, 0, 3⟩]

example : (run exC exH).isSome = true := by decide +kernel

/-- C404: the last hit is in no part: a hit that does not touch what was found before it is not looked at again. -/
theorem C404_refuted : Clusters exC.cl ∧ run exC [⟨0, 0, 0⟩, ⟨1, 3, 0⟩] = some ([⟨1, 3, 0⟩], [⟨[⟨0, 0, 0⟩], false, false, false, false⟩]) := by
  refine ⟨alone_clusters, by decide +kernel⟩

end Verif.Seg2D

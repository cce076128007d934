import Verif.Calo.GnocchiModel
import Mathlib.Tactic.Linarith
import Mathlib.Tactic.Ring
import Mathlib.Tactic.NormNum
import Mathlib.Data.List.Perm.Basic
import Mathlib.Algebra.Order.BigOperators.Group.List
import Mathlib.Algebra.Order.Group.Abs

/-! Properties of the calorimetry modules. -/

namespace Verif.Gnocchi

/-! ### C250–C252 organised hits -/

/-- all hits of an element -/
def Slot.members (s : Slot) : List Nat := s.lead :: s.shared

/-- one hit for one plane -/
def planeStep (snippets : Bool) (p : Nat) (l : List Slot) (ih : Nat × THit) : List Slot :=
  if ih.2.valid = true ∧ ih.2.plane = p then (if snippets then addHit ih.1 ih.2 l else l ++ [newSlot ih.1 ih.2]) else l

theorem orgStep_get (snippets : Bool) (p : Nat) (ret : List (List Slot)) (ih : Nat × THit) :
    (orgStep snippets ret ih)[p]? = ret[p]?.map fun l => planeStep snippets p l ih := by
  unfold orgStep planeStep
  split
  · rename_i hv
    rw [List.getElem?_modify]
    rcases ret[p]? with _ | l
    · rfl
    · by_cases hp : ih.2.plane = p
      · simp [hp, hv]
      · simp [hp]
  · rename_i hv
    rcases ret[p]? with _ | l
    · rfl
    · simp [hv]

theorem fold_get (snippets : Bool) (p : Nat) : ∀ (l : List (Nat × THit)) (ret : List (List Slot)),
    (l.foldl (orgStep snippets) ret)[p]? = ret[p]?.map fun s => l.foldl (planeStep snippets p) s
  | [], ret => by simp
  | a :: t, ret => by
    rw [List.foldl_cons, fold_get snippets p t, orgStep_get, Option.map_map]
    rfl

theorem organize_get (snippets : Bool) (nplanes p : Nat) (hits : List THit) (h : p < nplanes) :
    (organize snippets nplanes hits)[p]? =
      some (((List.range hits.length).zip hits).foldl (planeStep snippets p) []) := by
  unfold organize
  rw [fold_get]
  simp [h]

theorem addHit_members (i : Nat) (h : THit) : ∀ l : List Slot,
    ((addHit i h l).flatMap Slot.members).Perm (i :: l.flatMap Slot.members)
  | [] => by simp [addHit, newSlot, Slot.members]
  | s :: t => by
    unfold addHit
    split
    · rw [List.flatMap_cons, List.flatMap_cons]
      rw [show i :: (s.members ++ t.flatMap Slot.members) = (i :: s.members) ++ t.flatMap Slot.members from rfl]
      apply List.Perm.append_right
      split
      · show (i :: (s.shared ++ [s.lead])).Perm (i :: s.lead :: s.shared)
        exact (List.perm_append_singleton _ _).cons i
      · show (s.lead :: (s.shared ++ [i])).Perm (i :: s.lead :: s.shared)
        exact ((List.perm_append_singleton _ _).cons s.lead).trans (List.Perm.swap _ _ _)
    · rw [List.flatMap_cons, List.flatMap_cons]
      exact ((addHit_members i h t).append_left s.members).trans List.perm_middle

theorem fold_members (snippets : Bool) (p : Nat) : ∀ (l : List (Nat × THit)) (s : List Slot),
    ((l.foldl (planeStep snippets p) s).flatMap Slot.members).Perm
      (s.flatMap Slot.members ++ (l.filter fun ih => decide (ih.2.valid = true ∧ ih.2.plane = p)).map Prod.fst)
  | [], s => by simp
  | a :: t, s => by
    rw [List.foldl_cons]
    refine (fold_members snippets p t _).trans ?_
    unfold planeStep
    by_cases hv : a.2.valid = true ∧ a.2.plane = p
    · rw [if_pos hv, List.filter_cons_of_pos (by simpa using hv), List.map_cons]
      have : ((if snippets = true then addHit a.1 a.2 s else s ++ [newSlot a.1 a.2]).flatMap Slot.members).Perm
          (a.1 :: s.flatMap Slot.members) := by
        split
        · exact addHit_members _ _ _
        · simp only [List.flatMap_append, List.flatMap_cons, List.flatMap_nil, newSlot, Slot.members, List.append_nil]
          exact List.perm_append_singleton _ _
      exact (this.append_right _).trans List.perm_middle.symm
    · rw [if_neg hv, List.filter_cons_of_neg (by simpa using hv)]

/-- the positions of the valid hits of a plane, in order -/
def validOn (p : Nat) (hits : List THit) : List Nat :=
  (((List.range hits.length).zip hits).filter fun ih => decide (ih.2.valid = true ∧ ih.2.plane = p)).map Prod.fst

theorem mem_enum {hits : List THit} {i : Nat} {h : THit} :
    (i, h) ∈ (List.range hits.length).zip hits ↔ hits[i]? = some h := by
  constructor
  · intro hm
    obtain ⟨k, hk⟩ := List.getElem?_of_mem hm
    rw [List.getElem?_zip_eq_some] at hk
    obtain ⟨h1, h2⟩ := hk
    have : k < hits.length := (List.getElem?_eq_some_iff.mp h2).1
    rw [List.getElem?_range this] at h1
    cases h1
    exact h2
  · intro h1
    have hlt : i < hits.length := (List.getElem?_eq_some_iff.mp h1).1
    apply List.mem_of_getElem? (i := i)
    rw [List.getElem?_zip_eq_some]
    exact ⟨by simp [hlt], h1⟩

theorem enum_fst_nodup (hits : List THit) : (((List.range hits.length).zip hits).map Prod.fst).Nodup := by
  rw [List.map_fst_zip (by simp)]
  exact List.nodup_range

/-- the list has each valid hit of the plane once and nothing else -/
theorem mem_validOn {p : Nat} {hits : List THit} {i : Nat} :
    i ∈ validOn p hits ↔ ∃ h, hits[i]? = some h ∧ h.valid = true ∧ h.plane = p := by
  unfold validOn
  simp only [List.mem_map, List.mem_filter, decide_eq_true_eq]
  constructor
  · rintro ⟨⟨j, h⟩, ⟨hm, hv⟩, rfl⟩
    exact ⟨h, mem_enum.mp hm, hv⟩
  · rintro ⟨h, h1, hv⟩
    exact ⟨(i, h), ⟨mem_enum.mpr h1, hv⟩, rfl⟩

theorem validOn_nodup (p : Nat) (hits : List THit) : (validOn p hits).Nodup :=
  (enum_fst_nodup hits).sublist (List.filter_sublist.map _)

/-- C250: for every way to organise the hits, each valid hit is in exactly one element, once, that of its plane, and no
other hit is in any. -/
theorem C250_partition (snippets : Bool) (nplanes p : Nat) (hits : List THit) (h : p < nplanes) :
    ∃ l, (organize snippets nplanes hits)[p]? = some l ∧ (l.flatMap Slot.members).Nodup ∧
      ∀ i, i ∈ l.flatMap Slot.members ↔ ∃ g, hits[i]? = some g ∧ g.valid = true ∧ g.plane = p := by
  have hp := fold_members snippets p ((List.range hits.length).zip hits) []
  refine ⟨_, organize_get snippets nplanes p hits h, ?_, ?_⟩
  · exact hp.nodup_iff.mpr (validOn_nodup p hits)
  · intro i
    rw [hp.mem_iff]
    exact mem_validOn (p := p) (hits := hits) (i := i)

/-- C250 (part): without snippets every element is a single hit, and the order of the hits is kept. -/
theorem C250_individual (nplanes p : Nat) (hits : List THit) (h : p < nplanes) :
    ∃ l, (organize false nplanes hits)[p]? = some l ∧ (∀ s ∈ l, s.shared = []) ∧
      (l.map Slot.lead).Pairwise (· < ·) := by
  have key : ∀ (l : List (Nat × THit)) (s : List Slot), l.foldl (planeStep false p) s =
      s ++ (l.filter fun ih => decide (ih.2.valid = true ∧ ih.2.plane = p)).map fun ih => newSlot ih.1 ih.2 := by
    intro l
    induction l with
    | nil => intro s; simp
    | cons a t ih =>
      intro s
      rw [List.foldl_cons, ih]
      unfold planeStep
      by_cases hv : a.2.valid = true ∧ a.2.plane = p
      · rw [if_pos hv, List.filter_cons_of_pos (by simpa using hv)]
        simp
      · rw [if_neg hv, List.filter_cons_of_neg (by simpa using hv)]
  refine ⟨_, organize_get false nplanes p hits h, ?_, ?_⟩
  · rw [key]
    intro s hs
    simp only [List.nil_append, List.mem_map] at hs
    obtain ⟨a, _, rfl⟩ := hs
    rfl
  · rw [key, List.nil_append, List.map_map]
    have e : (Slot.lead ∘ fun ih : Nat × THit => newSlot ih.1 ih.2) = Prod.fst := rfl
    rw [e]
    have : (((List.range hits.length).zip hits).map Prod.fst).Pairwise (· < ·) := by
      rw [List.map_fst_zip (by simp)]
      exact List.pairwise_lt_range
    exact this.sublist (List.filter_sublist.map _)

/-- same snippet: start, end and wire -/
def Same (g h : THit) : Prop := g.start = h.start ∧ g.stop = h.stop ∧ g.wire = h.wire

/-- what holds of the elements of a plane while they are made -/
def SlotsOk (hits : List THit) (p : Nat) (l : List Slot) : Prop :=
  (∀ s ∈ l, ∃ h, hits[s.lead]? = some h ∧ h.valid = true ∧ h.plane = p ∧
    s.start = h.start ∧ s.stop = h.stop ∧ s.wire = h.wire ∧ s.integral = h.integral ∧
    ∀ j ∈ s.shared, ∃ g, hits[j]? = some g ∧ Same g h ∧ g.integral ≤ h.integral) ∧
  l.Pairwise fun s t => ¬ (s.start = t.start ∧ s.stop = t.stop ∧ s.wire = t.wire)

theorem addHit_keys (i : Nat) (h : THit) : ∀ (l : List Slot) (s : Slot), s ∈ addHit i h l →
    (∃ t ∈ l, s.start = t.start ∧ s.stop = t.stop ∧ s.wire = t.wire) ∨
      (s.start = h.start ∧ s.stop = h.stop ∧ s.wire = h.wire)
  | [], s, hs => by
    simp only [addHit, List.mem_singleton] at hs
    subst hs
    exact Or.inr ⟨rfl, rfl, rfl⟩
  | a :: t, s, hs => by
    unfold addHit at hs
    split at hs
    · rcases List.mem_cons.mp hs with rfl | hs
      · split
        · exact Or.inr ⟨rfl, rfl, rfl⟩
        · exact Or.inl ⟨a, by simp, rfl, rfl, rfl⟩
      · exact Or.inl ⟨s, by simp [hs], rfl, rfl, rfl⟩
    · rcases List.mem_cons.mp hs with rfl | hs
      · exact Or.inl ⟨s, by simp, rfl, rfl, rfl⟩
      · rcases addHit_keys i h t s hs with ⟨u, hu, e⟩ | e
        · exact Or.inl ⟨u, by simp [hu], e⟩
        · exact Or.inr e

theorem addHit_ok (hits : List THit) (p i : Nat) (h : THit) (hi : hits[i]? = some h) (hv : h.valid = true)
    (hp : h.plane = p) : ∀ l : List Slot, SlotsOk hits p l → SlotsOk hits p (addHit i h l)
  | [], _ => by
    refine ⟨?_, List.pairwise_singleton _ _⟩
    intro s hs
    simp only [addHit, List.mem_singleton] at hs
    subst hs
    exact ⟨h, hi, hv, hp, rfl, rfl, rfl, rfl, by simp [newSlot]⟩
  | a :: t, hl => by
    obtain ⟨h1, h2⟩ := hl
    have h2' := List.pairwise_cons.mp h2
    unfold addHit
    split
    · rename_i hs
      simp only [sameSnippet, decide_eq_true_eq] at hs
      obtain ⟨g, g1, g2, g3, g4, g5, g6, g7, g8⟩ := h1 a (by simp)
      have hsame : Same h g := ⟨by rw [hs.1, g4], by rw [hs.2.1, g5], by rw [hs.2.2, g6]⟩
      constructor
      · intro s hs'
        rcases List.mem_cons.mp hs' with rfl | hs'
        · split
          · rename_i hgt
            rw [g7] at hgt
            refine ⟨h, hi, hv, hp, rfl, rfl, rfl, rfl, ?_⟩
            intro j hj
            rcases List.mem_append.mp hj with hj | hj
            · obtain ⟨g', j1, j2, j3⟩ := g8 j hj
              exact ⟨g', j1, ⟨by rw [j2.1, hsame.1], by rw [j2.2.1, hsame.2.1], by rw [j2.2.2, hsame.2.2]⟩,
                by linarith⟩
            · rw [List.mem_singleton.mp hj]
              exact ⟨g, g1, ⟨hsame.1.symm, hsame.2.1.symm, hsame.2.2.symm⟩, by linarith⟩
          · rename_i hgt
            rw [g7] at hgt
            refine ⟨g, g1, g2, g3, g4, g5, g6, g7, ?_⟩
            intro j hj
            rcases List.mem_append.mp hj with hj | hj
            · exact g8 j hj
            · rw [List.mem_singleton.mp hj]
              exact ⟨h, hi, hsame, by linarith⟩
        · exact h1 s (by simp [hs'])
      · refine List.pairwise_cons.mpr ⟨?_, h2'.2⟩
        intro b hb
        have := h2'.1 b hb
        split
        · show ¬ (h.start = b.start ∧ h.stop = b.stop ∧ h.wire = b.wire)
          rwa [hs.1, hs.2.1, hs.2.2]
        · exact this
    · rename_i hs
      simp only [sameSnippet, decide_eq_true_eq] at hs
      have ih := addHit_ok hits p i h hi hv hp t ⟨fun s hs => h1 s (by simp [hs]), h2'.2⟩
      constructor
      · intro s hs'
        rcases List.mem_cons.mp hs' with rfl | hs'
        · exact h1 s (by simp)
        · exact ih.1 s hs'
      · refine List.pairwise_cons.mpr ⟨?_, ih.2⟩
        intro b hb
        rcases addHit_keys i h t b hb with ⟨u, hu, e1, e2, e3⟩ | ⟨e1, e2, e3⟩
        · rw [e1, e2, e3]
          exact h2'.1 u hu
        · rw [e1, e2, e3]
          intro hc
          exact hs ⟨hc.1.symm, hc.2.1.symm, hc.2.2.symm⟩

theorem fold_ok (hits : List THit) (p : Nat) : ∀ (l : List (Nat × THit)) (s : List Slot),
    (∀ ih ∈ l, hits[ih.1]? = some ih.2) → SlotsOk hits p s → SlotsOk hits p (l.foldl (planeStep true p) s)
  | [], s, _, h => h
  | a :: t, s, hl, h => by
    rw [List.foldl_cons]
    apply fold_ok hits p t _ (fun ih hm => hl ih (by simp [hm]))
    unfold planeStep
    split
    · rename_i hv
      rw [if_pos rfl]
      exact addHit_ok hits p a.1 a.2 (hl a (by simp)) hv.1 hv.2 s h
    · exact h

/-- C251: with snippets, the hits that share an element with a hit are on the same wire number with the same start and end,
and none has a larger integral; two elements of a plane are never the same snippet. -/
theorem C251_snippets (nplanes p : Nat) (hits : List THit) (hp : p < nplanes) :
    ∃ l, (organize true nplanes hits)[p]? = some l ∧
      (∀ s ∈ l, ∃ h, hits[s.lead]? = some h ∧ h.valid = true ∧ h.plane = p ∧
        ∀ j ∈ s.shared, ∃ g, hits[j]? = some g ∧ Same g h ∧ g.integral ≤ h.integral) ∧
      l.Pairwise fun s t => ∀ g h, hits[s.lead]? = some g → hits[t.lead]? = some h → ¬ Same g h := by
  have hok := fold_ok hits p ((List.range hits.length).zip hits) [] (fun ih hm => mem_enum.mp hm)
    ⟨by simp, List.Pairwise.nil⟩
  refine ⟨_, organize_get true nplanes p hits hp, ?_, ?_⟩
  · intro s hs
    obtain ⟨h, a1, a2, a3, _, _, _, _, a4⟩ := hok.1 s hs
    exact ⟨h, a1, a2, a3, a4⟩
  · apply hok.2.imp_of_mem
    intro s t hs ht hne g h hg hh hsame
    obtain ⟨g', b1, _, _, b2, b3, b4, _, _⟩ := hok.1 s hs
    obtain ⟨h', c1, _, _, c2, c3, c4, _, _⟩ := hok.1 t ht
    rw [hg] at b1
    rw [hh] at c1
    cases b1
    cases c1
    exact hne ⟨by rw [b2, c2, hsame.1], by rw [b3, c3, hsame.2.1], by rw [b4, c4, hsame.2.2]⟩

def exHits : List THit :=
  [⟨2, 0, 5, 10, 20, 30, 3, 100, true⟩, ⟨2, 0, 5, 10, 20, 40, 4, 100, true⟩, ⟨1, 0, 5, 10, 20, 7, 1, 9, true⟩,
   ⟨2, 0, 6, 10, 20, 12, 2, 15, true⟩, ⟨2, 0, 5, 10, 20, 8, 1, 100, false⟩]

example : organize true 3 exHits = [[], [⟨2, [], 10, 20, 5, 7⟩], [⟨1, [0], 10, 20, 5, 40⟩, ⟨3, [], 10, 20, 6, 12⟩]] := by
  decide +kernel

/-- C251 (refuted): hits of different TPCs with the same wire number, start and end are taken for one snippet. -/
theorem C251_refuted : ¬ ∀ (nplanes : Nat) (hits : List THit), ∀ l ∈ organize true nplanes hits, ∀ s ∈ l, ∀ j ∈ s.shared,
    ∀ g h, hits[s.lead]? = some g → hits[j]? = some h → g.tpc = h.tpc := by
  intro h
  have := h 1 [⟨0, 0, 5, 10, 20, 30, 3, 100, true⟩, ⟨0, 1, 5, 10, 20, 40, 4, 90, true⟩]
    [⟨1, [0], 10, 20, 5, 40⟩] (by decide +kernel) ⟨1, [0], 10, 20, 5, 40⟩ (by simp) 0 (by simp) _ _ rfl rfl
  simp at this

/-! ### C252 charge -/

theorem foldl_add (l : List ℚ) : ∀ a : ℚ, l.foldl (· + ·) a = a + l.sum := by
  induction l with
  | nil => intro a; simp
  | cons x t ih => intro a; rw [List.foldl_cons, ih, List.sum_cons]; ring

/-- C252: with the methods that use integrals, the charges of the elements of a plane add up to the integrals of its valid
hits. -/
theorem C252_conserved (m : Method) (hm : m = .integral ∨ m = .summedIntegral) (nplanes p : Nat) (hits : List THit)
    (hp : p < nplanes) (d : THit) :
    ∃ l, (organize m.snippets nplanes hits)[p]? = some l ∧
      (l.map (charge m fun i => hits.getD i d)).sum =
        ((hits.filter fun h => decide (h.valid = true ∧ h.plane = p)).map THit.integral).sum := by
  have hperm := fold_members m.snippets p ((List.range hits.length).zip hits) []
  refine ⟨_, organize_get m.snippets nplanes p hits hp, ?_⟩
  have hgen : ∀ l : List Slot, (∀ s ∈ l, m = .integral → s.shared = []) →
      (l.map (charge m fun i => hits.getD i d)).sum =
        ((l.flatMap Slot.members).map fun i => (hits.getD i d).integral).sum := by
    intro l hl
    induction l with
    | nil => simp
    | cons s t ih =>
      rw [List.map_cons, List.sum_cons, ih (fun s hs => hl s (by simp [hs])), List.flatMap_cons, List.map_append,
        List.sum_append]
      congr 1
      rcases hm with rfl | rfl
      · simp [charge, Slot.members, hl s (by simp) rfl]
      · unfold charge
        dsimp only
        rw [foldl_add]
        rfl
  rw [hgen]
  · rw [(hperm.map _).sum_eq, List.flatMap_nil, List.nil_append, List.map_map]
    have : ∀ l : List (Nat × THit), (∀ ih ∈ l, hits[ih.1]? = some ih.2) →
        ((l.filter fun ih => decide (ih.2.valid = true ∧ ih.2.plane = p)).map
          ((fun i => (hits.getD i d).integral) ∘ Prod.fst)).sum =
        (((l.map Prod.snd).filter fun h => decide (h.valid = true ∧ h.plane = p)).map THit.integral).sum := by
      intro l
      induction l with
      | nil => intro _; simp
      | cons a t ih =>
        intro hl
        have hi := ih (fun x hx => hl x (by simp [hx]))
        have ha := hl a (by simp)
        rw [List.map_cons]
        by_cases hv : a.2.valid = true ∧ a.2.plane = p
        · rw [List.filter_cons_of_pos (by simpa using hv), List.filter_cons_of_pos (by simpa using hv), List.map_cons,
            List.map_cons, List.sum_cons, List.sum_cons, hi]
          congr 1
          simp [ha]
        · rw [List.filter_cons_of_neg (by simpa using hv), List.filter_cons_of_neg (by simpa using hv), hi]
    rw [this _ (fun ih hm => mem_enum.mp hm), List.map_snd_zip (by simp)]
  · intro s hs hmi
    subst hmi
    obtain ⟨l, h1, h2, _⟩ := C250_individual nplanes p hits hp
    rw [organize_get false nplanes p hits hp] at h1
    cases h1
    exact h2 s hs

/-- C252 (refuted): with the sum of the region of interest two hits of one snippet give its charge once, but a hit of another
TPC that is taken for the same snippet loses its charge. -/
theorem C252_refuted : ¬ ∀ (hits : List THit) (d : THit), (∀ h ∈ hits, h.valid = true ∧ h.plane = 0) →
    (hits.map fun h => (h.tpc, h.wire, h.start)).Nodup →
    ∀ l, (organize true 1 hits)[0]? = some l →
      (l.map (charge .summedADC fun i => hits.getD i d)).sum = (hits.map THit.roi).sum := by
  intro h
  have := h [⟨0, 0, 5, 10, 20, 30, 3, 100, true⟩, ⟨0, 1, 5, 10, 20, 40, 4, 90, true⟩] ⟨0, 0, 5, 10, 20, 30, 3, 100, true⟩
    (by decide +kernel) (by decide +kernel) [⟨1, [0], 10, 20, 5, 40⟩] (by decide +kernel)
  revert this
  decide +kernel

example : ([⟨1, [0], 10, 20, 5, 40⟩, ⟨3, [], 10, 20, 6, 12⟩].map
    (charge .summedIntegral fun i => exHits.getD i ⟨0, 0, 0, 0, 0, 0, 0, 0, false⟩)).sum = 82 := by decide +kernel

end Verif.Gnocchi

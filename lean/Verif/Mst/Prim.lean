import Verif.Mst.Model
import Mathlib.Data.List.Nodup
import Mathlib.Data.List.Perm.Subperm

/-! C97, C98: Prim's algorithm puts every hit in one cluster and grows a tree on each of them. -/
namespace Verif.Mst

/-! ## Specification -/

/-- `b` is a neighbour of `a` -/
def Finder.Nb (F : Finder) (a b : Nat) : Prop := ∃ p ∈ F.cand a, p.2 = b

/-- a tree on the hits `V` in the order in which it grew: every hit but the first is joined by one edge to an earlier one -/
inductive Grown : List Edge → List Nat → Prop
  | single (h : Nat) : Grown [] [h]
  | grow {T : List Edge} {V : List Nat} (u v : Nat) (w : ℚ) : Grown T V → u ∈ V → v ∉ V → Grown (T ++ [(u, v, w)]) (V ++ [v])

/-- a grown tree whose edges were, each time, the cheapest offered ones that leave the tree towards hits that are not in `B` -/
inductive MinGrown (F : Finder) (B : Nat → Prop) : List Edge → List Nat → Prop
  | single (h : Nat) : MinGrown F B [] [h]
  | grow {T : List Edge} {V : List Nat} (e : Edge) : MinGrown F B T V → e.1 ∈ V → e.2.1 ∉ V → e ∈ F.offer e.1 → ¬ B e.2.1 →
      (∀ a ∈ V, ∀ f ∈ F.offer a, f.2.1 ∉ V → ¬ B f.2.1 → e.2.2 ≤ f.2.2) → MinGrown F B (T ++ [e]) (V ++ [e.2.1])

theorem MinGrown.grown {F : Finder} {B : Nat → Prop} {T : List Edge} {V : List Nat} (h : MinGrown F B T V) : Grown T V := by
  induction h with
  | single h => exact .single h
  | grow e _ h1 h2 _ _ _ ih => exact .grow e.1 e.2.1 e.2.2 ih h1 h2

theorem MinGrown.offered {F : Finder} {B : Nat → Prop} {T : List Edge} {V : List Nat} (h : MinGrown F B T V) : ∀ e ∈ T, e ∈ F.offer e.1 := by
  induction h with
  | single h => simp
  | grow e _ h1 h2 h3 _ _ ih =>
    intro f hf
    rcases List.mem_append.1 hf with hf | hf
    · exact ih f hf
    · simp at hf; subst hf; exact h3

/-- the edges at a hit, seen from that hit -/
def incident (T : List Edge) (h : Nat) : List Edge :=
  T.flatMap (fun e => (if e.1 = h then [e] else []) ++ (if e.2.1 = h then [(e.2.1, e.1, e.2.2)] else []))

theorem mem_offer {F : Finder} {a : Nat} {e : Edge} : e ∈ F.offer a ↔ ∃ p ∈ F.cand a, e = (a, p.2, F.weight p.1 a p.2) := by
  unfold Finder.offer
  rw [List.mem_map]
  constructor
  · rintro ⟨p, hp, rfl⟩; exact ⟨p, hp, rfl⟩
  · rintro ⟨p, hp, rfl⟩; exact ⟨p, hp, rfl⟩

theorem offer_src {F : Finder} {a : Nat} {e : Edge} (h : e ∈ F.offer a) : e.1 = a ∧ F.Nb a e.2.1 := by
  obtain ⟨p, hp, rfl⟩ := mem_offer.1 h
  exact ⟨rfl, p, hp, rfl⟩

theorem nb_offer {F : Finder} {a b : Nat} (h : F.Nb a b) : ∃ e ∈ F.offer a, e.2.1 = b := by
  obtain ⟨p, hp, rfl⟩ := h
  exact ⟨_, mem_offer.2 ⟨p, hp, rfl⟩, rfl⟩

/-- the clusters that are complete: each is a grown tree of offered edges, and all neighbours of its hits are in it, in an earlier cluster, or were marked from the start -/
structure DoneOk (F : Finder) (att0 : Nat → Bool) (cs : List Clus) : Prop where
  tree : ∀ p c q, cs = p ++ c :: q → ∃ T, MinGrown F (fun x => att0 x = true ∨ x ∈ p.flatMap Clus.hits) T c.hits ∧ ∀ h, c.emap h = incident T h
  closed : ∀ p c q, cs = p ++ c :: q → ∀ a ∈ c.hits, ∀ b, F.Nb a b → att0 b = true ∨ b ∈ p.flatMap Clus.hits ∨ b ∈ c.hits

/-- the state at the head of the loop -/
structure PInv (F : Finder) (att0 : Nat → Bool) (hits : List Nat) (before : List Clus) (s : PState) (cs : List Clus) (T : List Edge) : Prop where
  done : s.done = before ++ cs
  doneOk : DoneOk F att0 cs
  att : ∀ x, (s.attached x = true ∨ x = s.last) ↔ (att0 x = true ∨ x ∈ cs.flatMap Clus.hits ∨ x ∈ s.cur.hits ∨ x = s.last)
  nodup : (cs.flatMap Clus.hits ++ s.cur.hits ++ [s.last]).Nodup
  sub : ∀ x ∈ cs.flatMap Clus.hits ++ s.cur.hits ++ [s.last], x ∈ hits ∧ (att0 x = true → hits.head? = some x)
  free : ∃ pre, hits = pre ++ s.free ∧ ∀ x ∈ pre, att0 x = true ∨ x ∈ cs.flatMap Clus.hits ++ s.cur.hits ++ [s.last]
  headIn : ∀ x, hits.head? = some x → x ∈ cs.flatMap Clus.hits ++ s.cur.hits ++ [s.last]
  edges : ∀ e ∈ s.edges, e.1 ∈ s.cur.hits ∧ e ∈ F.offer e.1
  edgesAll : ∀ a ∈ s.cur.hits, ∀ e ∈ F.offer a, ¬ (s.attached e.2.1 = true ∨ e.2.1 = s.last) → e ∈ s.edges
  tree : MinGrown F (fun x => att0 x = true ∨ x ∈ cs.flatMap Clus.hits) T (s.cur.hits ++ [s.last])
  emap : ∀ h, s.cur.emap h = incident T h

theorem mem_sortEdges {l : List Edge} {e : Edge} : e ∈ sortEdges l ↔ e ∈ l := by
  unfold sortEdges; exact List.mem_insertionSort _

theorem sortEdges_min {l : List Edge} {e : Edge} {r : List Edge} (h : sortEdges l = e :: r) : e ∈ l ∧ ∀ f ∈ l, e.2.2 ≤ f.2.2 := by
  have hs : (sortEdges l).Pairwise (fun a b : Edge => a.2.2 ≤ b.2.2) := by
    unfold sortEdges
    haveI : Std.Total (fun a b : Edge => a.2.2 ≤ b.2.2) := ⟨fun a b => le_total _ _⟩
    haveI : IsTrans Edge (fun a b : Edge => a.2.2 ≤ b.2.2) := ⟨fun a b c h1 h2 => le_trans h1 h2⟩
    exact List.pairwise_insertionSort _ _
  rw [h] at hs
  refine ⟨mem_sortEdges.1 (by rw [h]; exact List.mem_cons_self), ?_⟩
  intro f hf
  have : f ∈ sortEdges l := mem_sortEdges.2 hf
  rw [h] at this
  rcases List.mem_cons.1 this with rfl | h1
  · exact le_refl _
  · exact (List.pairwise_cons.1 hs).1 f h1

theorem incident_append (T : List Edge) (e : Edge) (h : Nat) :
    incident (T ++ [e]) h = incident T h ++ ((if e.1 = h then [e] else []) ++ (if e.2.1 = h then [(e.2.1, e.1, e.2.2)] else [])) := by
  simp [incident]

theorem Grown.ne_nil {T : List Edge} {V : List Nat} (h : Grown T V) : V ≠ [] := by cases h <;> simp

theorem Grown.nodup {T : List Edge} {V : List Nat} (h : Grown T V) : V.Nodup := by
  induction h with
  | single => simp
  | grow u v w _ _ hv ih => rw [List.nodup_append]; exact ⟨ih, by simp, by rintro a ha b hb rfl; simp at hb; subst hb; exact hv ha⟩

theorem Grown.length {T : List Edge} {V : List Nat} (h : Grown T V) : T.length + 1 = V.length := by
  induction h with
  | single => simp
  | grow u v w _ _ hv ih => simp; omega

theorem Grown.mem {T : List Edge} {V : List Nat} (h : Grown T V) : ∀ e ∈ T, e.1 ∈ V ∧ e.2.1 ∈ V := by
  induction h with
  | single => simp
  | grow u v w _ hu hv ih =>
    intro e he
    rcases List.mem_append.1 he with he | he
    · exact ⟨List.mem_append_left _ (ih e he).1, List.mem_append_left _ (ih e he).2⟩
    · simp at he; subst he; simp [hu]

theorem takeWhile_imp {p : Nat → Bool} {l : List Nat} {x : Nat} (h : x ∈ l.takeWhile p) : p x = true := by
  induction l with
  | nil => simp at h
  | cons a l ih =>
    rw [List.takeWhile_cons] at h
    by_cases ha : p a = true
    · rw [if_pos ha] at h
      rcases List.mem_cons.1 h with rfl | h
      · exact ha
      · exact ih h
    · rw [if_neg ha] at h; simp at h

theorem dropWhile_not {p : Nat → Bool} {l : List Nat} {x : Nat} {t : List Nat} (h : l.dropWhile p = x :: t) : p x = false := by
  induction l with
  | nil => simp at h
  | cons a l ih =>
    rw [List.dropWhile_cons] at h
    by_cases ha : p a = true
    · rw [if_pos ha] at h; exact ih h
    · rw [if_neg ha] at h
      have : a = x := by injection h
      rw [← this]; simpa using ha

/-- what one round does -/
theorem round_inv {F : Finder} {att0 : Nat → Bool} {hits : List Nat} {before : List Clus} (hF : ∀ a ∈ hits, ∀ b, F.Nb a b → b ∈ hits)
    {s : PState} {cs : List Clus} {T : List Edge} (I : PInv F att0 hits before s cs T) :
    (∃ s' cs' T', advance (absorb F s) = .inl s' ∧ PInv F att0 hits before s' cs' T' ∧
      (cs'.flatMap Clus.hits ++ s'.cur.hits ++ [s'.last]).length = (cs.flatMap Clus.hits ++ s.cur.hits ++ [s.last]).length + 1) ∨
    (∃ cs', advance (absorb F s) = .inr (before ++ cs') ∧ DoneOk F att0 cs' ∧ (cs'.flatMap Clus.hits).Nodup ∧
      ∀ x, x ∈ cs'.flatMap Clus.hits ↔ x ∈ hits ∧ (att0 x = true → hits.head? = some x)) := by
  -- facts about the absorbed state
  have hatt : ∀ x, (absorb F s).attached x = true ↔ (att0 x = true ∨ x ∈ cs.flatMap Clus.hits ∨ x ∈ s.cur.hits ∨ x = s.last) := by
    intro x
    rw [← I.att x]
    simp [absorb]
  have hed : ∀ e, e ∈ (absorb F s).edges ↔ (e.1 ∈ s.cur.hits ++ [s.last] ∧ e ∈ F.offer e.1 ∧ ¬ (absorb F s).attached e.2.1 = true) := by
    intro e
    have h1 : e ∈ (absorb F s).edges ↔ (e ∈ s.edges ∨ e ∈ F.offer s.last) ∧ ¬ (absorb F s).attached e.2.1 = true := by
      simp only [absorb, List.mem_append, List.mem_filter, Bool.not_eq_true', Bool.not_eq_true]
      tauto
    rw [h1]
    constructor
    · rintro ⟨h2 | h2, h3⟩
      · exact ⟨List.mem_append_left _ (I.edges e h2).1, (I.edges e h2).2, h3⟩
      · have := (offer_src h2).1
        exact ⟨by rw [this]; simp, by rw [this]; exact h2, h3⟩
    · rintro ⟨h2, h3, h4⟩
      refine ⟨?_, h4⟩
      rcases List.mem_append.1 h2 with h2 | h2
      · left
        refine I.edgesAll e.1 h2 e h3 ?_
        intro hc
        exact h4 ((hatt _).2 ((I.att _).1 hc))
      · right; rw [List.mem_singleton.1 h2] at h3; exact h3
  have hcl : ∀ a ∈ s.cur.hits ++ [s.last], a ∈ hits := fun a ha => (I.sub a (by
    rw [List.append_assoc]; exact List.mem_append_right _ ha)).1
  cases hso : sortEdges (absorb F s).edges with
  | cons e l =>
    left
    obtain ⟨hm, hmin⟩ := sortEdges_min hso
    obtain ⟨he1, he2, he3⟩ := (hed e).1 hm
    have hnot : e.2.1 ∉ cs.flatMap Clus.hits ++ s.cur.hits ++ [s.last] ∧ ¬ att0 e.2.1 = true := by
      rw [hatt] at he3
      simp only [List.mem_append, List.mem_singleton]
      tauto
    refine ⟨{ (absorb F s) with edges := e :: l, cur := (absorb F s).cur.addEdge e, last := e.2.1 }, cs, T ++ [e], ?_, ?_, ?_⟩
    · simp only [advance, hso]
    · have hh : ((absorb F s).cur.addEdge e).hits = s.cur.hits ++ [s.last] := rfl
      constructor
      · exact I.done
      · exact I.doneOk
      · intro x
        show ((absorb F s).attached x = true ∨ x = e.2.1) ↔ _
        rw [hatt, hh]
        simp only [List.mem_append, List.mem_singleton]
        tauto
      · rw [hh, List.nodup_append]
        have h3 := I.nodup
        rw [List.append_assoc] at h3
        refine ⟨h3, by simp, ?_⟩
        rintro a ha b hb rfl
        simp at hb; subst hb
        exact hnot.1 (by rw [List.append_assoc]; exact ha)
      · rw [hh]
        intro x hx
        rcases List.mem_append.1 hx with hx | hx
        · exact I.sub x (by rw [List.append_assoc]; exact hx)
        · simp at hx; subst hx
          exact ⟨hF e.1 (hcl _ he1) _ (offer_src he2).2, fun h => absurd h hnot.2⟩
      · rw [hh]
        obtain ⟨pre, h1, h2⟩ := I.free
        refine ⟨pre, h1, fun x hx => ?_⟩
        rcases h2 x hx with h3 | h3
        · exact Or.inl h3
        · right; apply List.mem_append_left; rw [← List.append_assoc]; exact h3
      · rw [hh]
        intro x hx
        apply List.mem_append_left; rw [← List.append_assoc]; exact I.headIn x hx
      · intro f hf
        have : f ∈ (absorb F s).edges := mem_sortEdges.1 (by rw [hso]; exact hf)
        rw [hh]
        exact ⟨((hed f).1 this).1, ((hed f).1 this).2.1⟩
      · rw [hh]
        intro a ha f hf hna
        have hs := (offer_src hf).1
        have : f ∈ sortEdges (absorb F s).edges := mem_sortEdges.2 ((hed f).2 ⟨by rw [hs]; exact ha, by rw [hs]; exact hf, fun hc => hna (Or.inl hc)⟩)
        rw [hso] at this; exact this
      · rw [hh]
        refine MinGrown.grow e I.tree he1 (fun hc => hnot.1 (by rw [List.append_assoc]; exact List.mem_append_right _ hc)) he2 ?_ ?_
        · rintro (hc | hc)
          · exact hnot.2 hc
          · exact hnot.1 (by rw [List.append_assoc]; exact List.mem_append_left _ hc)
        · intro a ha f hf hfV hfB
          refine hmin f ((hed f).2 ⟨by rw [(offer_src hf).1]; exact ha, by rw [(offer_src hf).1]; exact hf, ?_⟩)
          rw [hatt]
          simp only [List.mem_append, List.mem_singleton] at hfV
          tauto
      · intro h
        rw [incident_append, ← I.emap h]
        show (if h = e.2.1 then (if h = e.1 then s.cur.emap h ++ [e] else s.cur.emap h) ++ [(e.2.1, e.1, e.2.2)] else if h = e.1 then s.cur.emap h ++ [e] else s.cur.emap h) = _
        simp only [eq_comm (a := e.1) (b := h), eq_comm (a := e.2.1) (b := h)]
        by_cases h1 : h = e.2.1
        · by_cases h2 : h = e.1
          · rw [if_pos h1, if_pos h2, if_pos h2, if_pos h1, List.append_assoc]
          · rw [if_pos h1, if_neg h2, if_neg h2, if_pos h1]; rfl
        · by_cases h2 : h = e.1
          · rw [if_neg h1, if_pos h2, if_pos h2, if_neg h1]; rfl
          · rw [if_neg h1, if_neg h2, if_neg h2, if_neg h1]; simp
    · show (cs.flatMap Clus.hits ++ ((absorb F s).cur.addEdge e).hits ++ [e.2.1]).length = _
      have hh : ((absorb F s).cur.addEdge e).hits = s.cur.hits ++ [s.last] := rfl
      rw [hh]; simp; omega
  | nil =>
    have hnone : ∀ e, e ∉ (absorb F s).edges := by
      intro e he
      have := mem_sortEdges.2 he
      rw [hso] at this; simp at this
    have hcur : (absorb F s).cur.hits = s.cur.hits ++ [s.last] := rfl
    have hcs : ((cs ++ [(absorb F s).cur]).flatMap Clus.hits) = cs.flatMap Clus.hits ++ s.cur.hits ++ [s.last] := by
      simp [hcur]
    have hdone : DoneOk F att0 (cs ++ [(absorb F s).cur]) := by
      constructor
      · intro p c q hpq
        rcases List.eq_nil_or_concat q with rfl | ⟨q', c', rfl⟩
        · have h1 : cs = p ∧ (absorb F s).cur = c := by
            have := List.append_inj' hpq rfl
            exact ⟨this.1, by simpa using this.2⟩
          obtain ⟨rfl, rfl⟩ := h1
          exact ⟨T, I.tree, I.emap⟩
        · have h1 : cs = p ++ c :: q' := by
            have : cs ++ [(absorb F s).cur] = (p ++ c :: q') ++ [c'] := by rw [hpq]; simp
            exact (List.append_inj' this rfl).1
          exact I.doneOk.tree p c q' h1
      · intro p c q hpq a ha b hb
        rcases List.eq_nil_or_concat q with rfl | ⟨q', c', rfl⟩
        · have h1 : cs = p ∧ (absorb F s).cur = c := by
            have := List.append_inj' hpq rfl
            exact ⟨this.1, by simpa using this.2⟩
          obtain ⟨rfl, rfl⟩ := h1
          obtain ⟨e, he, rfl⟩ := nb_offer hb
          by_contra hc
          apply hnone e
          rw [hed]
          have hs := (offer_src he).1
          refine ⟨by rw [hs]; exact ha, by rw [hs]; exact he, ?_⟩
          rw [hatt]
          rw [hcur] at hc
          simp only [List.mem_append, List.mem_singleton] at hc
          tauto
        · have h1 : cs = p ++ c :: q' := by
            have : cs ++ [(absorb F s).cur] = (p ++ c :: q') ++ [c'] := by rw [hpq]; simp
            exact (List.append_inj' this rfl).1
          exact I.doneOk.closed p c q' h1 a ha b hb
    obtain ⟨pre, hp1, hp2⟩ := I.free
    have hdw := List.takeWhile_append_dropWhile (p := fun x => (absorb F s).attached x) (l := s.free)
    cases hdr : s.free.dropWhile (fun x => (absorb F s).attached x) with
    | nil =>
      right
      refine ⟨cs ++ [(absorb F s).cur], ?_, hdone, by rw [hcs]; exact I.nodup, ?_⟩
      · have hfr : (absorb F s).free = s.free := rfl
        have hdn : (absorb F s).done = s.done := rfl
        simp only [advance, hso, hfr, hdr, hdn, I.done, List.append_assoc]
      · intro x
        rw [hcs]
        constructor
        · exact I.sub x
        · rintro ⟨hx, hx2⟩
          by_cases hax : att0 x = true
          · exact I.headIn x (hx2 hax)
          · rw [hp1] at hx
            rcases List.mem_append.1 hx with hx | hx
            · exact (hp2 x hx).resolve_left hax
            · rw [hdr, List.append_nil] at hdw
              rw [← hdw] at hx
              have := takeWhile_imp hx
              rw [hatt] at this
              simp only [List.mem_append, List.mem_singleton]
              tauto
    | cons h t =>
      left
      refine ⟨{ (absorb F s) with edges := [], done := s.done ++ [(absorb F s).cur], cur := {}, free := t, last := h }, cs ++ [(absorb F s).cur], [], ?_, ?_, ?_⟩
      · have hfr : (absorb F s).free = s.free := rfl
        have hdn : (absorb F s).done = s.done := rfl
        simp only [advance, hso, hfr, hdr, hdn]
      · have hhn : ¬ (absorb F s).attached h = true := by
          intro hc
          have h1 := dropWhile_not hdr
          rw [h1] at hc; cases hc
        have hnot : h ∉ cs.flatMap Clus.hits ++ s.cur.hits ++ [s.last] ∧ ¬ att0 h = true := by
          rw [hatt] at hhn
          simp only [List.mem_append, List.mem_singleton]
          tauto
        constructor
        · show s.done ++ [(absorb F s).cur] = _
          rw [I.done, List.append_assoc]
        · exact hdone
        · intro x
          show ((absorb F s).attached x = true ∨ x = h) ↔ _
          rw [hatt, hcs]
          simp only [List.mem_append, List.mem_singleton, List.not_mem_nil, false_or]
          tauto
        · rw [hcs]
          show (cs.flatMap Clus.hits ++ s.cur.hits ++ [s.last] ++ [] ++ [h]).Nodup
          rw [List.append_nil, List.nodup_append]
          refine ⟨I.nodup, by simp, ?_⟩
          rintro a ha b hb rfl
          simp at hb; subst hb
          exact hnot.1 ha
        · rw [hcs]
          show ∀ x ∈ cs.flatMap Clus.hits ++ s.cur.hits ++ [s.last] ++ [] ++ [h], _
          rw [List.append_nil]
          intro x hx
          rcases List.mem_append.1 hx with hx | hx
          · exact I.sub x hx
          · simp at hx; subst hx
            refine ⟨?_, fun hc => absurd hc hnot.2⟩
            rw [hp1, ← hdw, hdr]; simp
        · rw [hcs]
          show ∃ pre, hits = pre ++ t ∧ ∀ x ∈ pre, att0 x = true ∨ x ∈ cs.flatMap Clus.hits ++ s.cur.hits ++ [s.last] ++ [] ++ [h]
          refine ⟨pre ++ s.free.takeWhile (fun x => (absorb F s).attached x) ++ [h], ?_, ?_⟩
          · rw [hdr] at hdw; rw [hp1]; rw [List.append_assoc, List.append_assoc]; congr 1; simpa using hdw.symm
          · intro x hx
            rw [List.append_nil]
            rcases List.mem_append.1 hx with hx | hx
            · rcases List.mem_append.1 hx with hx | hx
              · rcases hp2 x hx with h3 | h3
                · exact Or.inl h3
                · exact Or.inr (List.mem_append_left _ h3)
              · have := takeWhile_imp hx
                rw [hatt] at this
                simp only [List.mem_append, List.mem_singleton]
                tauto
            · exact Or.inr (List.mem_append_right _ hx)
        · rw [hcs]
          intro x hx
          exact List.mem_append_left _ (List.mem_append_left _ (I.headIn x hx))
        · intro e he; simp at he
        · intro a ha; simp at ha
        · exact MinGrown.single h
        · intro h; rfl
      · rw [hcs]
        show (cs.flatMap Clus.hits ++ s.cur.hits ++ [s.last] ++ [] ++ [h]).length = _
        simp; omega

theorem loop_inv {F : Finder} {att0 : Nat → Bool} {hits : List Nat} {before : List Clus} (hF : ∀ a ∈ hits, ∀ b, F.Nb a b → b ∈ hits) :
    ∀ (fuel : Nat) (s : PState) (cs : List Clus) (T : List Edge), PInv F att0 hits before s cs T →
      hits.length + 1 ≤ fuel + (cs.flatMap Clus.hits ++ s.cur.hits ++ [s.last]).length →
      ∃ cs', loop F fuel s = some (before ++ cs') ∧ DoneOk F att0 cs' ∧ (cs'.flatMap Clus.hits).Nodup ∧
        ∀ x, x ∈ cs'.flatMap Clus.hits ↔ x ∈ hits ∧ (att0 x = true → hits.head? = some x) := by
  intro fuel
  induction fuel with
  | zero =>
    intro s cs T I hl
    have := (I.nodup.subperm (fun x hx => (I.sub x hx).1)).length_le
    omega
  | succ n ih =>
    intro s cs T I hl
    rcases round_inv hF I with ⟨s', cs', T', h1, h2, h3⟩ | ⟨cs', h1, h2, h3, h4⟩
    · obtain ⟨cs'', h5⟩ := ih s' cs' T' h2 (by omega)
      exact ⟨cs'', by rw [loop, h1]; exact h5⟩
    · exact ⟨cs', by rw [loop, h1], h2, h3, h4⟩

theorem start_inv (F : Finder) (att0 : Nat → Bool) (h : Nat) (t : List Nat) (before : List Clus) :
    PInv F att0 (h :: t) before { attached := fun x => att0 x || x == h, edges := [], done := before, cur := {}, free := t, last := h } [] [] := by
  constructor
  · simp
  · exact ⟨by intro p c q h; simp at h, by intro p c q h; simp at h⟩
  · intro x; simp
  · simp
  · intro x hx; simp at hx; subst hx; simp
  · exact ⟨[h], by simp, by simp⟩
  · intro x hx; simp at hx; subst hx; simp
  · simp
  · simp
  · exact MinGrown.single h
  · intro h; rfl

theorem runPrim_inv {F : Finder} {att0 : Nat → Bool} {hits : List Nat} (before : List Clus) (hF : ∀ a ∈ hits, ∀ b, F.Nb a b → b ∈ hits) :
    ∃ cs, runPrim F att0 hits before = some (before ++ cs) ∧ DoneOk F att0 cs ∧ (cs.flatMap Clus.hits).Nodup ∧
      ∀ x, x ∈ cs.flatMap Clus.hits ↔ x ∈ hits ∧ (att0 x = true → hits.head? = some x) := by
  cases hits with
  | nil => exact ⟨[], by simp [runPrim], ⟨by intro p c q h; simp at h, by intro p c q h; simp at h⟩, by simp, by simp⟩
  | cons h t => exact loop_inv hF _ _ _ _ (start_inv F att0 h t before) (by simp)

end Verif.Mst

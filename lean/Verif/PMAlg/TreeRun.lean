import Verif.PMAlg.TreeRunModel
import Verif.PMAlg.TreeQuery
import Mathlib.Algebra.BigOperators.Group.Finset.Basic
import Mathlib.Data.List.Flatten
/-! # Track trees: the functions that act on every track of a tree -/
namespace Verif.PMAlg.Tree
open Relation

variable {g : Graph} {T : List Nat}

/-! ### The log of a walk -/

/-- for a list of nodes with, for each, the logs of the tracks that leave it -/
def logOf (K : Nat → List Nat) (W : Nat → List Ev) (ns : List Nat) (t : Nat) : List Ev :=
  (ns.flatMap fun v => .node v :: (K v).flatMap W) ++ [.done t]

theorem fold_kids {σ : Type} {step : σ → Ev → σ} {R : σ → Nat → Option σ} (W : Nat → List Ev) (ks : List Nat)
    (h : ∀ u ∈ ks, ∀ st, R st u = some ((W u).foldl step st)) (st : σ) :
    ks.foldlM R st = some ((ks.flatMap W).foldl step st) := by
  induction ks generalizing st with
  | nil => rfl
  | cons a ks ih =>
    rw [List.foldlM_cons, h a (List.mem_cons_self ..)]
    show List.foldlM R _ ks = _
    rw [ih (fun u hu => h u (List.mem_cons_of_mem _ hu)), List.flatMap_cons, List.foldl_append]

theorem fold_nodes {σ : Type} {step : σ → Ev → σ} {R : σ → Nat → Option σ} (K : Nat → List Nat) (W : Nat → List Ev)
    (ns : List Nat) (h : ∀ v ∈ ns, ∀ u ∈ K v, ∀ st, R st u = some ((W u).foldl step st)) (st : σ) :
    ns.foldlM (fun st v => (K v).foldlM R (step st (.node v))) st =
      some ((ns.flatMap fun v => .node v :: (K v).flatMap W).foldl step st) := by
  induction ns generalizing st with
  | nil => rfl
  | cons a ns ih =>
    rw [List.foldlM_cons, fold_kids W (K a) (h a (List.mem_cons_self ..))]
    show List.foldlM _ _ ns = _
    rw [ih (fun v hv => h v (List.mem_cons_of_mem _ hv)), List.flatMap_cons, List.foldl_append, List.foldl_cons]

/-- the nodes of the loop -/
def loopNodes (g : Graph) (t : Nat) (skip : Bool) : List Nat := if skip then (g.nodes t).drop 1 else g.nodes t

theorem Forest.run_succ (hF : Forest g T) {σ : Type} {step : σ → Ev → σ} {t : Nat} (ht : t ∈ T) (skip : Bool) {f : Nat}
    (hf : (g.nodes t).length ≤ f + 1) (W : Nat → List Ev)
    (h : ∀ u ∈ kids g t skip, ∀ st, run g step f st u true = some ((W u).foldl step st)) (st : σ) :
    run g step (f + 1) st t skip =
      some ((logOf (others g t) W (loopNodes g t skip) t).foldl step st) := by
  have hns : ∃ v, startNode g t skip = some (some v) ∧ along g t (f + 1) v = some (loopNodes g t skip) := by
    obtain ⟨v, w, hv, hw, hfr⟩ := hF.front_some ht
    unfold front at hfr
    cases skip with
    | false =>
      refine ⟨v, by simp only [startNode, hfr, Bool.false_eq_true, if_false], ?_⟩
      rw [hF.along_eq ht (g.nodes t).length 0 v (f + 1) (by omega) hf hv]
      rfl
    | true =>
      obtain ⟨s, h1, h2, _⟩ := hF.nextSeg_step ht hv hw
      refine ⟨w, by simp only [startNode, hfr, if_true, h1, h2], ?_⟩
      rw [hF.along_eq ht (g.nodes t).length 1 w (f + 1) (by omega) hf hw]
      rfl
  obtain ⟨v, h1, h2⟩ := hns
  have hk : ∀ v ∈ loopNodes g t skip, ∀ u ∈ others g t v, ∀ st, run g step f st u true = some ((W u).foldl step st) := by
    intro v hv u hu
    apply h
    unfold kids
    rw [List.mem_flatMap]
    refine ⟨v, hv, ?_⟩
    unfold others at hu
    rw [hF.filter_eq] at hu
    exact hu
  unfold run
  rw [h1]
  dsimp only
  rw [h2]
  dsimp only
  rw [fold_nodes (others g t) W _ hk]
  dsimp only
  unfold logOf
  rw [List.foldl_append]
  rfl

/-! ### What the log of a branch contains, and in which order -/

/-- the events that belong to the tracks from `t` downwards: the nodes other than their first ones, and the tracks -/
def Own (g : Graph) (T : List Nat) (t : Nat) : Ev → Prop
  | .node v => ∃ x, Below g T t x ∧ v ∈ (g.nodes x).drop 1
  | .done x => Below g T t x

/-- `a` has to come before `b`: the nodes of a track before its end, and the tracks that start at a node of another
one before the end of that one -/
def Must (g : Graph) (T : List Nat) : Ev → Ev → Prop
  | .node v, .done u => v ∈ g.nodes u
  | .done u, .done x => Child g T x u
  | _, .node _ => False

/-- `a` may come before `b`, and is not `b` -/
def Ok (g : Graph) (T : List Nat) (a b : Ev) : Prop := a ≠ b ∧ ¬ Must g T b a

/-- no track is below both -/
def Apart (g : Graph) (T : List Nat) (u u' : Nat) : Prop := ∀ x, Below g T u x → ¬ Below g T u' x

theorem Forest.tail_track (hF : Forest g T) {x y v : Nat} (hx : x ∈ T) (hy : y ∈ T) (h1 : v ∈ (g.nodes x).drop 1)
    (h2 : v ∈ (g.nodes y).drop 1) : x = y := by
  obtain ⟨s, a, b⟩ := hF.prev_tail hx h1
  obtain ⟨s', a', b'⟩ := hF.prev_tail hy h2
  rw [a] at a'
  cases a'
  exact b.symm.trans b'

theorem Forest.ok_apart (hF : Forest g T) {u u' : Nat} (hu : u ∈ T) (hu' : u' ∈ T) (h : Apart g T u u') {e e' : Ev}
    (he : Own g T u e) (he' : Own g T u' e') : Ok g T e e' := by
  refine ⟨?_, ?_⟩
  · rintro rfl
    cases e with
    | node v =>
      obtain ⟨x, h1, h2⟩ := he
      obtain ⟨x', h1', h2'⟩ := he'
      have := hF.tail_track (Forest.below_T hu h1) (Forest.below_T hu' h1') h2 h2'
      subst this
      exact h x h1 h1'
    | done x => exact h x he he'
  · intro hm
    cases e with
    | node v => cases e' <;> exact hm
    | done y =>
      cases e' with
      | node w =>
        obtain ⟨x', h1', h2'⟩ := he'
        rcases Forest.node_cases (show w ∈ g.nodes y from hm) with hw | hw
        · exact h y he (ReflTransGen.tail h1' ⟨Forest.below_T hu he, w, hw, h2'⟩)
        · have := hF.tail_track (Forest.below_T hu he) (Forest.below_T hu' h1') hw h2'
          subst this
          exact h y he h1'
      | done z => exact h z (ReflTransGen.tail he hm) he'

/-- what is needed of the tracks that leave the nodes of a loop -/
structure Fit (g : Graph) (T : List Nat) (t : Nat) (ns : List Nat) (K : Nat → List Nat) : Prop where
  inT : ∀ v ∈ ns, ∀ u ∈ K v, u ∈ T
  nodes : ns.Nodup
  kids : ∀ v ∈ ns, (K v).Nodup
  starts : ∀ v ∈ ns, ∀ u ∈ K v, front g u = some v
  apart : ∀ v ∈ ns, ∀ u ∈ K v, ∀ v' ∈ ns, ∀ u' ∈ K v', u ≠ u' → Apart g T u u'
  fresh : ∀ v ∈ ns, ∀ u ∈ K v, ∀ x, Below g T u x → ∀ w ∈ ns, w ∉ (g.nodes x).drop 1
  above : ∀ v ∈ ns, ∀ u ∈ K v, ∀ x, Below g T u x → x ≠ t ∧ ¬ Child g T x t
  first : ∀ v ∈ ns, ∀ u ∈ K v, ∀ x, Below g T u x → ∀ w ∈ ns, front g x = some w → x = u

theorem Forest.log_ok (hF : Forest g T) {t : Nat} {ns : List Nat} {K : Nat → List Nat} {W : Nat → List Ev}
    (hfit : Fit g T t ns K) (hW : ∀ v ∈ ns, ∀ u ∈ K v, (W u).Pairwise (Ok g T))
    (hM : ∀ v ∈ ns, ∀ u ∈ K v, ∀ e, e ∈ W u ↔ Own g T u e) :
    (logOf K W ns t).Pairwise (Ok g T) := by
  have nodeEv : ∀ v ∈ ns, ∀ u ∈ K v, ∀ e ∈ W u, Ok g T (.node v) e := by
    intro v hv u hu e he
    have ho := (hM v hv u hu e).1 he
    refine ⟨?_, ?_⟩
    · rintro rfl
      obtain ⟨x, h1, h2⟩ := ho
      exact hfit.fresh v hv u hu x h1 v hv h2
    · cases e <;> exact id
  have nodeEv' : ∀ v ∈ ns, ∀ v' ∈ ns, ∀ u ∈ K v, ∀ e ∈ W u, Ok g T (.node v') e := by
    intro v hv v' hv' u hu e he
    have ho := (hM v hv u hu e).1 he
    refine ⟨?_, ?_⟩
    · rintro rfl
      obtain ⟨x, h1, h2⟩ := ho
      exact hfit.fresh v hv u hu x h1 v' hv' h2
    · cases e <;> exact id
  have evNode : ∀ v ∈ ns, ∀ v' ∈ ns, v ≠ v' → ∀ u ∈ K v, ∀ e ∈ W u, Ok g T e (.node v') := by
    intro v hv v' hv' hne u hu e he
    have ho := (hM v hv u hu e).1 he
    refine ⟨((nodeEv' v hv v' hv' u hu e he).1).symm, ?_⟩
    intro hm
    cases e with
    | node w => exact hm
    | done y =>
      rcases Forest.node_cases (show v' ∈ g.nodes y from hm) with hw | hw
      · have := hfit.first v hv u hu y ho v' hv' hw
        subst this
        rw [hfit.starts v hv y hu] at hw
        exact hne (Option.some.inj hw)
      · exact hfit.fresh v hv u hu y ho v' hv' hw
  have evEv : ∀ v ∈ ns, ∀ v' ∈ ns, ∀ u ∈ K v, ∀ u' ∈ K v', u ≠ u' → ∀ e ∈ W u, ∀ e' ∈ W u', Ok g T e e' :=
    fun v hv v' hv' u hu u' hu' hne e he e' he' =>
      hF.ok_apart (hfit.inT v hv u hu) (hfit.inT v' hv' u' hu') (hfit.apart v hv u hu v' hv' u' hu' hne)
        ((hM v hv u hu e).1 he) ((hM v' hv' u' hu' e').1 he')
  unfold logOf
  rw [List.pairwise_append]
  refine ⟨?_, List.pairwise_singleton _ _, ?_⟩
  · rw [List.pairwise_flatMap]
    refine ⟨?_, ?_⟩
    · intro v hv
      rw [List.pairwise_cons]
      refine ⟨?_, ?_⟩
      · intro e he
        obtain ⟨u, hu, he⟩ := List.mem_flatMap.1 he
        exact nodeEv v hv u hu e he
      · rw [List.pairwise_flatMap]
        refine ⟨fun u hu => hW v hv u hu, ?_⟩
        refine (List.Pairwise.and_mem.1 (hfit.kids v hv)).imp ?_
        rintro u u' ⟨hu, hu', hne⟩ e he e' he'
        exact evEv v hv v hv u hu u' hu' hne e he e' he'
    · refine (List.Pairwise.and_mem.1 hfit.nodes).imp ?_
      rintro v v' ⟨hv, hv', hne⟩ e he e' he'
      have kne : ∀ u ∈ K v, ∀ u' ∈ K v', u ≠ u' := by
        rintro u hu u' hu' rfl
        have h1 := hfit.starts v hv u hu
        rw [hfit.starts v' hv' u hu'] at h1
        exact hne (Option.some.inj h1).symm
      rcases List.mem_cons.1 he with rfl | he
      · rcases List.mem_cons.1 he' with rfl | he'
        · exact ⟨fun h => hne (Ev.node.inj h), id⟩
        · obtain ⟨u', hu', he'⟩ := List.mem_flatMap.1 he'
          exact nodeEv' v' hv' v hv u' hu' e' he'
      · obtain ⟨u, hu, he⟩ := List.mem_flatMap.1 he
        rcases List.mem_cons.1 he' with rfl | he'
        · exact evNode v hv v' hv' hne u hu e he
        · obtain ⟨u', hu', he'⟩ := List.mem_flatMap.1 he'
          exact evEv v hv v' hv' u hu u' hu' (kne u hu u' hu') e he e' he'
  · intro e he b hb
    rw [List.mem_singleton] at hb
    subst hb
    obtain ⟨v, hv, he⟩ := List.mem_flatMap.1 he
    rcases List.mem_cons.1 he with rfl | he
    · exact ⟨by simp, id⟩
    · obtain ⟨u, hu, he⟩ := List.mem_flatMap.1 he
      have ho := (hM v hv u hu e).1 he
      cases e with
      | node w => exact ⟨by simp, id⟩
      | done y =>
        have := hfit.above v hv u hu y ho
        exact ⟨fun h => this.1 (Ev.done.inj h), this.2⟩

theorem mem_logOf {K : Nat → List Nat} {W : Nat → List Ev} {ns : List Nat} {t : Nat} {e : Ev} :
    e ∈ logOf K W ns t ↔ (∃ v ∈ ns, e = .node v) ∨ (∃ v ∈ ns, ∃ u ∈ K v, e ∈ W u) ∨ e = .done t := by
  unfold logOf
  simp only [List.mem_append, List.mem_flatMap, List.mem_cons, List.mem_singleton, List.not_mem_nil, or_false]
  constructor
  · rintro (⟨v, hv, rfl | ⟨u, hu, he⟩⟩ | rfl)
    · exact Or.inl ⟨v, hv, rfl⟩
    · exact Or.inr (Or.inl ⟨v, hv, u, hu, he⟩)
    · exact Or.inr (Or.inr rfl)
  · rintro (⟨v, hv, rfl⟩ | ⟨v, hv, u, hu, he⟩ | rfl)
    · exact Or.inl ⟨v, hv, Or.inl rfl⟩
    · exact Or.inl ⟨v, hv, Or.inr ⟨u, hu, he⟩⟩
    · exact Or.inr rfl

/-! ### Branches and roots -/

theorem Forest.others_cases (hF : Forest g T) {t v u : Nat} (hu : u ∈ others g t v) :
    u ∈ T ∧ u ≠ t ∧ (front g u = some v ∨ v ∈ (g.nodes u).drop 1) := by
  unfold others at hu
  rw [hF.filter_eq] at hu
  simp only [List.mem_map, List.mem_filter, ne_eq, decide_eq_true_eq] at hu
  obtain ⟨s, ⟨hs, hne⟩, rfl⟩ := hu
  exact ⟨(hF.seg v s hs).1, hne, hF.seg_front hs⟩

theorem Forest.others_nodup (hF : Forest g T) (t v : Nat) : (others g t v).Nodup := by
  unfold others
  rw [hF.filter_eq]
  exact hF.map_trk_nodup v t

theorem Forest.others_tail (hF : Forest g T) {t v u : Nat} (ht : t ∈ T) (hv : v ∈ (g.nodes t).drop 1)
    (hu : u ∈ others g t v) : front g u = some v ∧ Child g T t u := by
  obtain ⟨huT, hne, h | h⟩ := hF.others_cases hu
  · exact ⟨h, huT, v, h, hv⟩
  · exact absurd (hF.tail_track huT ht h hv) hne

theorem Forest.child_others (hF : Forest g T) {t u : Nat} (h : Child g T t u) :
    ∃ v ∈ (g.nodes t).drop 1, u ∈ others g t v := by
  obtain ⟨huT, v, h1, h2⟩ := id h
  refine ⟨v, h2, ?_⟩
  obtain ⟨s, hs, hst⟩ := hF.front_seg huT h1
  unfold others
  rw [hF.filter_eq]
  simp only [List.mem_map, List.mem_filter, ne_eq, decide_eq_true_eq]
  exact ⟨s, ⟨hs, by rw [hst]; exact hF.child_ne h⟩, hst⟩

theorem Forest.child_apart (hF : Forest g T) {t u u' : Nat} (ht : t ∈ T) (hu : Child g T t u) (hu' : Child g T t u')
    (hne : u ≠ u') : Apart g T u u' := by
  intro x h1 h2
  have aux : ∀ u w, Child g T t u → Child g T t w → Below g T u w → u = w := by
    intro u w hu hw hb
    rcases ReflTransGen.cases_tail hb with rfl | ⟨y, h1, h2⟩
    · rfl
    · have := hF.parent_unique (Forest.below_T hu.1 h1) ht h2 hw
      subst this
      exact absurd h1 (hF.not_below_up ht hu)
  rcases hF.in_line hu.1 hu'.1 h1 h2 with h | h
  · exact hne (aux u u' hu hu' h)
  · exact hne (aux u' u hu' hu h).symm

theorem Forest.child_first (hF : Forest g T) {t u x w : Nat} (ht : t ∈ T) (hu : Child g T t u) (hb : Below g T u x)
    (hw : w ∈ (g.nodes t).drop 1) (hx : front g x = some w) : x = u := by
  have hxT := Forest.below_T hu.1 hb
  rcases ReflTransGen.cases_tail hb with rfl | ⟨y, h1, h2⟩
  · rfl
  · have := hF.parent_unique (Forest.below_T hu.1 h1) ht h2 ⟨hxT, w, hx, hw⟩
    subst this
    exact absurd h1 (hF.not_below_up ht hu)

theorem Forest.fit_branch (hF : Forest g T) {t : Nat} (ht : t ∈ T) :
    Fit g T t ((g.nodes t).drop 1) (others g t) where
  inT := fun _ _ _ hu => (hF.others_cases hu).1
  nodes := (hF.nodes_nodup ht).sublist (List.drop_sublist _ _)
  kids := fun v _ => hF.others_nodup t v
  starts := fun _ hv _ hu => (hF.others_tail ht hv hu).1
  apart := fun _ hv _ hu _ hv' _ hu' hne => hF.child_apart ht (hF.others_tail ht hv hu).2 (hF.others_tail ht hv' hu').2 hne
  fresh := by
    intro v hv u hu x hb w hw hwx
    have hc := (hF.others_tail ht hv hu).2
    have := hF.tail_track (Forest.below_T hc.1 hb) ht hwx hw
    subst this
    exact hF.not_below_up ht hc hb
  above := by
    intro v hv u hu x hb
    have hc := (hF.others_tail ht hv hu).2
    refine ⟨?_, fun h => hF.not_below_up ht hc (ReflTransGen.tail hb h)⟩
    rintro rfl
    exact hF.not_below_up ht hc hb
  first := fun _ hv _ hu _ hb _ hw hx => hF.child_first ht (hF.others_tail ht hv hu).2 hb hw hx

/-- the recursion into a branch: a log of its own events, each once and in a right order -/
theorem Forest.run_branch (hF : Forest g T) : ∀ t ∈ T, ∃ (N : Nat) (L : List Ev), (∀ (σ : Type) (step : σ → Ev → σ) (f : Nat), N ≤ f →
    ∀ st, run g step f st t true = some (L.foldl step st)) ∧ L.Pairwise (Ok g T) ∧ ∀ e, e ∈ L ↔ Own g T t e := by
  refine hF.downward ?_
  intro t ht ih
  choose! N W hW hP hM using ih
  obtain ⟨M, hB⟩ := bound (Q := fun u f => ∀ (σ : Type) (step : σ → Ev → σ) (st : σ),
      run g step f st u true = some ((W u).foldl step st)) (kids g t true)
    (fun u hu => ⟨N u, fun f hf σ step st => hW u ((hF.mem_kids_true ht u).1 hu) σ step f hf st⟩)
  refine ⟨max (M + 1) (g.nodes t).length, logOf (others g t) W ((g.nodes t).drop 1) t, ?_, ?_, ?_⟩
  · intro σ step f hf st
    obtain ⟨f, rfl⟩ : ∃ f', f = f' + 1 := ⟨f - 1, by omega⟩
    exact hF.run_succ ht true (by omega) W (fun u hu st => hB u hu f (by omega) σ step st) st
  · exact hF.log_ok (hF.fit_branch ht) (fun v hv u hu => hP u (hF.others_tail ht hv hu).2)
      (fun v hv u hu => hM u (hF.others_tail ht hv hu).2)
  · intro e
    rw [mem_logOf]
    constructor
    · rintro (⟨v, hv, rfl⟩ | ⟨v, hv, u, hu, he⟩ | rfl)
      · exact ⟨t, ReflTransGen.refl, hv⟩
      · have hc := (hF.others_tail ht hv hu).2
        rw [hM u hc] at he
        cases e with
        | node w =>
          obtain ⟨x, h1, h2⟩ := he
          exact ⟨x, ReflTransGen.head hc h1, h2⟩
        | done x => exact ReflTransGen.head hc he
      · exact ReflTransGen.refl
    · intro he
      cases e with
      | node w =>
        obtain ⟨x, h1, h2⟩ := he
        rcases below_head.1 h1 with rfl | ⟨u, hc, hb⟩
        · exact Or.inl ⟨w, h2, rfl⟩
        · obtain ⟨v, hv, hu⟩ := hF.child_others hc
          exact Or.inr (Or.inl ⟨v, hv, u, hu, (hM u hc _).2 ⟨x, hb, h2⟩⟩)
      | done x =>
        rcases below_head.1 he with rfl | ⟨u, hc, hb⟩
        · exact Or.inr (Or.inr rfl)
        · obtain ⟨v, hv, hu⟩ := hF.child_others hc
          exact Or.inr (Or.inl ⟨v, hv, u, hu, (hM u hc _).2 hb⟩)

/-- a track that leaves a node of a root: it starts at the same node, or it is a branch -/
theorem Forest.others_root (hF : Forest g T) {t v0 v u : Nat} (ht : t ∈ T) (h0 : front g t = some v0)
    (hp : g.prev v0 = none) (hv : v ∈ g.nodes t) (hu : u ∈ others g t v) :
    front g u = some v ∧ u ∈ T ∧ ((v = v0 ∧ IsRoot g T u ∧ u ≠ t) ∨ (v ∈ (g.nodes t).drop 1 ∧ Child g T t u)) := by
  rcases Forest.node_cases hv with h | h
  · rw [h0] at h
    cases h
    obtain ⟨huT, hne, hf | hd⟩ := hF.others_cases hu
    · exact ⟨hf, huT, Or.inl ⟨rfl, ⟨huT, _, hf, hp⟩, hne⟩⟩
    · obtain ⟨s, hs, _⟩ := hF.prev_tail huT hd
      rw [hp] at hs
      cases hs
  · obtain ⟨h1, h2⟩ := hF.others_tail ht h hu
    exact ⟨h1, h2.1, Or.inr ⟨h, h2⟩⟩

theorem Forest.fit_root (hF : Forest g T) {t v0 : Nat} (ht : t ∈ T) (h0 : front g t = some v0) (hp : g.prev v0 = none) :
    Fit g T t (g.nodes t) (others g t) := by
  have hr : IsRoot g T t := ⟨ht, v0, h0, hp⟩
  have nb : ∀ v ∈ g.nodes t, ∀ u ∈ others g t v, ¬ Below g T u t := by
    intro v hv u hu hb
    obtain ⟨_, huT, ⟨_, hru, hne⟩ | ⟨_, hc⟩⟩ := hF.others_root ht h0 hp hv hu
    · exact hne (hF.below_root huT hr hb)
    · exact hF.not_below_up ht hc hb
  have v0d : ∀ x ∈ T, v0 ∉ (g.nodes x).drop 1 := by
    intro x hx hd
    obtain ⟨s, hs, _⟩ := hF.prev_tail hx hd
    rw [hp] at hs
    cases hs
  constructor
  · exact fun _ hv _ hu => (hF.others_root ht h0 hp hv hu).2.1
  · exact hF.nodes_nodup ht
  · exact fun v _ => hF.others_nodup t v
  · exact fun _ hv _ hu => (hF.others_root ht h0 hp hv hu).1
  · intro v hv u hu v' hv' u' hu' hne
    obtain ⟨_, huT, h⟩ := hF.others_root ht h0 hp hv hu
    obtain ⟨_, huT', h'⟩ := hF.others_root ht h0 hp hv' hu'
    intro x hb hb'
    rcases h with ⟨_, hru, hne1⟩ | ⟨_, hc⟩ <;> rcases h' with ⟨_, hru', hne2⟩ | ⟨_, hc'⟩
    · exact hne (hF.root_unique hru hru' hb hb')
    · exact hne1 (hF.root_unique hru hr hb (ReflTransGen.head hc' hb'))
    · exact hne2 (hF.root_unique hru' hr hb' (ReflTransGen.head hc hb))
    · exact hF.child_apart ht hc hc' hne x hb hb'
  · intro v hv u hu x hb w hw hwx
    obtain ⟨_, huT, _⟩ := hF.others_root ht h0 hp hv hu
    rcases Forest.node_cases hw with h | h
    · rw [h0] at h
      cases h
      exact v0d x (Forest.below_T huT hb) hwx
    · have := hF.tail_track (Forest.below_T huT hb) ht hwx h
      subst this
      exact nb v hv u hu hb
  · intro v hv u hu x hb
    obtain ⟨_, huT, _⟩ := hF.others_root ht h0 hp hv hu
    refine ⟨?_, hF.root_no_parent (Forest.below_T huT hb) hr⟩
    rintro rfl
    exact nb v hv u hu hb
  · intro v hv u hu x hb w hw hx
    obtain ⟨_, huT, h⟩ := hF.others_root ht h0 hp hv hu
    have hxT := Forest.below_T huT hb
    rcases Forest.node_cases hw with h1 | h1
    · rw [h0] at h1
      cases h1
      exact (hF.below_root huT ⟨hxT, _, hx, hp⟩ hb).symm
    · rcases h with ⟨_, hru, hne⟩ | ⟨_, hc⟩
      · exact absurd (hF.root_unique hru hr hb (ReflTransGen.single ⟨hxT, w, hx, h1⟩)) hne
      · exact hF.child_first ht hc hb h1 hx

theorem Forest.root_others (hF : Forest g T) {t u : Nat} (hu : u ∈ kids g t false) : ∃ v ∈ g.nodes t, u ∈ others g t v := by
  unfold kids at hu
  rw [List.mem_flatMap] at hu
  obtain ⟨v, hv, hu⟩ := hu
  refine ⟨v, hv, ?_⟩
  unfold others
  rw [hF.filter_eq]
  exact hu

theorem Forest.others_kids (hF : Forest g T) {t v u : Nat} (hv : v ∈ g.nodes t) (hu : u ∈ others g t v) :
    u ∈ kids g t false := by
  unfold kids
  rw [List.mem_flatMap]
  refine ⟨v, hv, ?_⟩
  unfold others at hu
  rw [hF.filter_eq] at hu
  exact hu

/-- from a track at the root of its tree: the log has every node and every track of the tree once, the nodes of a track
before its end, and the branches of a track before its end -/
theorem Forest.run_root (hF : Forest g T) {t v0 : Nat} (ht : t ∈ T) (h0 : front g t = some v0) (hp : g.prev v0 = none) :
    ∃ (N : Nat) (L : List Ev), (∀ (σ : Type) (step : σ → Ev → σ) (f : Nat), N ≤ f → ∀ st, run g step f st t false = some (L.foldl step st)) ∧
      L.Pairwise (Ok g T) ∧ (∀ x, .done x ∈ L ↔ x ∈ T ∧ Conn g T t x) ∧
      ∀ v, .node v ∈ L ↔ ∃ x ∈ T, Conn g T t x ∧ v ∈ g.nodes x := by
  have hr : IsRoot g T t := ⟨ht, v0, h0, hp⟩
  have hbr := hF.run_branch
  choose! N W hW hP hM using hbr
  obtain ⟨M, hB⟩ := bound (Q := fun u f => ∀ (σ : Type) (step : σ → Ev → σ) (st : σ),
      run g step f st u true = some ((W u).foldl step st)) (kids g t false)
    (fun u hu => ⟨N u, fun f hf σ step st => hW u (hF.kids_T hu) σ step f hf st⟩)
  have hmem : ∀ e, e ∈ logOf (others g t) W (g.nodes t) t ↔
      (∃ v ∈ g.nodes t, e = .node v) ∨ (∃ u ∈ kids g t false, Own g T u e) ∨ e = .done t := by
    intro e
    rw [mem_logOf]
    constructor
    · rintro (h | ⟨v, hv, u, hu, he⟩ | h)
      · exact Or.inl h
      · exact Or.inr (Or.inl ⟨u, hF.others_kids hv hu, (hM u (hF.others_cases hu).1 e).1 he⟩)
      · exact Or.inr (Or.inr h)
    · rintro (h | ⟨u, hu, he⟩ | h)
      · exact Or.inl h
      · obtain ⟨v, hv, hu'⟩ := hF.root_others hu
        exact Or.inr (Or.inl ⟨v, hv, u, hu', (hM u (hF.kids_T hu) e).2 he⟩)
      · exact Or.inr (Or.inr h)
  have hdone : ∀ x, .done x ∈ logOf (others g t) W (g.nodes t) t ↔ x ∈ T ∧ Conn g T t x := by
    intro x
    rw [hmem, ← hF.tree_of_root ht h0 hp]
    constructor
    · rintro (⟨v, _, h⟩ | h | h)
      · cases h
      · exact Or.inr h
      · exact Or.inl (Ev.done.inj h)
    · rintro (rfl | h)
      · exact Or.inr (Or.inr rfl)
      · exact Or.inr (Or.inl h)
  refine ⟨max (M + 1) (g.nodes t).length, logOf (others g t) W (g.nodes t) t, ?_, ?_, hdone, ?_⟩
  · intro σ step f hf st
    obtain ⟨f, rfl⟩ : ∃ f', f = f' + 1 := ⟨f - 1, by omega⟩
    exact hF.run_succ ht false (by omega) W (fun u hu st => hB u hu f (by omega) σ step st) st
  · exact hF.log_ok (hF.fit_root ht h0 hp) (fun v hv u hu => hP u (hF.others_cases hu).1)
      (fun v hv u hu => hM u (hF.others_cases hu).1)
  · intro v
    rw [hmem]
    constructor
    · rintro (⟨w, hw, h⟩ | ⟨u, hu, x, hb, hx⟩ | h)
      · cases h
        exact ⟨t, ht, EqvGen.refl _, hw⟩
      · obtain ⟨h1, h2⟩ := (hF.tree_of_root ht h0 hp).1 (Or.inr ⟨u, hu, hb⟩)
        exact ⟨x, h1, h2, List.mem_of_mem_drop hx⟩
      · cases h
    · rintro ⟨x, hx, hc, hv⟩
      rcases (hF.tree_of_root ht h0 hp).2 ⟨hx, hc⟩ with rfl | ⟨u, hu, hb⟩
      · exact Or.inl ⟨v, hv, rfl⟩
      · rcases Forest.node_cases hv with hf | hd
        · -- the first node of x
          rcases ReflTransGen.cases_tail hb with rfl | ⟨y, h1, h2⟩
          · obtain ⟨w, hw, hu'⟩ := hF.root_others hu
            have := (hF.others_root ht h0 hp hw hu').1
            rw [hf] at this
            cases this
            exact Or.inl ⟨_, hw, rfl⟩
          · obtain ⟨_, w, h3, h4⟩ := h2
            rw [hf] at h3
            cases h3
            exact Or.inr (Or.inl ⟨u, hu, y, h1, h4⟩)
        · exact Or.inr (Or.inl ⟨u, hu, x, hb, hd⟩)

end Verif.PMAlg.Tree

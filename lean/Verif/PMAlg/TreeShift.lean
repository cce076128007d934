import Verif.PMAlg.TreeRun
import Mathlib.Tactic.Linarith
import Mathlib.Tactic.Ring
import Mathlib.Tactic.FieldSimp
/-! # Track trees: drift shift, objective function, projections (C211 - C214) -/
namespace Verif.PMAlg.Tree
open Relation

variable {g : Graph} {T : List Nat}

/-- the track belongs to the tree of `t` -/
def InTree (g : Graph) (T : List Nat) (t u : Nat) : Prop := u ∈ T ∧ Conn g T t u

/-- the node belongs to a track of the tree of `t` -/
def NodeInTree (g : Graph) (T : List Nat) (t v : Nat) : Prop := ∃ u, InTree g T t u ∧ v ∈ g.nodes u

/-! ### The drift shift -/

theorem fold_x (coef tick : ℚ) (pos : Nat → Bool) (dx : ℚ) (L : List Ev) (hL : L.Nodup) (v : Nat) : ∀ s : Sh,
    (.node v ∈ L → (L.foldl (shStep g coef tick pos dx) s).x v = s.x v + dx ∧
      (L.foldl (shStep g coef tick pos dx) s).off v = s.off v + dx) ∧
    (.node v ∉ L → (L.foldl (shStep g coef tick pos dx) s).x v = s.x v ∧
      (L.foldl (shStep g coef tick pos dx) s).off v = s.off v) := by
  induction L with
  | nil => intro s; exact ⟨fun h => (by cases h), fun _ => ⟨rfl, rfl⟩⟩
  | cons e L ih =>
    intro s
    rw [List.nodup_cons] at hL
    have ih := ih hL.2 (shStep g coef tick pos dx s e)
    rw [List.foldl_cons]
    cases e with
    | done u =>
      refine ⟨fun h => ?_, fun h => ?_⟩
      · have hm : Ev.node v ∈ L := by simpa using h
        exact ih.1 hm
      · have hm : Ev.node v ∉ L := by simpa using h
        exact ih.2 hm
    | node w =>
      by_cases hw : v = w
      · subst hw
        have hm := ih.2 hL.1
        have e1 : (shStep g coef tick pos dx s (.node v)).x v = s.x v + dx := by simp [shStep]
        have e2 : (shStep g coef tick pos dx s (.node v)).off v = s.off v + dx := by simp [shStep]
        rw [e1, e2] at hm
        exact ⟨fun _ => hm, fun h => absurd (List.mem_cons_self ..) h⟩
      · have e1 : (shStep g coef tick pos dx s (.node w)).x v = s.x v := by simp [shStep, hw]
        have e2 : (shStep g coef tick pos dx s (.node w)).off v = s.off v := by simp [shStep, hw]
        rw [e1, e2] at ih
        refine ⟨fun h => ih.1 ?_, fun h => ih.2 ?_⟩
        · rcases List.mem_cons.1 h with h | h
          · exact absurd (Ev.node.inj h) hw
          · exact h
        · exact fun hc => h (List.mem_cons_of_mem _ hc)

theorem fold_hit (coef tick : ℚ) (pos : Nat → Bool) (dx : ℚ) (L : List Ev) (hL : L.Nodup) (u : Nat) : ∀ s : Sh,
    (.done u ∈ L → (L.foldl (shStep g coef tick pos dx) s).hit u = s.hit u + dx) ∧
    (.done u ∉ L → (L.foldl (shStep g coef tick pos dx) s).hit u = s.hit u ∧
      (L.foldl (shStep g coef tick pos dx) s).t0 u = s.t0 u) := by
  induction L with
  | nil => intro s; exact ⟨fun h => (by cases h), fun _ => ⟨rfl, rfl⟩⟩
  | cons e L ih =>
    intro s
    rw [List.nodup_cons] at hL
    have ih := ih hL.2 (shStep g coef tick pos dx s e)
    rw [List.foldl_cons]
    cases e with
    | node w =>
      refine ⟨fun h => ?_, fun h => ?_⟩
      · have hm : Ev.done u ∈ L := by simpa using h
        exact ih.1 hm
      · have hm : Ev.done u ∉ L := by simpa using h
        exact ih.2 hm
    | done w =>
      by_cases hw : u = w
      · subst hw
        have hm := (ih.2 hL.1).1
        have e1 : (shStep g coef tick pos dx s (.done u)).hit u = s.hit u + dx := by simp [shStep]
        rw [e1] at hm
        exact ⟨fun _ => hm, fun h => absurd (List.mem_cons_self ..) h⟩
      · have e1 : (shStep g coef tick pos dx s (.done w)).hit u = s.hit u := by simp [shStep, hw]
        have e2 : (shStep g coef tick pos dx s (.done w)).t0 u = s.t0 u := by
          cases hh : (g.nodes w).head? <;> simp only [shStep, hh]
          rw [Function.update_of_ne hw]
        rw [e1, e2] at ih
        refine ⟨fun h => ih.1 ?_, fun h => ih.2 ?_⟩
        · rcases List.mem_cons.1 h with h | h
          · exact absurd (Ev.done.inj h) hw
          · exact h
        · exact fun hc => h (List.mem_cons_of_mem _ hc)

theorem Ok.nodup {L : List Ev} (h : L.Pairwise (Ok g T)) : L.Nodup := h.imp fun h => h.1

theorem fold_t0 (coef tick : ℚ) (pos : Nat → Bool) (dx : ℚ) (L : List Ev) (hL : L.Pairwise (Ok g T)) {u v : Nat}
    (hv : front g u = some v) : ∀ s : Sh, .done u ∈ L → ∃ o : ℚ,
      (L.foldl (shStep g coef tick pos dx) s).t0 u = some (t0FromDx coef tick (pos v) o) ∧
      (.node v ∈ L → o = s.off v + dx) ∧ (.node v ∉ L → o = s.off v) := by
  induction L with
  | nil => intro s h; cases h
  | cons e L ih =>
    intro s h
    rw [List.pairwise_cons] at hL
    rw [List.foldl_cons]
    by_cases he : e = .done u
    · subst he
      have hnd : Ev.done u ∉ L := fun hc => (hL.1 _ hc).1 rfl
      have hnn : Ev.node v ∉ L := fun hc => (hL.1 _ hc).2 (front_mem hv)
      refine ⟨s.off v, ?_, ?_, fun _ => rfl⟩
      · rw [((fold_hit coef tick pos dx L (Ok.nodup hL.2) u _).2 hnd).2]
        unfold front at hv
        simp [shStep, hv]
      · intro hc
        rcases List.mem_cons.1 hc with hc | hc
        · cases hc
        · exact absurd hc hnn
    · have hd : Ev.done u ∈ L := by
        rcases List.mem_cons.1 h with h | h
        · exact absurd h.symm he
        · exact h
      obtain ⟨o, h1, h2, h3⟩ := ih hL.2 (shStep g coef tick pos dx s e) hd
      refine ⟨o, h1, ?_, ?_⟩
      · intro hc
        cases e with
        | done w => exact h2 (by simpa using hc)
        | node w =>
          by_cases hw : v = w
          · subst hw
            have hn : Ev.node v ∉ L := fun hc => (hL.1 _ hc).1 rfl
            rw [h3 hn]
            simp [shStep]
          · have hm : Ev.node v ∈ L := by
              rcases List.mem_cons.1 hc with hc | hc
              · exact absurd (Ev.node.inj hc) hw
              · exact hc
            rw [h2 hm]
            simp [shStep, hw]
      · intro hc
        have hn : Ev.node v ∉ L := fun h => hc (List.mem_cons_of_mem _ h)
        rw [h3 hn]
        cases e with
        | done w => rfl
        | node w =>
          have hw : v ≠ w := by
            rintro rfl
            exact hc (List.mem_cons_self ..)
          simp [shStep, hw]

/-- **C214** (T0 of a shift). The time is proportional to the shift; its sign is the one of the shift if the drift is
towards positive X, and the opposite one otherwise. -/
theorem C214_t0_linear (coef tick : ℚ) (pos : Bool) (dx : ℚ) :
    t0FromDx coef tick pos dx = (if pos then dx else -dx) * (tick / |coef|) := by
  unfold t0FromDx
  dsimp only
  rw [abs_div]
  by_cases h : dx > 0
  · rw [abs_of_pos h]
    cases pos <;> simp [h] <;> ring
  · rw [abs_of_nonpos (not_lt.1 h)]
    cases pos <;> simp [h] <;> ring

example : t0FromDx (-2) (1 / 2) false 6 = -(3 / 2) := by decide +kernel

/-- **C211** (drift shift). Applied to a track at the root of its tree, the function ends, and moves every node of every
track of the tree once, as also the hits of each of its tracks; nothing else moves. Each track of the tree gets the T0 of
the total shift of its first node, no other track changes its T0. -/
theorem C211_shift (hF : Forest g T) {t v0 : Nat} (ht : t ∈ T) (h0 : front g t = some v0) (hp : g.prev v0 = none)
    (coef tick : ℚ) (pos : Nat → Bool) (dx : ℚ) :
    ∃ N, ∀ f, N ≤ f → ∀ s, ∃ s', shift g coef tick pos dx f s t = some s' ∧
      (∀ v, NodeInTree g T t v → s'.x v = s.x v + dx ∧ s'.off v = s.off v + dx) ∧
      (∀ v, ¬ NodeInTree g T t v → s'.x v = s.x v ∧ s'.off v = s.off v) ∧
      (∀ u v, InTree g T t u → front g u = some v → s'.hit u = s.hit u + dx ∧
        s'.t0 u = some ((if pos v then s.off v + dx else -(s.off v + dx)) * (tick / |coef|))) ∧
      (∀ u, ¬ InTree g T t u → s'.hit u = s.hit u ∧ s'.t0 u = s.t0 u) := by
  obtain ⟨N, L, hrun, hok, hdone, hnode⟩ := hF.run_root ht h0 hp
  have hnode' : ∀ v, NodeInTree g T t v ↔ .node v ∈ L := by
    intro v
    rw [hnode]
    constructor
    · rintro ⟨u, ⟨h1, h2⟩, h3⟩; exact ⟨u, h1, h2, h3⟩
    · rintro ⟨u, h1, h2, h3⟩; exact ⟨u, ⟨h1, h2⟩, h3⟩
  have hnd := Ok.nodup hok
  refine ⟨N, fun f hf s => ⟨L.foldl (shStep g coef tick pos dx) s, hrun _ _ f hf s, ?_, ?_, ?_, ?_⟩⟩
  · intro v hv
    exact (fold_x coef tick pos dx L hnd v s).1 ((hnode' v).1 hv)
  · intro v hv
    exact (fold_x coef tick pos dx L hnd v s).2 (fun h => hv ((hnode' v).2 h))
  · intro u v hu hv
    have hd := (hdone u).2 hu
    refine ⟨(fold_hit coef tick pos dx L hnd u s).1 hd, ?_⟩
    obtain ⟨o, h1, h2, _⟩ := fold_t0 coef tick pos dx L hok hv s hd
    rw [h1, h2 ((hnode' v).1 ⟨u, hu, front_mem hv⟩), C214_t0_linear]
  · intro u hu
    exact (fold_hit coef tick pos dx L hnd u s).2 (fun h => hu ((hdone u).1 h))

/-- **C214** (repeated shifts). Two shifts of a tree have the same result as one shift by the sum, and the T0 is the one of
the sum. -/
theorem C214_shifts_add (hF : Forest g T) {t v0 : Nat} (ht : t ∈ T) (h0 : front g t = some v0) (hp : g.prev v0 = none)
    (coef tick : ℚ) (pos : Nat → Bool) (dx dy : ℚ) :
    ∃ N, ∀ f, N ≤ f → ∀ s, (shift g coef tick pos dx f s t).bind (fun s' => shift g coef tick pos dy f s' t) =
      shift g coef tick pos (dx + dy) f s t := by
  obtain ⟨N1, h1⟩ := C211_shift hF ht h0 hp coef tick pos dx
  obtain ⟨N2, h2⟩ := C211_shift hF ht h0 hp coef tick pos dy
  obtain ⟨N3, h3⟩ := C211_shift hF ht h0 hp coef tick pos (dx + dy)
  refine ⟨max N1 (max N2 N3), fun f hf s => ?_⟩
  obtain ⟨a, ha, a1, a2, a3, a4⟩ := h1 f (by omega) s
  obtain ⟨b, hb, b1, b2, b3, b4⟩ := h2 f (by omega) a
  obtain ⟨c, hc, c1, c2, c3, c4⟩ := h3 f (by omega) s
  rw [ha, hc]
  show shift g coef tick pos dy f a t = some c
  rw [hb]
  congr 1
  have fr : ∀ u, InTree g T t u → ∃ v, front g u = some v := fun u hu => by
    obtain ⟨v, w, _, _, h⟩ := hF.front_some hu.1
    exact ⟨v, h⟩
  have hx : b.x = c.x := by
    funext v
    by_cases hv : NodeInTree g T t v
    · rw [(b1 v hv).1, (a1 v hv).1, (c1 v hv).1]; ring
    · rw [(b2 v hv).1, (a2 v hv).1, (c2 v hv).1]
  have ho : b.off = c.off := by
    funext v
    by_cases hv : NodeInTree g T t v
    · rw [(b1 v hv).2, (a1 v hv).2, (c1 v hv).2]; ring
    · rw [(b2 v hv).2, (a2 v hv).2, (c2 v hv).2]
  have hh : b.hit = c.hit := by
    funext u
    by_cases hu : InTree g T t u
    · obtain ⟨v, hv⟩ := fr u hu
      rw [(b3 u v hu hv).1, (a3 u v hu hv).1, (c3 u v hu hv).1]; ring
    · rw [(b4 u hu).1, (a4 u hu).1, (c4 u hu).1]
  have h0 : b.t0 = c.t0 := by
    funext u
    by_cases hu : InTree g T t u
    · obtain ⟨v, hv⟩ := fr u hu
      rw [(b3 u v hu hv).2, (c3 u v hu hv).2, (a1 v ⟨u, hu, front_mem hv⟩).2]
      simp only [Option.some.injEq]
      split <;> ring
    · rw [(b4 u hu).2, (a4 u hu).2, (c4 u hu).2]
  cases b; cases c
  simp only at hx ho hh h0
  subst hx ho hh h0
  rfl

/-- a branch that is a single node would be moved twice: with `skipFirst` and no segment the first node stays the
first of the loop (PmaTrack3D.cxx:2291-2293) -/
def oneNode : Graph :=
  { nodes := fun t => if t = 0 then [0, 1] else if t = 1 then [1] else []
    next := fun v => if v = 0 then [0] else []
    prev := fun v => if v = 1 then some 0 else none
    trk := fun _ => 0
    snext := fun _ => some 1 }

/-- **C211** (beside the claim). The condition of two nodes per track is needed: the walk into a branch with one node
visits that node. -/
theorem C211_one_node_branch :
    run oneNode (fun (l : List Nat) e => match e with | .node v => l ++ [v] | .done _ => l) 5 [] 1 true = some [1] := by
  decide

/-! ### Sums, conjunctions and calls over a tree -/

theorem fold_obj (obj : Nat → ℚ) (L : List Ev) (x : ℚ) :
    L.foldl (objStep obj) x = x + ((L.filterMap fun e => match e with | .done t => some t | .node _ => none).map obj).sum := by
  induction L generalizing x with
  | nil => simp
  | cons e L ih =>
    rw [List.foldl_cons, ih]
    cases e with
    | node v => simp [objStep]
    | done t => simp [objStep]; ring

/-- the tracks of a log in the order in which they end -/
def ends (L : List Ev) : List Nat := L.filterMap fun e => match e with | .done t => some t | .node _ => none

theorem mem_ends {L : List Ev} {u : Nat} : u ∈ ends L ↔ .done u ∈ L := by
  unfold ends
  rw [List.mem_filterMap]
  constructor
  · rintro ⟨e, he, h⟩
    cases e with
    | node v => cases h
    | done t => cases h; exact he
  · intro h
    exact ⟨_, h, rfl⟩

theorem ends_pairwise {L : List Ev} (h : L.Pairwise (Ok g T)) : (ends L).Pairwise fun a b => a ≠ b ∧ ¬ Child g T a b := by
  unfold ends
  rw [List.pairwise_filterMap]
  refine h.imp ?_
  intro a b hab x hx y hy
  cases a with
  | node v => cases hx
  | done a =>
    cases b with
    | node v => cases hy
    | done b =>
      cases hx
      cases hy
      exact ⟨fun h => hab.1 (by rw [h]), hab.2⟩

/-- **C212** (objective function of a tree). For a track at the root of its tree the result is the sum of the values of the
tracks of the tree: `l` lists each of them once. -/
theorem C212_objective (hF : Forest g T) {t v0 : Nat} (ht : t ∈ T) (h0 : front g t = some v0) (hp : g.prev v0 = none) :
    ∃ l : List Nat, l.Nodup ∧ (∀ u, u ∈ l ↔ InTree g T t u) ∧ ∃ N, ∀ f, N ≤ f → ∀ obj : Nat → ℚ,
      run g (objStep obj) f 0 t false = some ((l.map obj).sum) := by
  obtain ⟨N, L, hrun, hok, hdone, _⟩ := hF.run_root ht h0 hp
  refine ⟨ends L, (ends_pairwise hok).imp fun h => h.1, fun u => by rw [mem_ends]; exact hdone u, N, ?_⟩
  intro f hf obj
  rw [hrun _ _ f hf, fold_obj, zero_add]
  rfl

/-- **C212** (parameters of a tree). The update succeeds exactly if it succeeds for each track of the tree. -/
theorem C212_update (hF : Forest g T) {t v0 : Nat} (ht : t ∈ T) (h0 : front g t = some v0) (hp : g.prev v0 = none) :
    ∃ N, ∀ f, N ≤ f → ∀ upd : Nat → Bool, ∃ b, run g (updStep upd) f true t false = some b ∧
      (b = true ↔ ∀ u, InTree g T t u → upd u = true) := by
  obtain ⟨N, L, hrun, _, hdone, _⟩ := hF.run_root ht h0 hp
  refine ⟨N, fun f hf upd => ⟨_, hrun _ _ f hf true, ?_⟩⟩
  have key : ∀ (L : List Ev) (x : Bool), L.foldl (updStep upd) x = true ↔ x = true ∧ ∀ u, .done u ∈ L → upd u = true := by
    intro L
    induction L with
    | nil => intro x; simp
    | cons e L ih =>
      intro x
      rw [List.foldl_cons, ih]
      cases e with
      | node v => simp [updStep]
      | done w =>
        simp only [updStep, List.mem_cons, Ev.done.injEq]
        by_cases hw : upd w = true
        · simp only [hw, Bool.not_true, Bool.false_eq_true, if_false]
          constructor
          · rintro ⟨h1, h2⟩
            refine ⟨h1, ?_⟩
            rintro u (rfl | hu)
            · exact hw
            · exact h2 u hu
          · rintro ⟨h1, h2⟩
            exact ⟨h1, fun u hu => h2 u (Or.inr hu)⟩
        · simp only [hw, Bool.not_false, if_true, Bool.false_eq_true, false_and, false_iff, not_and]
          intro _ h
          exact hw (h w (Or.inl rfl))
  rw [key]
  simp only [true_and]
  exact ⟨fun h u hu => h u ((hdone u).2 hu), fun h u hu => h u ((hdone u).1 hu)⟩

/-- **C213** (projections and hit order in a tree). The hits of each track of the tree are projected (sorted) once, those
of no other track, and those of a track after those of its branches. -/
theorem C213_calls (hF : Forest g T) {t v0 : Nat} (ht : t ∈ T) (h0 : front g t = some v0) (hp : g.prev v0 = none) :
    ∃ N, ∀ f, N ≤ f → ∃ l, run g callStep f [] t false = some l ∧ l.Nodup ∧ (∀ u, u ∈ l ↔ InTree g T t u) ∧
      l.Pairwise (fun a b => ¬ Child g T a b) ∧ l.getLast? = some t := by
  obtain ⟨N, L, hrun, hok, hdone, _⟩ := hF.run_root ht h0 hp
  have key : ∀ (L : List Ev) (l : List Nat), L.foldl callStep l = l ++ ends L := by
    intro L
    induction L with
    | nil => intro l; simp [ends]
    | cons e L ih =>
      intro l
      rw [List.foldl_cons, ih]
      cases e with
      | node v => simp [callStep, ends]
      | done w => simp [callStep, ends]
  refine ⟨N + 1, fun f hf => ⟨ends L, ?_, (ends_pairwise hok).imp fun h => h.1, fun u => by rw [mem_ends]; exact hdone u,
    (ends_pairwise hok).imp fun h => h.2, ?_⟩⟩
  · rw [hrun _ _ f (by omega), key]
    rfl
  · -- the last step of the call is the one of the track itself
    obtain ⟨f, rfl⟩ : ∃ f', f = f' + 1 := ⟨f - 1, by omega⟩
    have h1 := hrun _ callStep (f + 1) (by omega) []
    rw [key, List.nil_append] at h1
    unfold run at h1
    split at h1
    · cases h1
    · have := Option.some.inj h1
      rw [← this]
      simp [callStep]
    · split at h1
      · cases h1
      · split at h1
        · cases h1
        · have := Option.some.inj h1
          rw [← this]
          simp [callStep]

/-- the tree of the track 0 of `exG` (a forest by `exG_forest`) -/
example : front exG 0 = some 0 ∧ exG.prev 0 = none ∧ run exG callStep 10 [] 0 false = some [3, 2, 1, 0] := by decide

end Verif.PMAlg.Tree

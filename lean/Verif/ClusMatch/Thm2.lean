import Verif.ClusMatch.Thm

/-! # Matching of clusters between planes: the combinations (C384, C385, C386, C387, C388) -/

namespace Verif.ClusMatch

/-- Specification: a pair passes all tests that are switched on. -/
def Pass2 (c : Cfg) (u v : Info) (w : Option Info) : Bool :=
  (!c.useZ || roughZ c u v) && (!c.useQ || sumQ c u v) && (!c.useT || roughT c u v) && (!c.useS || (spacePoint c u v w).1)

/-- Specification: a combination of three passes all tests that are switched on. -/
def Pass3 (c : Cfg) (u v w : Info) : Bool :=
  (!c.useZ || roughZ c u v) && (!c.useQ || sumQ c u v) && (!c.useT || (roughT c u v && roughT c v w && roughT c w u)) && (!c.useS || (spacePoint c u v (some w)).1)

theorem cut_true (debug use pass : Bool) (st : Option Bool) : cut debug use pass st = some true ↔ st = some true ∧ (!use || pass) = true := by
  cases st with
  | none => simp [cut]
  | some b => cases debug <;> cases use <;> cases pass <;> cases b <;> simp [cut]

theorem time3_true (c : Cfg) (u v w : Info) (st : Option Bool) :
    time3 c u v w st = some true ↔ st = some true ∧ (!c.useT || (roughT c u v && roughT c v w && roughT c w u)) = true := by
  cases st with
  | none => simp [time3]
  | some b =>
    unfold time3
    dsimp only
    cases c.useT <;> cases c.debug <;> cases roughT c u v <;> cases roughT c v w <;> cases roughT c w u <;> cases b <;> simp

theorem pair2_eq (c : Cfg) (u v : Info) (w : Option Info) :
    pair2 c u v w = if Pass2 c u v w then some (if c.useS then (spacePoint c u v w).2 else []) else none := by
  unfold pair2
  dsimp only
  have h : (cut c.debug c.useS (spacePoint c u v w).1 (cut c.debug c.useT (roughT c u v) (cut c.debug c.useQ (sumQ c u v) (cut c.debug c.useZ (roughZ c u v) (some true)))) = some true) ↔
      Pass2 c u v w = true := by
    simp only [cut_true, Pass2, Bool.and_eq_true, true_and]
  by_cases hp : Pass2 c u v w = true
  · rw [if_pos (h.mpr hp), if_pos hp]
  · rw [if_neg (fun x => hp (h.mp x)), if_neg hp]

theorem pair3_eq (c : Cfg) (u v w : Info) :
    pair3 c u v w = if Pass3 c u v w then some (if c.useS then (spacePoint c u v (some w)).2 else []) else none := by
  unfold pair3
  dsimp only
  have h : (cut c.debug c.useS (spacePoint c u v (some w)).1 (time3 c u v w (cut c.debug c.useQ (sumQ c u v) (cut c.debug c.useZ (roughZ c u v) (some true)))) = some true) ↔
      Pass3 c u v w = true := by
    simp only [cut_true, time3_true, Pass3, Bool.and_eq_true, true_and]
  by_cases hp : Pass3 c u v w = true
  · rw [if_pos (h.mpr hp), if_pos hp]
  · rw [if_neg (fun x => hp (h.mp x)), if_neg hp]

theorem filterMap_if {α β : Type} (p : α → Bool) (f : α → β) (l : List α) : (l.filterMap fun x => if p x then some (f x) else none) = (l.filter p).map f := by
  induction l with
  | nil => rfl
  | cons a l ih =>
    by_cases h : p a = true
    · simp [h, ih]
    · simp [h, ih]

theorem all2_eq (c : Cfg) (us vs ws : List Info) :
    all2 c us vs ws = us.flatMap fun u => (vs.filter fun v => Pass2 c u v ws.head?).map fun v => (u.id, v.id, if c.useS then (spacePoint c u v ws.head?).2 else []) := by
  unfold all2
  congr 1
  funext u
  rw [← filterMap_if]
  congr 1
  funext v
  rw [pair2_eq]
  split <;> rfl

theorem all3_eq (c : Cfg) (us vs ws : List Info) :
    all3 c us vs ws = us.flatMap fun u => vs.flatMap fun v => (ws.filter fun w => Pass3 c u v w).map fun w => (u.id, v.id, w.id, if c.useS then (spacePoint c u v (some w)).2 else []) := by
  unfold all3
  congr 1
  funext u
  congr 1
  funext v
  rw [← filterMap_if]
  congr 1
  funext w
  rw [pair3_eq]
  split <;> rfl

/-- C384: with clusters in at least one plane, the lists of matched clusters of two planes are, in the order of the first and then of the second plane, exactly the pairs of clusters that pass all tests
switched on; the clusters received are forgotten. -/
theorem C384_two_partial (c : Cfg) (store : Bool) (a : Alg) (hne : a.us ≠ [] ∨ a.vs ≠ [] ∨ a.ws ≠ []) :
    (match2 c store a).mu.zip (match2 c store a).mv = (a.us.flatMap fun u => (a.vs.filter fun v => Pass2 c u v a.ws.head?).map fun v => (u.id, v.id)) ∧
    (match2 c store a).mu.length = (match2 c store a).mv.length ∧ (match2 c store a).mw = [] ∧
    (store = true → (match2 c store a).ms.length = (match2 c store a).mu.length) ∧ (store = false → (match2 c store a).ms = []) ∧
    (match2 c store a).us = [] ∧ (match2 c store a).vs = [] ∧ (match2 c store a).ws = [] := by
  have hl : ¬ a.us.length + a.vs.length + a.ws.length = 0 := by
    intro h
    have h1 : a.us = [] := List.length_eq_zero_iff.mp (by omega)
    have h2 : a.vs = [] := List.length_eq_zero_iff.mp (by omega)
    have h3 : a.ws = [] := List.length_eq_zero_iff.mp (by omega)
    simp [h1, h2, h3] at hne
  unfold match2
  rw [if_neg hl]
  dsimp only
  refine ⟨?_, by simp, rfl, fun h => by simp [h], fun h => by simp [h], rfl, rfl, rfl⟩
  rw [List.zip_map', all2_eq, List.map_flatMap]
  congr 1
  funext u
  rw [List.map_map]
  rfl

/-- C385: the same for three planes. -/
theorem C385_three_partial (c : Cfg) (store : Bool) (a : Alg) (hne : a.us ≠ [] ∨ a.vs ≠ [] ∨ a.ws ≠ []) :
    (match3 c store a).mu.zip ((match3 c store a).mv.zip (match3 c store a).mw) =
      (a.us.flatMap fun u => a.vs.flatMap fun v => (a.ws.filter fun w => Pass3 c u v w).map fun w => (u.id, v.id, w.id)) ∧
    (match3 c store a).mu.length = (match3 c store a).mv.length ∧ (match3 c store a).mv.length = (match3 c store a).mw.length ∧
    (store = true → (match3 c store a).ms.length = (match3 c store a).mu.length) ∧ (store = false → (match3 c store a).ms = []) ∧
    (match3 c store a).us = [] ∧ (match3 c store a).vs = [] ∧ (match3 c store a).ws = [] := by
  have hl : ¬ a.us.length + a.vs.length + a.ws.length = 0 := by
    intro h
    have h1 : a.us = [] := List.length_eq_zero_iff.mp (by omega)
    have h2 : a.vs = [] := List.length_eq_zero_iff.mp (by omega)
    have h3 : a.ws = [] := List.length_eq_zero_iff.mp (by omega)
    simp [h1, h2, h3] at hne
  unfold match3
  rw [if_neg hl]
  dsimp only
  refine ⟨?_, by simp, by simp, fun h => by simp [h], fun h => by simp [h], rfl, rfl, rfl⟩
  rw [List.zip_map', List.zip_map', all3_eq, List.map_flatMap]
  congr 1
  funext u
  rw [List.map_flatMap]
  congr 1
  funext v
  rw [List.map_map]
  rfl

/-- Clusters for examples. -/
def exU : Info := fill (fun _ => 0) 10 0 [⟨1, 10, 1, 7⟩, ⟨2, 20, 1, 7⟩]
def exV : Info := fill (fun _ => 0) 11 1 [⟨1, 10, 1, 7⟩, ⟨2, 21, 1, 7⟩]
def exW : Info := fill (fun _ => 0) 12 2 [⟨1, 10, 1, 7⟩, ⟨2, 22, 1, 7⟩]

example : match3 exCfg true ⟨[exU], [exV], [exW], [], [], [], []⟩ = ⟨[], [], [], [10], [11], [12], [[1, 2, 1, 2, 1, 2]]⟩ := by decide +kernel

/-- C384, C385: the number of a cluster is cut to 16 bits: a match of cluster 65540 is reported for cluster 4. -/
theorem C384_id_refuted : (match2 { exCfg with useS := false } false ⟨[fill (fun _ => 0) 65540 0 [⟨1, 10, 1, 7⟩, ⟨2, 20, 1, 7⟩]], [exV], [], [], [], [], []⟩).mu = [4] := by decide +kernel

/-! ### C386 -/

theorem spMatch_debug (c : Cfg) (hn : 0 < c.nsps) (u v : Info) (w : Option Info) (d : Bool) : spMatch { c with debug := d } u v w = spMatch c u v w := by
  have key : ∀ (dbg : Bool) (hu hv hw : List Hit) (e : Bool) (P : Prop) [Decidable P], (P ↔ (e = false ∨ hw ≠ [])) →
      (if hu = [] ∧ dbg = false then (false, [])
       else if hv = [] ∧ dbg = false then (false, [])
       else if hw = [] ∧ e = true ∧ dbg = false then (false, [])
       else
        ((decide (¬ (if hu ≠ [] ∧ hv ≠ [] ∧ P then c.sps (hu ++ hv ++ hw) else []).length < c.nsps),
          if hu ≠ [] ∧ hv ≠ [] ∧ P then c.sps (hu ++ hv ++ hw) else []) : Bool × List Nat)) =
      if hu ≠ [] ∧ hv ≠ [] ∧ P then (decide (¬ (c.sps (hu ++ hv ++ hw)).length < c.nsps), c.sps (hu ++ hv ++ hw)) else (false, []) := by
    intro dbg hu hv hw e P _ hP
    by_cases h1 : hu = []
    · cases dbg <;> simp [h1, hn]
    · by_cases h2 : hv = []
      · cases dbg <;> simp [h1, h2, hn]
      · by_cases h3 : P
        · have := hP.mp h3
          rw [if_neg (by simp [h1]), if_neg (by simp [h2]), if_neg (by rcases this with h | h <;> simp [h])]
          simp [h1, h2, h3]
        · have : hw = [] ∧ e = true := by
            by_contra hc
            apply h3
            apply hP.mpr
            by_cases hw0 : hw = []
            · left
              cases e
              · rfl
              · exact absurd ⟨hw0, rfl⟩ hc
            · exact Or.inr hw0
          cases dbg <;> simp [h1, h2, h3, this, hn]
  have hw : ∀ l : List Hit, (w = none ∨ l ≠ []) ↔ (w.isSome = false ∨ l ≠ []) := by intro l; cases w <;> simp
  unfold spMatch range
  dsimp only
  rw [key _ _ _ _ _ _ (hw _), key _ _ _ _ _ _ (hw _)]

theorem spacePoint_debug (c : Cfg) (hn : 0 < c.nsps) (u v : Info) (w : Option Info) (d : Bool) : spacePoint { c with debug := d } u v w = spacePoint c u v w := by
  unfold spacePoint
  rw [spMatch_debug c hn]
  split
  · cases w with
    | none => rfl
    | some w => exact spMatch_debug c hn u v (some w) d
  · rfl

/-- C386: unless the smallest number of space points is 0, the debug mode does not change the matches. -/
theorem C386_debug_partial (c : Cfg) (hn : 0 < c.nsps) (us vs ws : List Info) :
    (all2 { c with debug := true } us vs ws) = all2 { c with debug := false } us vs ws ∧
    (all3 { c with debug := true } us vs ws) = all3 { c with debug := false } us vs ws := by
  have f2 : ∀ d, all2 { c with debug := d } us vs ws = all2 c us vs ws := by
    intro d
    rw [all2_eq, all2_eq]
    unfold Pass2
    simp only [spacePoint_debug c hn]
    rfl
  have f3 : ∀ d, all3 { c with debug := d } us vs ws = all3 c us vs ws := by
    intro d
    rw [all3_eq, all3_eq]
    unfold Pass3
    simp only [spacePoint_debug c hn]
    rfl
  exact ⟨(f2 true).trans (f2 false).symm, (f3 true).trans (f3 false).symm⟩

/-- C386: with no space points asked for, clusters without hits in the time range match in debug mode only. -/
theorem C386_refuted : ¬ ∀ (c : Cfg) (us vs ws : List Info), all2 { c with debug := true } us vs ws = all2 { c with debug := false } us vs ws := by
  intro h
  have := h { exCfg with useZ := false, useT := false, useQ := false, nsps := 0, planes := 2 } [fill (fun _ => 0) 1 0 []] [fill (fun _ => 0) 2 1 []] []
  revert this
  decide +kernel

/-! ### C387 -/

/-- C387: with a detector of two planes, or without the test of space points, the matches of two planes do not depend on clusters of the third. -/
theorem C387_third_partial (c : Cfg) (h : c.planes ≤ 2 ∨ c.useS = false) (us vs ws ws' : List Info) : all2 c us vs ws = all2 c us vs ws' := by
  have hs : ∀ u v w w', pair2 c u v w = pair2 c u v w' := by
    intro u v w w'
    rw [pair2_eq, pair2_eq]
    unfold Pass2
    rcases h with h | h
    · have : ∀ w, spacePoint c u v w = spMatch c u v none := by intro w; unfold spacePoint; rw [if_neg (by omega)]
      rw [this w, this w']
    · simp [h]
  unfold all2
  congr 1; funext u; congr 1; funext v
  rw [hs]

example : all2 { exCfg with planes := 2 } [exU] [exV] [] = [(10, 11, [1, 2, 1, 2])] := by decide +kernel

/-- C387: with three planes the test of space points for two planes takes the first cluster of the third plane, and fails for all pairs if there is none. -/
theorem C387_refuted : (∀ (c : Cfg) (us vs : List Info), 2 < c.planes → c.useS = true → all2 c us vs [] = []) ∧
    all2 exCfg [exU] [exV] [exW] = [(10, 11, [1, 2, 1, 2, 1, 2])] := by
  refine ⟨fun c us vs h hs => ?_, by decide +kernel⟩
  rw [all2_eq]
  have : ∀ u v, Pass2 c u v none = false := by
    intro u v
    unfold Pass2 spacePoint
    simp [hs, h]
  simp [this]

/-! ### C388 -/

/-- A call. -/
inductive Op
  | app (id view : Nat) (hits : List Hit)
  | two
  | three

/-- The state after calls. -/
def run (off : Nat → ℚ) (c : Cfg) (store : Bool) : Alg → List Op → Alg
  | a, [] => a
  | a, .app id view hits :: rest => run off c store (append off a id view hits) rest
  | a, .two :: rest => run off c store (match2 c store a) rest
  | a, .three :: rest => run off c store (match3 c store a) rest

/-- Specification: calls that give clusters only, at least one of them of a plane that exists. -/
def Gives (l : List (Nat × Nat × List Hit)) : Prop := ∃ p ∈ l, p.2.1 < 3

/-- Calls that give the clusters of a list. -/
def give (l : List (Nat × Nat × List Hit)) : List Op := l.map fun p => .app p.1 p.2.1 p.2.2

/-- Clusters of a view in a list. -/
def ofView (off : Nat → ℚ) (v : Nat) (l : List (Nat × Nat × List Hit)) : List Info := (l.filter fun p => decide (p.2.1 = v)).map fun p => fill off p.1 p.2.1 p.2.2

theorem run_append (off : Nat → ℚ) (c : Cfg) (store : Bool) (l1 l2 : List Op) : ∀ a, run off c store a (l1 ++ l2) = run off c store (run off c store a l1) l2 := by
  induction l1 with
  | nil => intro a; rfl
  | cons o l ih => intro a; cases o <;> exact ih _

theorem run_give (off : Nat → ℚ) (c : Cfg) (store : Bool) (l : List (Nat × Nat × List Hit)) : ∀ a : Alg, run off c store a (give l) =
    { a with us := a.us ++ ofView off 0 l, vs := a.vs ++ ofView off 1 l, ws := a.ws ++ ofView off 2 l } := by
  induction l with
  | nil => intro a; simp [give, run, ofView]
  | cons p l ih =>
    intro a
    show run off c store (append off a p.1 p.2.1 p.2.2) (give l) = _
    rw [ih]
    unfold append
    dsimp only
    by_cases h0 : p.2.1 = 0
    · rw [if_pos h0]; simp [ofView, h0]
    · rw [if_neg h0]
      by_cases h1 : p.2.1 = 1
      · rw [if_pos h1]; simp [ofView, h1]
      · rw [if_neg h1]
        by_cases h2 : p.2.1 = 2
        · rw [if_pos h2]; simp [ofView, h2]
        · rw [if_neg h2]; simp [ofView, h0, h1, h2]

/-- No clusters are left over after a matching that was called with clusters, or at the start. -/
def Fresh (a : Alg) : Prop := a.us = [] ∧ a.vs = [] ∧ a.ws = []

theorem fresh_match (c : Cfg) (store : Bool) (a : Alg) : Fresh (match2 c store a) ∧ Fresh (match3 c store a) := by
  constructor
  · unfold match2
    split
    · next h =>
      exact ⟨List.length_eq_zero_iff.mp (by omega), List.length_eq_zero_iff.mp (by omega), List.length_eq_zero_iff.mp (by omega)⟩
    · exact ⟨rfl, rfl, rfl⟩
  · unfold match3
    split
    · next h =>
      exact ⟨List.length_eq_zero_iff.mp (by omega), List.length_eq_zero_iff.mp (by omega), List.length_eq_zero_iff.mp (by omega)⟩
    · exact ⟨rfl, rfl, rfl⟩

/-- C388: after any calls that end with a matching, giving clusters of which at least one is of a known plane and matching them gives the result that a new object gives. -/
theorem C388_history_partial (off : Nat → ℚ) (c : Cfg) (store : Bool) (before : List Op) (last next : Op) (hlast : last = .two ∨ last = .three) (hnext : next = .two ∨ next = .three)
    (l : List (Nat × Nat × List Hit)) (hg : Gives l) (a : Alg) :
    run off c store a (before ++ [last] ++ give l ++ [next]) = run off c store Alg.clear (give l ++ [next]) := by
  rw [run_append, run_append, run_append _ _ _ (give l)]
  have hf : Fresh (run off c store a (before ++ [last])) := by
    rw [run_append]
    rcases hlast with rfl | rfl
    · exact (fresh_match c store _).1
    · exact (fresh_match c store _).2
  generalize run off c store a (before ++ [last]) = b at *
  rw [run_give, run_give]
  obtain ⟨h1, h2, h3⟩ := hf
  rw [h1, h2, h3]
  have hl : ¬ (ofView off 0 l).length + (ofView off 1 l).length + (ofView off 2 l).length = 0 := by
    obtain ⟨p, hp, hv⟩ := hg
    have : ∀ v, p.2.1 = v → 0 < (ofView off v l).length := by
      intro v e
      unfold ofView
      rw [List.length_map, List.length_pos_iff]
      intro hn
      have : p ∈ l.filter fun p => decide (p.2.1 = v) := List.mem_filter.mpr ⟨hp, by simp [e]⟩
      rw [hn] at this
      simp at this
    have h3 : p.2.1 = 0 ∨ p.2.1 = 1 ∨ p.2.1 = 2 := by omega
    rcases h3 with e | e | e
    · have := this 0 e; omega
    · have := this 1 e; omega
    · have := this 2 e; omega
  rcases hnext with rfl | rfl
  · simp only [run, match2, Alg.clear, List.nil_append]
    simp only [hl, if_false]
  · simp only [run, match3, Alg.clear, List.nil_append]
    simp only [hl, if_false]

/-- C388: a matching without clusters (or with clusters of unknown planes only) leaves the matches of the previous event. -/
theorem C388_refuted : (run (fun _ => 0) exCfg true Alg.clear
      [.app 10 0 exU.hits, .app 11 1 exV.hits, .app 12 2 exW.hits, .three, .app 5 7 [], .three]).mu = [10] ∧
    (run (fun _ => 0) exCfg true Alg.clear [.app 5 7 [], .three]).mu = [] := by decide +kernel

example : Gives [(10, 0, exU.hits), (11, 1, exV.hits)] := ⟨_, List.mem_cons_self, by decide⟩

end Verif.ClusMatch

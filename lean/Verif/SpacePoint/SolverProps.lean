import Verif.SpacePoint.SolverProofs
import Mathlib.Data.List.Perm.Basic
import Mathlib.Data.Nat.Prime.Basic
import Mathlib.Data.List.Nodup
import Mathlib.Tactic.NormNum.Prime
import Mathlib.Data.Nat.GCD.Basic
import Mathlib.Data.Fintype.Card
import Mathlib.Data.Nat.ModEq
/-!
# Properties of the space point solver (C41, C42, C43, C44, C69)
-/
namespace Verif.Solver
open Verif Finset

/-! ## Specification -/

/-- a problem: the wiring, the number of space charges, the collection wires (charge, crossings) and the orphans -/
structure Problem where
  cfg : Cfg
  N : Nat
  cwires : List (ℚ × List Nat)
  orphans : List Nat

/-- how the caller builds a problem: no negative or empty collection wire, every space charge on at most one of them, orphans on
none -/
structure Problem.Valid (P : Problem) : Prop where
  charge : ∀ c ∈ P.cwires, 0 ≤ c.1
  crossed : ∀ c ∈ P.cwires, c.2 ≠ []
  exist : ∀ c ∈ P.cwires, ∀ k ∈ c.2, k < P.N
  once : (P.cwires.map (·.2)).flatten.Nodup
  orphanExist : ∀ k ∈ P.orphans, k < P.N
  orphanApart : ∀ c ∈ P.cwires, ∀ k ∈ c.2, k ∉ P.orphans

/-- constructing all the collection wires, in order, from empty space charges -/
def Problem.build (P : Problem) : List (ℚ × List Nat) → State → Res State
  | [], s => .ok s
  | c :: cs, s => (newWire P.cfg c.1 c.2 s).bind (P.build cs)

/-- states reached by constructing the wires and then any sequence of `Iterate` calls, with any `alpha` at each call -/
inductive Reach (P : Problem) : State → Prop
  | start {s} : P.build P.cwires State.zero = .ok s → Reach P s
  | wire {s s'} (α z c) : Reach P s → c ∈ P.cwires → iterateWire P.cfg α z c.2 s = .ok s' → Reach P s'
  | orphan {s s'} (α z k) : Reach P s → k ∈ P.orphans → iterateOrphan P.cfg α z k s = .ok s' → Reach P s'
  | all {s s'} (α z) : Reach P s → iterateAll P.cfg α z (P.cwires.map (·.2)) P.orphans s = some (.ok s') → Reach P s'

/-- what C41 claims of a state -/
structure Conserved (P : Problem) (s : State) : Prop where
  total : ∀ c ∈ P.cwires, (c.2.map s.pred).sum = c.1
  nonneg : ∀ k, 0 ≤ s.pred k
  wires : ∀ w, s.wpred w = ∑ k ∈ range P.N, s.pred k * onWire P.cfg k w

/-! ## Proof of C41 -/

structure Inv (P : Problem) (s : State) : Prop where
  total : ∀ c ∈ P.cwires, (c.2.map s.pred).sum = c.1
  nonneg : ∀ k, 0 ≤ s.pred k
  cons : Consistent P.cfg P.N s

theorem sum_add (cfg : Cfg) (k : Nat) (d : ℚ) (s : State) (l : List Nat) (hl : l.Nodup) :
    (l.map (addCharge cfg k d s).pred).sum = (l.map s.pred).sum + if k ∈ l then d else 0 := by
  induction l with
  | nil => simp
  | cons a l ih =>
    obtain ⟨h1, h2⟩ := List.nodup_cons.1 hl
    rw [List.map_cons, List.sum_cons, ih h2, List.map_cons, List.sum_cons, add_pred]
    by_cases ha : a = k
    · subst ha
      rw [if_pos rfl, if_neg h1, if_pos (by simp)]; ring
    · rw [if_neg ha]
      have hm : k ∈ a :: l ↔ k ∈ l := by
        rw [List.mem_cons]; constructor
        · rintro (h | h)
          · exact absurd h.symm ha
          · exact h
        · exact Or.inr
      simp only [hm]; ring

theorem nodup_cross {P : Problem} (hP : P.Valid) {c : ℚ × List Nat} (hc : c ∈ P.cwires) : c.2.Nodup :=
  (List.nodup_flatten.1 hP.once).1 _ (List.mem_map.2 ⟨c, hc, rfl⟩)

/-- two different wires share no crossing -/
theorem disjoint_cross {P : Problem} (hP : P.Valid) {c : ℚ × List Nat} (hc : c ∈ P.cwires) {k : Nat} (hk : k ∈ c.2) (c' : ℚ × List Nat)
    (hc' : c' ∈ P.cwires) (hk' : k ∈ c'.2) : c'.2 = c.2 := by
  have h := (List.nodup_flatten.1 hP.once).2
  rw [List.pairwise_map] at h
  by_contra hne
  have hne2 : c' ≠ c := by rintro rfl; exact hne rfl
  haveI : Std.Symm (fun a b : ℚ × List Nat => a.2.Disjoint b.2) := ⟨fun _ _ h => h.symm⟩
  have := h.forall hc' hc hne2
  exact this hk' hk

/-- moving `x` from `j` to `i` on one wire -/
theorem move_inv {P : Problem} (hP : P.Valid) {s : State} (hs : Inv P s) {c : ℚ × List Nat} (hc : c ∈ P.cwires) {i j : Nat} (hi : i ∈ c.2)
    (hj : j ∈ c.2) (hij : i ≠ j) (x : ℚ) (h1 : -s.pred i ≤ x) (h2 : x ≤ s.pred j) :
    Inv P (addCharge P.cfg j (-x) (addCharge P.cfg i x s)) := by
  refine ⟨fun c' hc' => ?_, fun k => ?_, ?_⟩
  · rw [sum_add _ _ _ _ _ (nodup_cross hP hc'), sum_add _ _ _ _ _ (nodup_cross hP hc'), hs.total c' hc']
    by_cases hci : i ∈ c'.2
    · have e := disjoint_cross hP hc hi c' hc' hci
      rw [if_pos hci, if_pos (by rw [e]; exact hj)]; ring
    · have : j ∉ c'.2 := fun h => hci (by rw [disjoint_cross hP hc hj c' hc' h]; exact hi)
      rw [if_neg hci, if_neg this]; ring
  · rw [add_pred, add_pred]
    have := hs.nonneg k
    by_cases hk : k = j
    · subst hk
      rw [if_pos rfl, if_neg (Ne.symm hij)]; linarith
    · rw [if_neg hk]
      by_cases hk2 : k = i
      · subst hk2; rw [if_pos rfl]; linarith
      · rw [if_neg hk2]; exact this
  · exact add_consistent _ _ _ (hP.exist c hc j hj) _ _ (add_consistent _ _ _ (hP.exist c hc i hi) _ _ hs.cons)

theorem inner_inv {P : Problem} (hP : P.Valid) (α : ℚ) (z : Signs) {c : ℚ × List Nat} (hc : c ∈ P.cwires) {i : Nat} (hi : i ∈ c.2) (js : List Nat) :
    (∀ j ∈ js, j ∈ c.2 ∧ i ≠ j) → ∀ s, Inv P s → ∃ s', innerLoop P.cfg α z i js s = .ok s' ∧ Inv P s' := by
  induction js with
  | nil => intro _ s hs; exact ⟨s, rfl, hs⟩
  | cons j js ih =>
    intro hj s hs
    obtain ⟨x, hx, h1, h2, -⟩ := solvePair_spec P.cfg α (z s i j) s i j (hs.nonneg i) (hs.nonneg j)
    unfold innerLoop
    rw [hx, Res.bind_ok]
    by_cases h0 : x = 0
    · rw [if_pos h0]; exact ih (fun j hj' => hj j (by simp [hj'])) s hs
    · rw [if_neg h0]
      exact ih (fun j hj' => hj j (by simp [hj'])) _ (move_inv hP hs hc hi (hj j (by simp)).1 (hj j (by simp)).2 x h1 h2)

theorem wire_inv {P : Problem} (hP : P.Valid) (α : ℚ) (z : Signs) {c : ℚ × List Nat} (hc : c ∈ P.cwires) (l : List Nat) :
    (∀ k ∈ l, k ∈ c.2) → l.Nodup → ∀ s, Inv P s → ∃ s', iterateWire P.cfg α z l s = .ok s' ∧ Inv P s' := by
  induction l with
  | nil => intro _ _ s hs; exact ⟨s, rfl, hs⟩
  | cons i l ih =>
    intro hl hn s hs
    obtain ⟨n1, n2⟩ := List.nodup_cons.1 hn
    obtain ⟨s1, h1, i1⟩ := inner_inv hP α z hc (hl i (by simp)) l (fun j hj => ⟨hl j (by simp [hj]), by rintro rfl; exact n1 hj⟩) s hs
    unfold iterateWire
    rw [h1, Res.bind_ok]
    exact ih (fun k hk => hl k (by simp [hk])) n2 s1 i1

theorem orphan_shape {cfg : Cfg} {α : ℚ} {z : Signs} {k : Nat} {s s' : State} (h : iterateOrphan cfg α z k s = .ok s') :
    ∃ x, -s.pred k ≤ x ∧ s' = addCharge cfg k x s := by
  unfold iterateOrphan at h
  cases he : oneMetric cfg α s k with
  | throw => rw [he] at h; cases h
  | ub => rw [he] at h; cases h
  | ok e =>
    rw [he, Res.bind_ok] at h
    cases hv : vertex (z s k k) e with
    | posInf => simp only [hv] at h; cases h
    | negInf => simp only [hv] at h; cases h; exact ⟨_, le_refl _, rfl⟩
    | nan => simp only [hv] at h; cases h; exact ⟨_, le_refl _, rfl⟩
    | num v =>
      simp only [hv] at h
      by_cases hlt : e.eval (-s.pred k) < e.eval (max (-s.pred k) v)
      · rw [if_pos hlt] at h; cases h; exact ⟨_, le_refl _, rfl⟩
      · rw [if_neg hlt] at h; cases h; exact ⟨_, le_max_left _ _, rfl⟩

theorem orphan_inv {P : Problem} (hP : P.Valid) {α : ℚ} {z : Signs} {k : Nat} (hk : k ∈ P.orphans) {s s' : State} (hs : Inv P s)
    (h : iterateOrphan P.cfg α z k s = .ok s') : Inv P s' := by
  obtain ⟨x, hx, rfl⟩ := orphan_shape h
  refine ⟨fun c hc => ?_, fun j => ?_, add_consistent _ _ _ (hP.orphanExist k hk) _ _ hs.cons⟩
  · rw [sum_add _ _ _ _ _ (nodup_cross hP hc), hs.total c hc, if_neg (fun hkc => hP.orphanApart c hc k hkc hk)]; ring
  · rw [add_pred]
    by_cases hj : j = k
    · subst hj; rw [if_pos rfl]; linarith
    · rw [if_neg hj]; exact hs.nonneg j

theorem orphans_inv {P : Problem} (hP : P.Valid) {α : ℚ} {z : Signs} (ks : List Nat) : (∀ k ∈ ks, k ∈ P.orphans) → ∀ {s s' : State}, Inv P s →
    orphanLoop P.cfg α z ks s = .ok s' → Inv P s' := by
  induction ks with
  | nil => intro _ s s' hs h; cases h; exact hs
  | cons k ks ih =>
    intro hk s s' hs h
    unfold orphanLoop at h
    cases hi : iterateOrphan P.cfg α z k s with
    | throw => rw [hi] at h; cases h
    | ub => rw [hi] at h; cases h
    | ok s1 =>
      rw [hi, Res.bind_ok] at h
      exact ih (fun k hk' => hk k (by simp [hk'])) (orphan_inv hP (hk k (by simp)) hs hi) h

theorem visit_inv {P : Problem} (hP : P.Valid) (α : ℚ) (z : Signs) (fuel : Nat) : ∀ idx s, Inv P s → idx < P.cwires.length →
    visitLoop P.cfg α z (P.cwires.map (·.2)) fuel idx s = none ∨
    ∃ s', visitLoop P.cfg α z (P.cwires.map (·.2)) fuel idx s = some (.ok s') ∧ Inv P s' := by
  induction fuel with
  | zero => intro _ _ _ _; exact Or.inl rfl
  | succ fuel ih =>
    intro idx s hs hidx
    unfold visitLoop
    have hget : (P.cwires.map (·.2)).getD idx [] = (P.cwires[idx]).2 := by
      simp [List.getD_eq_getElem?_getD, List.getElem?_map, List.getElem?_eq_getElem hidx]
    have hmem : P.cwires[idx] ∈ P.cwires := List.getElem_mem hidx
    rw [hget]
    obtain ⟨s1, h1, i1⟩ := wire_inv hP α z hmem (P.cwires[idx]).2 (fun k hk => hk) (nodup_cross hP hmem) s hs
    rw [h1]
    simp only []
    by_cases hz : (idx + 1299827) % (P.cwires.map (·.2)).length ≠ 0
    · rw [if_pos hz]
      exact ih _ s1 i1 (by rw [List.length_map]; exact Nat.mod_lt _ (by omega))
    · rw [if_neg hz]; exact Or.inr ⟨s1, rfl, i1⟩

theorem newWire_fold (P : Problem) (p : ℚ) (hp : 0 ≤ p) (l : List Nat) : (∀ k ∈ l, k < P.N) → l.Nodup → ∀ s : State,
    (∀ k, 0 ≤ s.pred k) → Consistent P.cfg P.N s →
    let s' := l.foldl (fun s k => addCharge P.cfg k p s) s
    (∀ k, 0 ≤ s'.pred k) ∧ Consistent P.cfg P.N s' ∧ ∀ k, s'.pred k = if k ∈ l then s.pred k + p else s.pred k := by
  induction l with
  | nil => intro _ _ s h1 h2; exact ⟨h1, h2, fun k => by simp⟩
  | cons a l ih =>
    intro hl hn s h1 h2
    obtain ⟨n1, n2⟩ := List.nodup_cons.1 hn
    rw [List.foldl_cons]
    obtain ⟨r1, r2, r3⟩ := ih (fun k hk => hl k (by simp [hk])) n2 (addCharge P.cfg a p s) (fun k => by
      rw [add_pred]; have := h1 k
      by_cases hk : k = a
      · rw [if_pos hk]; linarith
      · rw [if_neg hk]; exact this) (add_consistent _ _ _ (hl a (by simp)) _ _ h2)
    refine ⟨r1, r2, fun k => ?_⟩
    rw [r3 k, add_pred]
    by_cases hka : k = a
    · subst hka; rw [if_neg n1, if_pos rfl, if_pos (by simp)]
    · rw [if_neg hka]
      have : k ∈ a :: l ↔ k ∈ l := by simp [hka]
      simp only [this]

theorem build_inv {P : Problem} (hP : P.Valid) (cs : List (ℚ × List Nat)) : ∀ (done : List (ℚ × List Nat)) (s : State), done ++ cs = P.cwires →
    (∀ k, 0 ≤ s.pred k) → Consistent P.cfg P.N s → (∀ c ∈ done, (c.2.map s.pred).sum = c.1) →
    (∀ c ∈ cs, ∀ k ∈ c.2, s.pred k = 0) → ∃ s', P.build cs s = .ok s' ∧ Inv P s' := by
  induction cs with
  | nil =>
    intro done s hd h1 h2 h3 _
    rw [List.append_nil] at hd
    subst hd
    exact ⟨s, rfl, h3, h1, h2⟩
  | cons c cs ih =>
    intro done s hd h1 h2 h3 h4
    have hc : c ∈ P.cwires := by rw [← hd]; simp
    have hlen : (0 : ℚ) < c.2.length := by exact_mod_cast List.length_pos_iff.2 (hP.crossed c hc)
    unfold Problem.build newWire
    rw [if_neg (not_lt.2 (hP.charge c hc))]
    simp only [Res.bind]
    obtain ⟨r1, r2, r3⟩ := newWire_fold P (c.1 / c.2.length) (div_nonneg (hP.charge c hc) hlen.le) c.2 (hP.exist c hc)
      (nodup_cross hP hc) s h1 h2
    generalize c.2.foldl (fun s k => addCharge P.cfg k (c.1 / c.2.length) s) s = s' at r1 r2 r3
    -- no other wire shares a crossing with `c`
    have hpw : (P.cwires.map (·.2)).Pairwise List.Disjoint := (List.nodup_flatten.1 hP.once).2
    rw [← hd, List.pairwise_map, List.pairwise_append, List.pairwise_cons] at hpw
    obtain ⟨-, ⟨p1, -⟩, p2⟩ := hpw
    refine ih (done ++ [c]) s' (by simpa using hd) r1 r2 ?_ ?_
    · intro d hdm
      rcases List.mem_append.1 hdm with hdm | hdm
      · rw [← h3 d hdm]
        congr 1
        apply List.map_congr_left
        intro k hk
        rw [r3 k, if_neg (fun hkc => p2 d hdm c (by simp) hk hkc)]
      · rw [List.mem_singleton] at hdm
        subst hdm
        have : d.2.map s'.pred = d.2.map (fun _ => d.1 / d.2.length) := by
          apply List.map_congr_left
          intro k hk
          rw [r3 k, if_pos hk, h4 d (by simp) k hk, zero_add]
        rw [this, List.map_const', List.sum_replicate]
        rw [nsmul_eq_mul]; field_simp
    · intro d hdm k hk
      rw [r3 k, if_neg (fun hkc => p1 d hdm hkc hk)]
      exact h4 d (by simp [hdm]) k hk

theorem iterateAll_inv {P : Problem} (hP : P.Valid) {α : ℚ} {z : Signs} {s s' : State} (hs : Inv P s)
    (h : iterateAll P.cfg α z (P.cwires.map (·.2)) P.orphans s = some (.ok s')) : Inv P s' := by
  unfold iterateAll at h
  by_cases he : P.cwires.map (·.2) ≠ []
  · rw [if_pos he] at h
    rcases visit_inv hP α z ((P.cwires.map (·.2)).length + 1) 0 s hs (by
      have := List.length_pos_iff.2 he; rwa [List.length_map] at this) with hv | ⟨s1, hv, i1⟩
    · rw [hv] at h; cases h
    · rw [hv] at h
      simp only [Option.some.injEq] at h
      exact orphans_inv hP _ (fun k hk => hk) i1 h
  · rw [if_neg he] at h
    simp only [Option.some.injEq] at h
    exact orphans_inv hP _ (fun k hk => hk) hs h

theorem reach_inv {P : Problem} (hP : P.Valid) {s : State} (h : Reach P s) : Inv P s := by
  induction h with
  | start h =>
    obtain ⟨s', h', i⟩ := build_inv hP P.cwires [] State.zero rfl (fun _ => le_refl _) (zero_consistent _ _) (by simp) (by simp [State.zero])
    rw [h'] at h; cases h; exact i
  | wire α z c _ hc h ih =>
    obtain ⟨s', h', i⟩ := wire_inv hP α z hc c.2 (fun k hk => hk) (nodup_cross hP hc) _ ih
    rw [h'] at h; cases h; exact i
  | orphan α z k _ hk h ih => exact orphan_inv hP hk ih h
  | all α z _ h ih => exact iterateAll_inv hP ih h

/-- C41: after constructing the collection wires and any number of iterations, with any `alpha`, the charges on each collection
wire add up to its measured charge, no charge is negative, and each induction wire predicts the sum of the charges on it. -/
theorem C41_conserved (P : Problem) (hP : P.Valid) (s : State) (h : Reach P s) : Conserved P s := by
  have i := reach_inv hP h
  exact ⟨i.total, i.nonneg, i.cons.1⟩

/-- C41: construction succeeds, and iterating a collection wire never aborts. -/
theorem C41_no_abort (P : Problem) (hP : P.Valid) :
    (∃ s, P.build P.cwires State.zero = .ok s) ∧
    ∀ s, Reach P s → ∀ α z, ∀ c ∈ P.cwires, ∃ s', iterateWire P.cfg α z c.2 s = .ok s' := by
  obtain ⟨s', h', -⟩ := build_inv hP P.cwires [] State.zero rfl (fun _ => le_refl _) (zero_consistent _ _) (by simp) (by simp [State.zero])
  refine ⟨⟨s', h'⟩, fun s hs α z c hc => ?_⟩
  obtain ⟨s1, h1, -⟩ := wire_inv hP α z hc c.2 (fun k hk => hk) (nodup_cross hP hc) s (reach_inv hP hs)
  exact ⟨s1, h1⟩

/-! ## C42 -/

/-- C42: for space charges that are not negative, `SolvePair` does not abort and returns a transfer that keeps both
non-negative and minimises the pair metric over all such transfers, for every `alpha`, also when the metric is linear or
constant. -/
theorem C42_optimal (cfg : Cfg) (α : ℚ) (z : Bool) (s : State) (i j : Nat) (hi : 0 ≤ s.pred i) (hj : 0 ≤ s.pred j) :
    ∃ x e, solvePair cfg α z s i j = .ok x ∧ pairMetric cfg α s i j = .ok e ∧ 0 ≤ s.pred i + x ∧ 0 ≤ s.pred j - x ∧
      ∀ y, 0 ≤ s.pred i + y → 0 ≤ s.pred j - y → e.eval x ≤ e.eval y := by
  obtain ⟨x, h1, h2, h3, h4⟩ := solvePair_spec cfg α z s i j hi hj
  obtain ⟨e, he, hv⟩ := pairMetric_eval cfg α s i j
  exact ⟨x, e, h1, he, by linarith, by linarith, fun y h5 h6 => by rw [hv, hv]; exact h4 y (by linarith) (by linarith)⟩

/-! ## C43 -/

/-- symmetric couplings without self-coupling or repeated neighbours; the two induction views have different wires -/
structure Cfg.Symmetric (cfg : Cfg) : Prop where
  symm : ∀ j k, coup cfg j k = coup cfg k j
  noSelf : ∀ k, coup cfg k k = 0
  uniq : ∀ k, ((cfg.nei k).map (·.1)).Nodup
  planes : ∀ i j w, cfg.w1 i = some w → cfg.w2 j ≠ some w

/-- a list of space charges (each once) that no outside space charge couples into -/
structure Closed (cfg : Cfg) (N : Nat) (scs : List Nat) : Prop where
  nodup : scs.Nodup
  exist : ∀ k ∈ scs, k < N
  closed : ∀ j k, k ∈ scs → coup cfg j k ≠ 0 → j ∈ scs

theorem coup_first (cfg : Cfg) (h : cfg.Symmetric) (i j : Nat) : (firstCoupling (cfg.nei i) j).getD 0 = coup cfg i j := by
  unfold firstCoupling coup
  have hu := h.uniq i
  generalize cfg.nei i = l at hu
  induction l with
  | nil => simp
  | cons e l ih =>
    obtain ⟨n1, n2⟩ := List.nodup_cons.1 (by simpa using hu : (e.1 :: l.map (·.1)).Nodup)
    by_cases he : e.1 = j
    · have hnone : l.filter (fun e => decide (e.1 = j)) = [] := by
        rw [List.filter_eq_nil_iff]
        intro x hx hxj
        simp only [decide_eq_true_eq] at hxj
        exact n1 (List.mem_map.2 ⟨x, hx, by rw [hxj, he]⟩)
      simp [he, hnone]
    · have := ih n2
      simpa [he] using this

/-- change of a wire term when `d` is added to the wire -/
def wireChange (cfg : Cfg) (s : State) (w : Option Nat) (d : ℚ) : ℚ :=
  w.elim 0 (fun w => (cfg.q w - (s.wpred w + d)) ^ 2 - (cfg.q w - s.wpred w) ^ 2)

theorem sum_single (f g : Nat → ℚ) (W : Finset Nat) (w : Nat) (hw : w ∈ W) (h : ∀ v ∈ W, v ≠ w → f v = g v) :
    ∑ v ∈ W, f v = ∑ v ∈ W, g v + (f w - g w) := by
  rw [← add_sum_erase W f hw, ← add_sum_erase W g hw]
  have : ∑ v ∈ W.erase w, f v = ∑ v ∈ W.erase w, g v := sum_congr rfl (fun v hv => by
    rw [mem_erase] at hv; exact h v hv.2 hv.1)
  rw [this]; ring

theorem metric_add (cfg : Cfg) (hc : cfg.Symmetric) (N : Nat) (scs : List Nat) (hS : Closed cfg N scs) (α : ℚ) (s : State)
    (hs : Consistent cfg N s) (k : Nat) (hk : k ∈ scs) (d : ℚ) :
    metric cfg α scs (addCharge cfg k d s) = metric cfg α scs s + (-(α * (2 * s.pred k * d + d ^ 2)) - 2 * α * d * s.pot k) +
      wireChange cfg s (cfg.w1 k) d + wireChange cfg s (cfg.w2 k) d := by
  -- energy part
  have hE : (if α ≠ 0 then (scs.map (fun j => -(α * ((addCharge cfg k d s).pred j * (addCharge cfg k d s).pred j)) -
        α * (addCharge cfg k d s).pred j * (addCharge cfg k d s).pot j)).sum else 0) =
      (if α ≠ 0 then (scs.map (fun j => -(α * (s.pred j * s.pred j)) - α * s.pred j * s.pot j)).sum else 0) +
        (-(α * (2 * s.pred k * d + d ^ 2)) - 2 * α * d * s.pot k) := by
    by_cases hα : α = 0
    · simp [hα]
    · rw [if_pos hα, if_pos hα]
      rw [← List.sum_toFinset _ hS.nodup, ← List.sum_toFinset _ hS.nodup]
      have hpk : s.pot k = ∑ j ∈ scs.toFinset, s.pred j * coup cfg k j := by
        rw [hs.2 k]
        symm
        have hsub : scs.toFinset ⊆ range N := fun j hj => mem_range.2 (hS.exist j (List.mem_toFinset.1 hj))
        rw [← sum_subset hsub (f := fun j => s.pred j * coup cfg j k) ?_]
        · exact sum_congr rfl (fun j _ => by rw [hc.symm])
        · intro j _ hj
          have : coup cfg j k = 0 := by
            by_contra hne; exact hj (List.mem_toFinset.2 (hS.closed j k hk hne))
          rw [this, mul_zero]
      have hterm : ∀ j ∈ scs.toFinset, -(α * ((addCharge cfg k d s).pred j * (addCharge cfg k d s).pred j)) -
          α * (addCharge cfg k d s).pred j * (addCharge cfg k d s).pot j =
          (-(α * (s.pred j * s.pred j)) - α * s.pred j * s.pot j) + (-(α * d)) * (s.pred j * coup cfg k j) +
            if j = k then -(α * (2 * s.pred k * d + d ^ 2)) - α * d * s.pot k else 0 := by
        intro j _
        rw [add_pred, add_pot]
        by_cases hj : j = k
        · subst hj
          rw [if_pos rfl, if_pos rfl, hc.noSelf]; ring
        · rw [if_neg hj, if_neg hj]; ring
      rw [sum_congr rfl hterm, sum_add_distrib, sum_add_distrib, ← mul_sum, ← hpk,
        sum_ite_eq' scs.toFinset k (fun _ => -(α * (2 * s.pred k * d + d ^ 2)) - α * d * s.pot k), if_pos (List.mem_toFinset.2 hk)]
      ring
  -- wire part
  have hnd : (wiresOf cfg scs).Nodup := List.nodup_dedup _
  have hW : ((wiresOf cfg scs).map (fun w => (cfg.q w - (addCharge cfg k d s).wpred w) * (cfg.q w - (addCharge cfg k d s).wpred w))).sum =
      ((wiresOf cfg scs).map (fun w => (cfg.q w - s.wpred w) * (cfg.q w - s.wpred w))).sum +
        wireChange cfg s (cfg.w1 k) d + wireChange cfg s (cfg.w2 k) d := by
    rw [← List.sum_toFinset _ hnd, ← List.sum_toFinset _ hnd]
    have m1 : ∀ w, cfg.w1 k = some w → w ∈ (wiresOf cfg scs).toFinset := by
      intro w hw
      rw [List.mem_toFinset, wiresOf, List.mem_dedup, List.mem_append]
      exact Or.inl (List.mem_filterMap.2 ⟨k, hk, hw⟩)
    have m2 : ∀ w, cfg.w2 k = some w → w ∈ (wiresOf cfg scs).toFinset := by
      intro w hw
      rw [List.mem_toFinset, wiresOf, List.mem_dedup, List.mem_append]
      exact Or.inr (List.mem_filterMap.2 ⟨k, hk, hw⟩)
    -- first wire, then second
    let g : Nat → ℚ := fun w => s.wpred w + d * (if cfg.w1 k = some w then 1 else 0)
    have step1 : ∑ w ∈ (wiresOf cfg scs).toFinset, (cfg.q w - g w) * (cfg.q w - g w) =
        ∑ w ∈ (wiresOf cfg scs).toFinset, (cfg.q w - s.wpred w) * (cfg.q w - s.wpred w) + wireChange cfg s (cfg.w1 k) d := by
      cases h1 : cfg.w1 k with
      | none => simp only [g, h1, wireChange, Option.elim]; simp
      | some u =>
        rw [sum_single _ (fun w => (cfg.q w - s.wpred w) * (cfg.q w - s.wpred w)) _ u (m1 u h1) (fun v _ hv => by
          simp only [g, h1]; rw [if_neg (by simpa using Ne.symm hv)]; ring)]
        simp only [g, h1, wireChange, Option.elim, if_true]; ring
    have step2 : ∑ w ∈ (wiresOf cfg scs).toFinset, (cfg.q w - (addCharge cfg k d s).wpred w) * (cfg.q w - (addCharge cfg k d s).wpred w) =
        ∑ w ∈ (wiresOf cfg scs).toFinset, (cfg.q w - g w) * (cfg.q w - g w) + wireChange cfg s (cfg.w2 k) d := by
      have hw : ∀ w, (addCharge cfg k d s).wpred w = g w + d * (if cfg.w2 k = some w then 1 else 0) := by
        intro w; rw [add_wpred]; simp only [g, onWire]; ring
      simp only [hw]
      cases h2 : cfg.w2 k with
      | none => simp [wireChange, Option.elim]
      | some v =>
        have hgv : g v = s.wpred v := by
          simp only [g]
          rw [if_neg (fun h => hc.planes k k v h h2)]; ring
        rw [sum_single _ (fun w => (cfg.q w - g w) * (cfg.q w - g w)) _ v (m2 v h2) (fun u _ hu => by
          rw [if_neg (by simpa using Ne.symm hu)]; ring)]
        simp only [wireChange, Option.elim, if_true, hgv]; ring
    rw [step2, step1]
  unfold metric
  rw [hE, hW]; ring

/-- C43: moving charge between two space charges changes the global metric by exactly the change of the pair metric. -/
theorem C43_exact_change (cfg : Cfg) (hc : cfg.Symmetric) (N : Nat) (scs : List Nat) (hS : Closed cfg N scs) (α : ℚ) (s : State)
    (hs : Consistent cfg N s) (i j : Nat) (hi : i ∈ scs) (hj : j ∈ scs) (hij : i ≠ j) (x : ℚ) :
    ∃ e, pairMetric cfg α s i j = .ok e ∧
      metric cfg α scs (addCharge cfg j (-x) (addCharge cfg i x s)) - metric cfg α scs s = e.eval x - e.eval 0 := by
  obtain ⟨e, he, hv⟩ := pairMetric_eval cfg α s i j
  refine ⟨e, he, ?_⟩
  rw [hv, hv, metric_add cfg hc N scs hS α _ (add_consistent _ _ _ (hS.exist i hi) _ _ hs) j hj (-x),
    metric_add cfg hc N scs hS α s hs i hi x]
  have hpj : (addCharge cfg i x s).pred j = s.pred j := by rw [add_pred, if_neg (Ne.symm hij)]
  rw [hpj, add_pot]
  have wires : ∀ wi wj : Option Nat, (∀ w, wj = some w → wi ≠ some w → onWire cfg i w = 0) → (∀ w, wj = some w → wi = some w → onWire cfg i w = 1) →
      wireChange cfg s wi x + wireChange cfg (addCharge cfg i x s) wj (-x) = wireVal cfg s wi wj x - wireVal cfg s wi wj 0 := by
    intro wi wj h0 h1
    unfold wireVal wireChange
    cases wj with
    | none =>
      cases wi with
      | none => simp
      | some u => simp
    | some v =>
      simp only [Option.elim]
      rw [add_wpred]
      by_cases hwi : wi = some v
      · subst hwi
        rw [h1 v rfl rfl]; simp
      · rw [h0 v rfl hwi]
        simp only [if_neg hwi]
        cases wi with
        | none => simp; ring
        | some u => simp; ring
  have hw1 := wires (cfg.w1 i) (cfg.w1 j) (fun w h1 h2 => by
      simp only [onWire, if_neg h2]; rw [if_neg (fun h => hc.planes j i w h1 h)]; ring)
    (fun w h1 h2 => by simp only [onWire, if_pos h2]; rw [if_neg (fun h => hc.planes j i w h1 h)]; ring)
  have hw2 := wires (cfg.w2 i) (cfg.w2 j) (fun w h1 h2 => by
      simp only [onWire, if_neg h2]; rw [if_neg (fun h => hc.planes i j w h h1)]; ring)
    (fun w h1 h2 => by simp only [onWire, if_pos h2]; rw [if_neg (fun h => hc.planes i j w h h1)]; ring)
  unfold pairVal alphaVal
  simp only [coup_first cfg hc i j]
  linear_combination hw1 + hw2

/-- the set of space charges on a problem's collection wires -/
def Problem.scs (P : Problem) : List Nat := (P.cwires.map (·.2)).flatten ++ P.orphans

theorem inner_metric {P : Problem} (hP : P.Valid) (hc : P.cfg.Symmetric) (scs : List Nat) (hS : Closed P.cfg P.N scs) (α : ℚ) (z : Signs)
    {c : ℚ × List Nat} (hcm : c ∈ P.cwires) (hin : ∀ k ∈ c.2, k ∈ scs) {i : Nat} (hi : i ∈ c.2) (js : List Nat) :
    (∀ j ∈ js, j ∈ c.2 ∧ i ≠ j) → ∀ s s', Inv P s → innerLoop P.cfg α z i js s = .ok s' →
      metric P.cfg α scs s' ≤ metric P.cfg α scs s := by
  induction js with
  | nil => intro _ s s' _ h; cases h; exact le_refl _
  | cons j js ih =>
    intro hj s s' hs h
    obtain ⟨x, hx, h1, h2, h3⟩ := solvePair_spec P.cfg α (z s i j) s i j (hs.nonneg i) (hs.nonneg j)
    unfold innerLoop at h
    rw [hx, Res.bind_ok] at h
    by_cases h0 : x = 0
    · rw [if_pos h0] at h; exact ih (fun j hj' => hj j (by simp [hj'])) s s' hs h
    · rw [if_neg h0] at h
      have hm := ih (fun j hj' => hj j (by simp [hj'])) _ s'
        (move_inv hP hs hcm hi (hj j (by simp)).1 (hj j (by simp)).2 x h1 h2) h
      obtain ⟨e, he, hch⟩ := C43_exact_change P.cfg hc P.N scs hS α s hs.cons i j (hin i hi) (hin j (hj j (by simp)).1) (hj j (by simp)).2 x
      obtain ⟨e', he', hv⟩ := pairMetric_eval P.cfg α s i j
      rw [he] at he'
      cases he'
      have h4 := h3 0 (by linarith [hs.nonneg i]) (hs.nonneg j)
      rw [← hv, ← hv] at h4
      linarith

theorem wire_metric {P : Problem} (hP : P.Valid) (hc : P.cfg.Symmetric) (scs : List Nat) (hS : Closed P.cfg P.N scs) (α : ℚ) (z : Signs)
    {c : ℚ × List Nat} (hcm : c ∈ P.cwires) (hin : ∀ k ∈ c.2, k ∈ scs) (l : List Nat) :
    (∀ k ∈ l, k ∈ c.2) → l.Nodup → ∀ s s', Inv P s → iterateWire P.cfg α z l s = .ok s' → metric P.cfg α scs s' ≤ metric P.cfg α scs s := by
  induction l with
  | nil => intro _ _ s s' _ h; cases h; exact le_refl _
  | cons i l ih =>
    intro hl hn s s' hs h
    obtain ⟨n1, n2⟩ := List.nodup_cons.1 hn
    have hside : ∀ j ∈ l, j ∈ c.2 ∧ i ≠ j := fun j hj => ⟨hl j (by simp [hj]), by rintro rfl; exact n1 hj⟩
    obtain ⟨s1, h1, i1⟩ := inner_inv hP α z hcm (hl i (by simp)) l hside s hs
    unfold iterateWire at h
    rw [h1, Res.bind_ok] at h
    have a := inner_metric hP hc scs hS α z hcm hin (hl i (by simp)) l hside s s1 hs h1
    have b := ih (fun k hk => hl k (by simp [hk])) n2 s1 s' i1 h
    linarith

theorem oneMetric_none (cfg : Cfg) (α : ℚ) (s : State) (k : Nat) (h : cfg.w1 k = none ∨ cfg.w2 k = none) : oneMetric cfg α s k = .ub := by
  have ha : ∃ r, oneAlpha α s k = .ok r := by
    unfold oneAlpha
    by_cases hα : α = 0
    · rw [if_neg (by simpa using hα)]; exact ⟨_, rfl⟩
    · rw [if_pos hα]
      have l : Quad.Lin ((Quad.const (s.pred k)).add Quad.X) := by simp [Quad.Lin, Quad.const, Quad.add, Quad.X]
      obtain ⟨r1, h1⟩ := Quad.mul_lin l l
      obtain ⟨r2, h2, -⟩ := Quad.mul_con r1 α
      obtain ⟨r5, h5, -⟩ := Quad.mul_con ((Quad.const (s.pred k)).add Quad.X) (2 * α)
      obtain ⟨r6, h6, -⟩ := Quad.mul_con r5 (s.pot k)
      simp only [h1, h2, h5, h6, Res.bind_ok]
      exact ⟨_, rfl⟩
  obtain ⟨r, hr⟩ := ha
  unfold oneMetric
  rw [hr, Res.bind_ok]
  rcases h with h | h
  · rw [h]; rfl
  · rw [h]; cases cfg.w1 k <;> rfl

theorem orphan_metric {P : Problem} (hc : P.cfg.Symmetric) (scs : List Nat) (hS : Closed P.cfg P.N scs) (α : ℚ) (hα : α < 2)
    (z : Signs) {k : Nat} (hk : k ∈ scs) {s s' : State} (hs : Inv P s) (h : iterateOrphan P.cfg α z k s = .ok s') :
    metric P.cfg α scs s' ≤ metric P.cfg α scs s := by
  cases he : oneMetric P.cfg α s k with
  | throw => unfold iterateOrphan at h; rw [he] at h; cases h
  | ub => unfold iterateOrphan at h; rw [he] at h; cases h
  | ok e =>
    cases hu : P.cfg.w1 k with
    | none => rw [oneMetric_none P.cfg α s k (Or.inl hu)] at he; cases he
    | some u =>
      cases hv : P.cfg.w2 k with
      | none => rw [oneMetric_none P.cfg α s k (Or.inr hv)] at he; cases he
      | some v =>
        obtain ⟨e', he', hev, hea⟩ := oneMetric_eval P.cfg α s k u v hu hv
        rw [he] at he'; cases he'
        have hch : ∀ x, metric P.cfg α scs (addCharge P.cfg k x s) - metric P.cfg α scs s = e.eval x - e.eval 0 := by
          intro x
          rw [hev, hev, metric_add P.cfg hc P.N scs hS α s hs.cons k hk x, hu, hv]
          simp only [wireChange, Option.elim, oneVal]
          ring
        have hpos : 0 < e.a := by rw [hea]; linarith
        have hmin : e.eval (max (-s.pred k) (-e.b / (2 * e.a))) ≤ e.eval 0 := by
          have hnn := hs.nonneg k
          have := quad_vertex e (-s.pred k) (max 0 (-e.b / (2 * e.a))) 0 hpos (by linarith) (le_max_left _ _)
          rwa [min_eq_right (le_max_right _ _)] at this
        unfold iterateOrphan at h
        rw [he, Res.bind_ok] at h
        have hvx : vertex (z s k k) e = .num (-e.b / (2 * e.a)) := by unfold vertex; rw [if_pos (ne_of_gt hpos)]
        simp only [hvx] at h
        by_cases hlt : e.eval (-s.pred k) < e.eval (max (-s.pred k) (-e.b / (2 * e.a)))
        · rw [if_pos hlt] at h; cases h
          have := hch (-s.pred k); linarith
        · rw [if_neg hlt] at h; cases h
          have := hch (max (-s.pred k) (-e.b / (2 * e.a))); linarith


theorem visit_metric {P : Problem} (hP : P.Valid) (hc : P.cfg.Symmetric) (scs : List Nat) (hS : Closed P.cfg P.N scs) (α : ℚ) (z : Signs)
    (hin : ∀ c ∈ P.cwires, ∀ k ∈ c.2, k ∈ scs) (fuel : Nat) : ∀ idx s s', Inv P s → idx < P.cwires.length →
    visitLoop P.cfg α z (P.cwires.map (·.2)) fuel idx s = some (.ok s') → metric P.cfg α scs s' ≤ metric P.cfg α scs s := by
  induction fuel with
  | zero => intro _ _ _ _ _ h; cases h
  | succ fuel ih =>
    intro idx s s' hs hidx h
    unfold visitLoop at h
    have hget : (P.cwires.map (·.2)).getD idx [] = (P.cwires[idx]).2 := by
      simp [List.getD_eq_getElem?_getD, List.getElem?_map, List.getElem?_eq_getElem hidx]
    have hmem : P.cwires[idx] ∈ P.cwires := List.getElem_mem hidx
    rw [hget] at h
    obtain ⟨s1, h1, i1⟩ := wire_inv hP α z hmem (P.cwires[idx]).2 (fun k hk => hk) (nodup_cross hP hmem) s hs
    have m1 := wire_metric hP hc scs hS α z hmem (hin _ hmem) (P.cwires[idx]).2 (fun k hk => hk) (nodup_cross hP hmem) s s1 hs h1
    rw [h1] at h
    simp only [] at h
    by_cases hz : (idx + 1299827) % (P.cwires.map (·.2)).length ≠ 0
    · rw [if_pos hz] at h
      have := ih _ s1 s' i1 (by rw [List.length_map]; exact Nat.mod_lt _ (by omega)) h
      linarith
    · rw [if_neg hz] at h; cases h; exact m1

theorem orphans_metric {P : Problem} (hP : P.Valid) (hc : P.cfg.Symmetric) (scs : List Nat) (hS : Closed P.cfg P.N scs) (α : ℚ) (z : Signs)
    (ks : List Nat) : (ks ≠ [] → α < 2) → (∀ k ∈ ks, k ∈ P.orphans ∧ k ∈ scs) → ∀ {s s' : State}, Inv P s →
    orphanLoop P.cfg α z ks s = .ok s' → metric P.cfg α scs s' ≤ metric P.cfg α scs s := by
  induction ks with
  | nil => intro _ _ s s' _ h; cases h; exact le_refl _
  | cons k ks ih =>
    intro hα hk s s' hs h
    have ha := hα (by simp)
    unfold orphanLoop at h
    cases hi : iterateOrphan P.cfg α z k s with
    | throw => rw [hi] at h; cases h
    | ub => rw [hi] at h; cases h
    | ok s1 =>
      rw [hi, Res.bind_ok] at h
      have a := orphan_metric hc scs hS α ha z (hk k (by simp)).2 hs hi
      have b := ih (fun _ => ha) (fun k hk' => hk k (by simp [hk'])) (orphan_inv hP (hk k (by simp)).1 hs hi) h
      linarith

/-- C43: a call of `Iterate` never increases the global metric of any set of space charges that contains the ones it updates and
is closed under the couplings; if there are orphans, for `alpha < 2`. -/
theorem C43_iterate (P : Problem) (hP : P.Valid) (hc : P.cfg.Symmetric) (scs : List Nat) (hS : Closed P.cfg P.N scs)
    (hin : ∀ c ∈ P.cwires, ∀ k ∈ c.2, k ∈ scs) (hor : ∀ k ∈ P.orphans, k ∈ scs) (α : ℚ) (hα : P.orphans ≠ [] → α < 2) (z : Signs)
    (s s' : State) (hs : Reach P s) (h : iterateAll P.cfg α z (P.cwires.map (·.2)) P.orphans s = some (.ok s')) :
    metric P.cfg α scs s' ≤ metric P.cfg α scs s := by
  have i := reach_inv hP hs
  unfold iterateAll at h
  by_cases he : P.cwires.map (·.2) ≠ []
  · rw [if_pos he] at h
    have hlen : 0 < P.cwires.length := by
      have := List.length_pos_iff.2 he; rwa [List.length_map] at this
    rcases visit_inv hP α z ((P.cwires.map (·.2)).length + 1) 0 s i hlen with hv | ⟨s1, hv, i1⟩
    · rw [hv] at h; cases h
    · have m1 := visit_metric hP hc scs hS α z hin _ 0 s s1 i hlen hv
      rw [hv] at h
      simp only [Option.some.injEq] at h
      have := orphans_metric hP hc scs hS α z P.orphans hα (fun k hk => ⟨hk, hor k hk⟩) i1 h
      linarith
  · rw [if_neg he] at h
    simp only [Option.some.injEq] at h
    exact orphans_metric hP hc scs hS α z P.orphans hα (fun k hk => ⟨hk, hor k hk⟩) i h

/-! ## C44 -/

/-- iterate the collection wires with the given numbers, one after the other -/
def runWires (cfg : Cfg) (α : ℚ) (z : Signs) (cwires : List (List Nat)) : List Nat → State → Res State
  | [], s => .ok s
  | i :: is, s => (iterateWire cfg α z (cwires.getD i []) s).bind (runWires cfg α z cwires is)

theorem visit_run (cfg : Cfg) (α : ℚ) (z : Signs) (cwires : List (List Nat)) (M : Nat) (hM : cwires.length ∣ M * 1299827)
    (hmin : ∀ k, 0 < k → k < M → ¬ cwires.length ∣ k * 1299827) (n : Nat) :
    ∀ k, k + n + 1 = M → ∀ fuel, n < fuel → ∀ s,
      visitLoop cfg α z cwires fuel (k * 1299827 % cwires.length) s =
        some (runWires cfg α z cwires ((List.range' k (n + 1)).map (fun k => k * 1299827 % cwires.length)) s) := by
  induction n with
  | zero =>
    intro k hk fuel hf s
    obtain ⟨fuel, rfl⟩ : ∃ f, fuel = f + 1 := ⟨fuel - 1, by omega⟩
    unfold visitLoop
    simp only [List.range'_one, List.map_cons, List.map_nil, runWires, zero_add]
    have hz : (k * 1299827 % cwires.length + 1299827) % cwires.length = 0 := by
      rw [Nat.mod_add_mod, ← Nat.succ_mul]
      exact Nat.mod_eq_zero_of_dvd (by rw [show k.succ = M by omega]; exact hM)
    cases iterateWire cfg α z (cwires.getD (k * 1299827 % cwires.length) []) s with
    | ok s' => simp [hz, Res.bind, runWires]
    | throw => simp [Res.bind]
    | ub => simp [Res.bind]
  | succ n ih =>
    intro k hk fuel hf s
    obtain ⟨fuel, rfl⟩ : ∃ f, fuel = f + 1 := ⟨fuel - 1, by omega⟩
    unfold visitLoop
    rw [List.range'_succ]
    simp only [List.map_cons, runWires]
    have he : (k * 1299827 % cwires.length + 1299827) % cwires.length = (k + 1) * 1299827 % cwires.length := by
      rw [Nat.mod_add_mod, ← Nat.succ_mul]
    have hz : (k + 1) * 1299827 % cwires.length ≠ 0 := fun h => hmin (k + 1) (by omega) (by omega) (Nat.dvd_of_mod_eq_zero h)
    cases iterateWire cfg α z (cwires.getD (k * 1299827 % cwires.length) []) s with
    | ok s' =>
      simp only [he, if_pos hz, Res.bind]
      exact ih (k + 1) (by omega) fuel (by omega) s'
    | throw => simp [Res.bind]
    | ub => simp [Res.bind]

theorem iterateAll_run (cfg : Cfg) (α : ℚ) (z : Signs) (cwires : List (List Nat)) (orphans : List Nat) (s : State) (hne : cwires ≠ [])
    (M : Nat) (hpos : 0 < M) (hle : M ≤ cwires.length) (hM : cwires.length ∣ M * 1299827)
    (hmin : ∀ k, 0 < k → k < M → ¬ cwires.length ∣ k * 1299827) :
    iterateAll cfg α z cwires orphans s = some ((runWires cfg α z cwires
      ((List.range M).map (fun k => k * 1299827 % cwires.length)) s).bind (orphanLoop cfg α z orphans)) := by
  unfold iterateAll
  rw [if_pos hne]
  have h := visit_run cfg α z cwires M hM hmin (M - 1) 0 (by omega) (cwires.length + 1) (by omega) s
  rw [show 0 * 1299827 % cwires.length = 0 by simp, show M - 1 + 1 = M by omega, ← List.range_eq_range'] at h
  rw [h]
  cases runWires cfg α z cwires ((List.range M).map (fun k => k * 1299827 % cwires.length)) s with
  | ok s' => rfl
  | throw => rfl
  | ub => rfl

theorem prime_stride : Nat.Prime 1299827 := by norm_num

/-- C44: if the number of collection wires is no multiple of 1299827, a call of `Iterate` terminates, visits every collection
wire exactly once and then the orphans in order. -/
theorem C44_each_once_partial (cfg : Cfg) (α : ℚ) (z : Signs) (cwires : List (List Nat)) (orphans : List Nat) (s : State)
    (hp : cwires = [] ∨ ¬ 1299827 ∣ cwires.length) :
    ∃ order : List Nat, order.Perm (List.range cwires.length) ∧
      iterateAll cfg α z cwires orphans s = some ((runWires cfg α z cwires order s).bind (orphanLoop cfg α z orphans)) := by
  by_cases hne : cwires = []
  · subst hne
    exact ⟨[], by simp, by unfold iterateAll; simp [runWires, Res.bind]⟩
  · have hp := hp.resolve_left hne
    have hpos : 0 < cwires.length := List.length_pos_iff.2 hne
    have hco : Nat.Coprime cwires.length 1299827 := (Nat.Coprime.symm ((Nat.Prime.coprime_iff_not_dvd prime_stride).2 hp))
    have hdvd : ∀ k, cwires.length ∣ k * 1299827 → cwires.length ∣ k := fun k h => hco.dvd_of_dvd_mul_right h
    refine ⟨(List.range cwires.length).map (fun k => k * 1299827 % cwires.length), ?_,
      iterateAll_run cfg α z cwires orphans s hne cwires.length hpos (le_refl _) (Nat.dvd_mul_right _ _)
        (fun k h1 h2 h3 => absurd (Nat.le_of_dvd h1 (hdvd k h3)) (by omega))⟩
    have hnd : ((List.range cwires.length).map (fun k => k * 1299827 % cwires.length)).Nodup := by
      rw [List.nodup_map_iff_inj_on List.nodup_range]
      intro a ha b hb hab
      rw [List.mem_range] at ha hb
      have h : Nat.ModEq cwires.length a b := Nat.ModEq.cancel_right_of_coprime hco hab
      rw [Nat.ModEq, Nat.mod_eq_of_lt ha, Nat.mod_eq_of_lt hb] at h
      exact h
    refine (List.subperm_of_subset hnd ?_).perm_of_length_le (by simp)
    intro x hx
    rw [List.mem_map] at hx
    obtain ⟨k, _, rfl⟩ := hx
    exact List.mem_range.2 (Nat.mod_lt _ hpos)

/-- C44 fails for a multiple of 1299827: only the wires whose number is a multiple of 1299827 are visited. -/
theorem C44_refuted (cfg : Cfg) (α : ℚ) (z : Signs) (cwires : List (List Nat)) (orphans : List Nat) (s : State) (m : Nat) (hm : 0 < m)
    (hlen : cwires.length = m * 1299827) :
    iterateAll cfg α z cwires orphans s =
      some ((runWires cfg α z cwires ((List.range m).map (fun k => k * 1299827)) s).bind (orphanLoop cfg α z orphans)) := by
  have hne : cwires ≠ [] := by rintro rfl; simp at hlen; omega
  rw [iterateAll_run cfg α z cwires orphans s hne m hm (by omega) (by rw [hlen]) (fun k h1 h2 h3 => by
    rw [hlen] at h3
    have := Nat.le_of_dvd h1 (Nat.dvd_of_mul_dvd_mul_right (by norm_num) h3)
    omega)]
  have : (List.range m).map (fun k => k * 1299827 % cwires.length) = (List.range m).map (fun k => k * 1299827) := by
    apply List.map_congr_left
    intro k hk
    rw [List.mem_range] at hk
    exact Nat.mod_eq_of_lt (by omega)
  rw [this]

/-! ## C69 -/

/-- C69: arithmetic of quadratic expressions agrees with arithmetic of their values. -/
theorem C69_eval (e f : Quad) (v x : ℚ) :
    (e.add f).eval x = e.eval x + f.eval x ∧ (e.sub f).eval x = e.eval x - f.eval x ∧ (Quad.const v).eval x = v ∧ Quad.X.eval x = x ∧
    ∀ r, e.mul f = .ok r → r.eval x = e.eval x * f.eval x :=
  ⟨Quad.eval_add e f x, Quad.eval_sub e f x, Quad.eval_const v x, Quad.eval_X x, fun _ h => Quad.eval_mul h x⟩

/-- C69: multiplication aborts exactly when no quadratic expression has the product as its values. -/
theorem C69_abort_iff (e f : Quad) : e.mul f = .throw ↔ ¬ ∃ r : Quad, ∀ x, r.eval x = e.eval x * f.eval x := by
  constructor
  · rintro h ⟨r, hr⟩
    unfold Quad.mul at h
    by_cases hcnd : (e.b ≠ 0 ∧ f.a ≠ 0) ∨ (e.a ≠ 0 ∧ f.b ≠ 0) ∨ (e.a ≠ 0 ∧ f.a ≠ 0)
    · have p0 := hr 0
      have p1 := hr 1
      have p2 := hr (-1)
      have p3 := hr 2
      have p4 := hr (-2)
      simp only [Quad.eval] at p0 p1 p2 p3 p4
      have q4 : e.a * f.a = 0 := by linear_combination (p1 + p2) / 6 - (p3 + p4) / 24 - p0 / 4
      have q3 : e.a * f.b + e.b * f.a = 0 := by linear_combination (p1 - p2) / 6 - (p3 - p4) / 12
      rcases hcnd with ⟨h1, h2⟩ | ⟨h1, h2⟩ | ⟨h1, h2⟩
      · have : e.a = 0 := (mul_eq_zero.1 q4).resolve_right h2
        rw [this, zero_mul, zero_add] at q3
        exact (mul_ne_zero h1 h2) q3
      · have : f.a = 0 := (mul_eq_zero.1 q4).resolve_left h1
        rw [this, mul_zero, add_zero] at q3
        exact (mul_ne_zero h1 h2) q3
      · exact (mul_ne_zero h1 h2) q4
    · rw [if_neg hcnd] at h; cases h
  · intro h
    unfold Quad.mul
    by_cases hcnd : (e.b ≠ 0 ∧ f.a ≠ 0) ∨ (e.a ≠ 0 ∧ f.b ≠ 0) ∨ (e.a ≠ 0 ∧ f.a ≠ 0)
    · rw [if_pos hcnd]
    · exfalso
      cases hm : e.mul f with
      | ok r => exact h ⟨r, fun x => Quad.eval_mul hm x⟩
      | throw => unfold Quad.mul at hm; rw [if_neg hcnd] at hm; cases hm
      | ub => unfold Quad.mul at hm; rw [if_neg hcnd] at hm; cases hm

example : (Quad.X.mul Quad.X) = .ok ⟨1, 0, 0⟩ ∧ (⟨1, 0, 0⟩ : Quad).mul Quad.X = .throw := by
  constructor <;> decide +kernel

/-! ## A concrete problem meeting all hypotheses

Three space charges: 0 and 1 on the collection wire (charge 10), 2 an orphan; 0 and 1 are neighbours. -/

def exCfg : Cfg where
  w1 := fun k => if k = 0 then some 0 else if k = 1 then some 1 else if k = 2 then some 1 else none
  w2 := fun k => if k < 3 then some 2 else none
  nei := fun k => if k = 0 then [(1, 1/2)] else if k = 1 then [(0, 1/2)] else []
  q := fun w => if w = 0 then 8 else if w = 1 then 3 else 11

def exP : Problem := ⟨exCfg, 3, [(10, [0, 1])], [2]⟩

example : exP.Valid := by
  refine ⟨?_, ?_, ?_, ?_, ?_, ?_⟩
  · intro c hc; simp only [exP, List.mem_singleton] at hc; subst hc; norm_num
  · intro c hc; simp only [exP, List.mem_singleton] at hc; subst hc; simp
  · intro c hc; simp only [exP, List.mem_singleton] at hc; subst hc; simp [exP]
  · simp [exP]
  · simp [exP]
  · intro c hc; simp only [exP, List.mem_singleton] at hc; subst hc; simp [exP]

theorem ex_coup (j k : Nat) : coup exCfg j k = if (j = 0 ∧ k = 1) ∨ (j = 1 ∧ k = 0) then 1/2 else 0 := by
  unfold coup exCfg
  by_cases h0 : j = 0
  · subst h0
    by_cases hk : k = 1
    · subst hk; simp
    · have : ¬ (1 = k) := fun h => hk h.symm
      simp [hk, this]
  · by_cases h1 : j = 1
    · subst h1
      by_cases hk : k = 0
      · subst hk; simp
      · have : ¬ (0 = k) := fun h => hk h.symm
        simp [hk, this]
    · simp [h0, h1]

theorem ex_symm : exCfg.Symmetric := by
  refine ⟨fun j k => ?_, fun k => ?_, fun k => ?_, fun i j w h => ?_⟩
  · rw [ex_coup, ex_coup]; congr 1; simp only [eq_iff_iff]; tauto
  · rw [ex_coup, if_neg (by omega)]
  · by_cases h0 : k = 0
    · simp [exCfg, h0]
    · by_cases h1 : k = 1
      · simp [exCfg, h1]
      · simp [exCfg, h0, h1]
  · simp only [exCfg] at h ⊢
    have : w ≠ 2 := by
      rintro rfl
      revert h
      by_cases h0 : i = 0 <;> by_cases h1 : i = 1 <;> by_cases h2 : i = 2 <;> simp [h0, h1, h2]
    by_cases hj : j < 3
    · simpa [hj] using Ne.symm this
    · simp [hj]

example : Closed exCfg 3 [0, 1, 2] := by
  refine ⟨by simp, by simp, fun j k _ hc => ?_⟩
  rw [ex_coup] at hc
  by_contra hj
  apply hc
  rw [if_neg]
  rintro (⟨rfl, -⟩ | ⟨rfl, -⟩) <;> simp at hj

/-- the metric strictly decreases when the example is built and iterated once -/
def exRun : Option (ℚ × ℚ × ℚ × ℚ × Bool) :=
  match exP.build exP.cwires State.zero with
  | .ok s =>
    match iterateAll exCfg (1/20) (fun _ _ _ => false) [[0, 1]] [2] s with
    | some (.ok s') => some (s'.pred 0, s'.pred 1, s'.pred 2, s'.wpred 2, decide (metric exCfg (1/20) [0, 1, 2] s' < metric exCfg (1/20) [0, 1, 2] s))
    | _ => none
  | _ => none

example : (match exRun with
    | some (a, b, c, w, d) => decide (a + b = 10) && decide (0 ≤ a) && decide (0 ≤ b) && decide (0 ≤ c) && decide (w = a + b + c) && d
    | none => false) = true := by decide +kernel

end Verif.Solver

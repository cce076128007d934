import Verif.Hit.Rff
/-!
# The RFF hit fitter: lemmas
-/
namespace Verif.Rff
open Verif Verif.GaussElim

/-! ### the estimates -/

theorem insertUB_perm (p : ℚ × ℚ) (l : List (ℚ × ℚ)) : (insertUB p l).Perm (p :: l) := by
  induction l with
  | nil => exact List.Perm.refl _
  | cons q l ih =>
    rw [insertUB]
    split
    · exact List.Perm.refl _
    · exact (ih.cons q).trans (List.Perm.swap ..)

theorem insertUB_sorted (p : ℚ × ℚ) {l : List (ℚ × ℚ)} (h : l.Pairwise fun a b => a.1 ≤ b.1) :
    (insertUB p l).Pairwise fun a b => a.1 ≤ b.1 := by
  induction l with
  | nil => simp [insertUB]
  | cons q l ih =>
    rw [List.pairwise_cons] at h
    rw [insertUB]
    split
    · next hlt =>
      rw [List.pairwise_cons]
      refine ⟨?_, List.pairwise_cons.2 h⟩
      intro r hr
      rcases List.mem_cons.1 hr with rfl | hr
      · exact hlt.le
      · exact hlt.le.trans (h.1 r hr)
    · next hge =>
      rw [List.pairwise_cons]
      refine ⟨?_, ih h.2⟩
      intro r hr
      rcases List.mem_cons.1 ((insertUB_perm p l).mem_iff.1 hr) with rfl | hr
      · exact not_lt.1 hge
      · exact h.1 r hr

/-- the slope used at tick `i`: against the tick before, at tick 1 against 0 -/
def slopeAt (s : List ℚ) (i : Nat) : ℚ := dev s i - if i = 1 then 0 else dev s (i - 1)

theorem estLoop_spec (sq : ℚ → ℚ) (s : List ℚ) (n : Nat) : ∀ (a : Nat) (prev : ℚ) (set : List (ℚ × ℚ)), 1 ≤ a →
    prev = (if a = 1 then 0 else dev s (a - 1)) → (set.Pairwise fun p q => p.1 ≤ q.1) →
    (estLoop sq s (List.range' a n) prev set).Perm
      (set ++ ((List.range' a n).filter (fun i => decide (slopeAt s i < 0))).map fun i => estimate sq s (slopeAt s i) i) ∧
    (estLoop sq s (List.range' a n) prev set).Pairwise fun p q => p.1 ≤ q.1 := by
  induction n with
  | zero => intro a prev set _ _ h; exact ⟨by simp [estLoop], by simpa [estLoop] using h⟩
  | succ n ih =>
    intro a prev set ha hp hs
    have hsl : dev s a - prev = slopeAt s a := by rw [hp]; rfl
    rw [List.range'_succ, estLoop, hsl]
    have hn : dev s a = if a + 1 = 1 then 0 else dev s (a + 1 - 1) := by
      rw [if_neg (by omega)]; rfl
    split
    · next h =>
      obtain ⟨h1, h2⟩ := ih (a + 1) (dev s a) set (by omega) hn hs
      refine ⟨?_, h2⟩
      rw [List.filter_cons_of_neg (by simpa using h)]
      exact h1
    · next h =>
      obtain ⟨h1, h2⟩ := ih (a + 1) (dev s a) _ (by omega) hn (insertUB_sorted _ hs)
      refine ⟨?_, h2⟩
      rw [List.filter_cons_of_pos (by simpa using h)]
      refine h1.trans ?_
      rw [List.map_cons]
      refine ((insertUB_perm _ _).append_right _).trans ?_
      rw [List.cons_append]
      exact List.perm_middle.symm

/-! ### the groups -/

/-- `gs` cuts `l` into non-empty pieces exactly where neighbouring means differ by more than `m` -/
structure Grouped (m : ℚ) (l : List (ℚ × ℚ)) (gs : List (List (ℚ × ℚ))) : Prop where
  join : gs.flatten = l
  ne : ∀ g ∈ gs, g ≠ []
  near : ∀ g ∈ gs, g.IsChain fun a b => |b.1 - a.1| ≤ m
  far : gs.IsChain fun g h => ∀ a ∈ g.getLast?, ∀ b ∈ h.head?, m < |b.1 - a.1|

theorem grouped_snoc_new {m : ℚ} {l : List (ℚ × ℚ)} {gs : List (List (ℚ × ℚ))} (h : Grouped m l gs) (p : ℚ × ℚ)
    (hp : ∀ a ∈ l.getLast?, m < |p.1 - a.1|) : Grouped m (l ++ [p]) (gs ++ [[p]]) := by
  refine ⟨by simp [h.join], ?_, ?_, ?_⟩
  · intro g hg
    rcases List.mem_append.1 hg with hg | hg
    · exact h.ne g hg
    · simp only [List.mem_singleton] at hg
      rw [hg]; simp
  · intro g hg
    rcases List.mem_append.1 hg with hg | hg
    · exact h.near g hg
    · simp only [List.mem_singleton] at hg
      rw [hg]; simp
  · rw [List.isChain_append]
    refine ⟨h.far, by simp, ?_⟩
    intro g hg g' hg' a ha b hb
    simp only [List.head?_cons, Option.mem_some_iff] at hg'
    subst hg'
    simp only [List.head?_cons, Option.mem_some_iff] at hb
    subst hb
    apply hp
    rw [← h.join]
    obtain ⟨pre, rfl⟩ := List.getLast?_eq_some_iff.1 hg
    obtain ⟨pre', rfl⟩ := List.getLast?_eq_some_iff.1 ha
    simp

theorem grouped_snoc_old {m : ℚ} {l : List (ℚ × ℚ)} {gs : List (List (ℚ × ℚ))} (h : Grouped m l gs) (p : ℚ × ℚ)
    (hne : gs ≠ []) (hp : ∀ a ∈ l.getLast?, |p.1 - a.1| ≤ m) :
    Grouped m (l ++ [p]) (gs.modify (gs.length - 1) (· ++ [p])) := by
  obtain ⟨pre, g, rfl⟩ : ∃ pre g, gs = pre ++ [g] := ⟨gs.dropLast, gs.getLast hne, (List.dropLast_append_getLast hne).symm⟩
  have hm : (pre ++ [g]).modify ((pre ++ [g]).length - 1) (· ++ [p]) = pre ++ [g ++ [p]] := by
    rw [List.modify_eq_set_getElem?]
    simp
  rw [hm]
  have hg : g ≠ [] := h.ne g (by simp)
  obtain ⟨g0, a, rfl⟩ : ∃ g0 a, g = g0 ++ [a] := ⟨g.dropLast, g.getLast hg, (List.dropLast_append_getLast hg).symm⟩
  have hla : l.getLast? = some a := by rw [← h.join]; simp
  refine ⟨by rw [← h.join]; simp, ?_, ?_, ?_⟩
  · intro x hx
    rcases List.mem_append.1 hx with hx | hx
    · exact h.ne x (by simp [hx])
    · simp only [List.mem_singleton] at hx
      rw [hx]; simp
  · intro x hx
    rcases List.mem_append.1 hx with hx | hx
    · exact h.near x (by simp [hx])
    · simp only [List.mem_singleton] at hx
      rw [hx, List.isChain_append]
      refine ⟨h.near _ (by simp), by simp, ?_⟩
      intro b hb c hc
      simp only [List.getLast?_append, List.getLast?_singleton, Option.some_or, Option.mem_some_iff] at hb
      simp only [List.head?_cons, Option.mem_some_iff] at hc
      subst hb hc
      exact hp _ (by simp [hla])
  · have hf := h.far
    rw [List.isChain_append] at hf ⊢
    refine ⟨hf.1, by simp, ?_⟩
    intro x hx y hy
    simp only [List.head?_cons, Option.mem_some_iff] at hy
    subst hy
    intro b hb c hc
    refine hf.2.2 x hx (g0 ++ [a]) (by simp) b hb c ?_
    cases g0 with
    | nil => simpa using hc
    | cons d g0 => simpa using hc

theorem mergeLoop_spec (m : ℚ) (l : List (ℚ × ℚ)) : ∀ (done : List (ℚ × ℚ)) (prev : ℚ) (gs : List (List (ℚ × ℚ))),
    Grouped m done gs → (∀ a ∈ done.getLast?, a.1 = prev) → Grouped m (done ++ l) (mergeLoop m l prev gs) := by
  induction l with
  | nil => intro done prev gs h _; simpa [mergeLoop] using h
  | cons p l ih =>
    intro done prev gs h hprev
    rw [mergeLoop]
    have e : done ++ p :: l = (done ++ [p]) ++ l := by simp
    rw [e]
    split
    · next hc =>
      refine ih _ _ _ (grouped_snoc_new h p ?_) (by simp)
      intro a ha
      rcases hc with hc | hc
      · rw [hprev a ha]; exact hc
      · subst hc
        have := h.join
        simp only [List.flatten_nil] at this
        rw [← this] at ha
        simp at ha
    · next hc =>
      simp only [not_or, not_lt] at hc
      refine ih _ _ _ (grouped_snoc_old h p hc.2 ?_) (by simp)
      intro a ha
      rw [hprev a ha]; exact hc.1

/-! ### merging -/

/-- a group that gives a hit in a signal of `n` ticks -/
def Kept (k n : Nat) (g : List (ℚ × ℚ)) : Prop :=
  k ≤ g.length ∧ 0 ≤ avg (g.map (·.1)) ∧ avg (g.map (·.1)) ≤ n - 1

instance (k n : Nat) (g : List (ℚ × ℚ)) : Decidable (Kept k n g) := by unfold Kept; infer_instance

theorem mergedLoop_spec (sq : ℚ → ℚ) (n : Nat) (gs : List (List (ℚ × ℚ))) : ∀ f : Fitter,
    mergedLoop sq n f gs =
      { f with
        mean := f.mean ++ (gs.filter (Kept f.minMult n ·)).map fun g => avg (g.map (·.1))
        sigma := f.sigma ++ (gs.filter (Kept f.minMult n ·)).map fun g => avg (g.map (·.2))
        meanErr := f.meanErr ++ (gs.filter (Kept f.minMult n ·)).map fun g => spread sq (g.map (·.1))
        sigmaErr := f.sigmaErr ++ (gs.filter (Kept f.minMult n ·)).map fun g => spread sq (g.map (·.2)) } := by
  induction gs with
  | nil => intro f; simp [mergedLoop]
  | cons g gs ih =>
    intro f
    rw [mergedLoop]
    split
    · next h =>
      have : ¬ Kept f.minMult n g := by unfold Kept; omega
      rw [ih, List.filter_cons_of_neg (by simpa using this)]
    · next h =>
      split
      · next h2 =>
        have : ¬ Kept f.minMult n g := by
          unfold Kept
          rintro ⟨-, a, b⟩
          rcases h2 with h2 | h2 <;> linarith
        rw [ih, List.filter_cons_of_neg (by simpa using this)]
      · next h2 =>
        have : Kept f.minMult n g := by
          simp only [not_or, not_lt] at h2
          exact ⟨by omega, h2.1, h2.2⟩
        rw [ih, List.filter_cons_of_pos (by simpa using this)]
        simp

/-! ### heights -/

theorem height_ok {s : List ℚ} {m : ℚ} (h0 : 0 ≤ m) (h1 : m < s.length - 1) :
    ∃ b : Nat, (b : ℚ) ≤ m ∧ m < b + 1 ∧ b + 1 < s.length ∧
      height s m = .ok (s.getD b 0 - (m - b) * (s.getD b 0 - s.getD (b + 1) 0)) := by
  have hf0 : 0 ≤ ⌊m⌋ := Int.floor_nonneg.2 h0
  have hb : ((⌊m⌋.toNat : ℕ) : ℚ) = (⌊m⌋ : ℚ) := by
    have : ((⌊m⌋.toNat : ℕ) : ℤ) = ⌊m⌋ := Int.toNat_of_nonneg hf0
    exact_mod_cast this
  have h2 : (⌊m⌋.toNat : ℚ) ≤ m := by rw [hb]; exact Int.floor_le m
  have h3 : m < (⌊m⌋.toNat : ℚ) + 1 := by rw [hb]; exact Int.lt_floor_add_one m
  have h4 : ⌊m⌋.toNat + 1 < s.length := by
    have : ((⌊m⌋.toNat + 1 : ℕ) : ℚ) < s.length := by push_cast; linarith
    exact_mod_cast this
  refine ⟨⌊m⌋.toNat, h2, h3, h4, ?_⟩
  have he : binOf s.length m = ⌊m⌋.toNat := by
    unfold binOf
    rw [if_neg (not_lt.2 h0), if_neg (by linarith)]
  unfold height
  rw [he, if_neg (by omega)]

theorem height_last {s : List ℚ} (hs : s ≠ []) : height s (s.length - 1 : ℚ) = .throw := by
  have hl : 1 ≤ s.length := List.length_pos_iff.2 hs
  have hc : (s.length : ℚ) - 1 = ((s.length - 1 : ℕ) : ℚ) := by push_cast [Nat.cast_sub hl]; ring
  have he : binOf s.length ((s.length - 1 : ℕ) : ℚ) = s.length - 1 := by
    unfold binOf
    rw [if_neg (not_lt.2 (Nat.cast_nonneg _)), if_neg (by rw [← hc]; linarith)]
    simp
  unfold height
  rw [hc, he, if_pos (le_refl _)]

theorem heights_ok {s : List ℚ} {l : List ℚ} (h : ∀ m ∈ l, 0 ≤ m ∧ m < s.length - 1) :
    ∃ hs, heights s l = .ok hs ∧ hs.length = l.length ∧ ∀ (i : Nat) (m : ℚ), l[i]? = some m →
      ∃ v, hs[i]? = some v ∧ height s m = .ok v := by
  induction l with
  | nil => exact ⟨[], rfl, rfl, by simp⟩
  | cons m l ih =>
    obtain ⟨b, -, -, -, hv⟩ := height_ok (h m (by simp)).1 (h m (by simp)).2
    obtain ⟨hs, h1, h2, h3⟩ := ih fun m hm => h m (List.mem_cons_of_mem _ hm)
    refine ⟨_ :: hs, by rw [heights, hv, Res.bind, h1, Res.bind], by simp [h2], ?_⟩
    intro i x hi
    cases i with
    | zero =>
      simp only [List.getElem?_cons_zero, Option.some.injEq] at hi
      subst hi
      exact ⟨_, rfl, hv⟩
    | succ i => exact h3 i x (by simpa using hi)

theorem heights_throw {s : List ℚ} (hs : s ≠ []) {l : List ℚ} (h : ∀ m ∈ l, 0 ≤ m ∧ m ≤ s.length - 1)
    (hm : (s.length - 1 : ℚ) ∈ l) : heights s l = .throw := by
  induction l with
  | nil => simp at hm
  | cons m l ih =>
    rw [heights]
    rcases eq_or_lt_of_le (h m (by simp)).2 with he | hlt
    · rw [he, height_last hs]; rfl
    · obtain ⟨b, -, -, -, hv⟩ := height_ok (h m (by simp)).1 hlt
      rcases List.mem_cons.1 hm with he | hm
      · rw [he] at hlt; exact absurd hlt (lt_irrefl _)
      · rw [hv, Res.bind, ih (fun x hx => h x (List.mem_cons_of_mem _ hx)) hm]; rfl

/-! ### dropping -/

/-- the vectors of `f` and the heights are the entries of `f0`, `hs0` at the places `idx` -/
structure At (f0 : Fitter) (hs0 : List ℚ) (idx : List Nat) (f : Fitter) (hs : List ℚ) : Prop where
  mean : f.mean = idx.map (f0.mean.getD · 0)
  sigma : f.sigma = idx.map (f0.sigma.getD · 0)
  meanErr : f.meanErr = idx.map (f0.meanErr.getD · 0)
  sigmaErr : f.sigmaErr = idx.map (f0.sigmaErr.getD · 0)
  hs : hs = idx.map (hs0.getD · 0)
  len : f.amp.length = idx.length
  rest : f = { f0 with mean := f.mean, sigma := f.sigma, meanErr := f.meanErr, sigmaErr := f.sigmaErr, amp := f.amp }

theorem eraseIdx_map' {α β : Type} (g : α → β) (l : List α) (i : Nat) : (l.map g).eraseIdx i = (l.eraseIdx i).map g := by
  rw [List.eraseIdx_map]

theorem eraseLoop_spec (f0 : Fitter) (hs0 : List ℚ) (k : Nat) : ∀ (i : Nat) (f : Fitter) (hs : List ℚ) (idx : List Nat),
    At f0 hs0 idx f hs →
    ∃ f' hs' idx', eraseLoop k i f hs = .ok (f', hs') ∧ At f0 hs0 idx' f' hs' ∧ idx'.Sublist idx ∧
      ((∃ j, i ≤ j ∧ j < i + k ∧ ∃ a, f.amp[j]? = some a ∧ a < f.thr) → idx'.length < idx.length) := by
  induction k with
  | zero =>
    intro i f hs idx h
    exact ⟨f, hs, idx, rfl, h, List.Sublist.refl _, by rintro ⟨j, h1, h2, _⟩; omega⟩
  | succ k ih =>
    intro i f hs idx h
    rw [eraseLoop]
    cases ha : f.amp[i]? with
    | none =>
      refine ⟨f, hs, idx, rfl, h, List.Sublist.refl _, ?_⟩
      rintro ⟨j, h1, h2, a, h3, h4⟩
      have : f.amp.length ≤ i := List.getElem?_eq_none_iff.1 ha
      have : j < f.amp.length := (List.getElem?_eq_some_iff.1 h3).1
      omega
    | some a =>
      have hi : i < f.amp.length := (List.getElem?_eq_some_iff.1 ha).1
      have hi' : i < idx.length := by rw [← h.len]; exact hi
      simp only
      split
      · next hlt =>
        have hE : eraseAt f hs i = .ok ({ f with
            mean := f.mean.eraseIdx i
            meanErr := f.meanErr.eraseIdx i
            sigma := f.sigma.eraseIdx i
            sigmaErr := f.sigmaErr.eraseIdx i
            amp := f.amp.eraseIdx i }, hs.eraseIdx i) := by
          unfold eraseAt
          rw [if_pos]
          rw [h.mean, h.meanErr, h.sigma, h.sigmaErr, h.hs]
          simp only [List.length_map]
          exact ⟨hi', hi', hi', hi', hi, hi'⟩
        rw [hE]
        obtain ⟨f', hs', idx', h1, h2, h3, h4⟩ := ih (i + 1) { f with
            mean := f.mean.eraseIdx i
            meanErr := f.meanErr.eraseIdx i
            sigma := f.sigma.eraseIdx i
            sigmaErr := f.sigmaErr.eraseIdx i
            amp := f.amp.eraseIdx i } (hs.eraseIdx i) (idx.eraseIdx i) (by
          refine ⟨?_, ?_, ?_, ?_, ?_, ?_, ?_⟩
          · show f.mean.eraseIdx i = _; rw [h.mean, eraseIdx_map']
          · show f.sigma.eraseIdx i = _; rw [h.sigma, eraseIdx_map']
          · show f.meanErr.eraseIdx i = _; rw [h.meanErr, eraseIdx_map']
          · show f.sigmaErr.eraseIdx i = _; rw [h.sigmaErr, eraseIdx_map']
          · rw [h.hs, eraseIdx_map']
          · show (f.amp.eraseIdx i).length = _
            rw [List.length_eraseIdx_of_lt hi, List.length_eraseIdx_of_lt hi', h.len]
          · rw [h.rest])
        refine ⟨f', hs', idx', h1, h2, h3.trans (List.eraseIdx_sublist ..), ?_⟩
        intro _
        have := h3.length_le
        rw [List.length_eraseIdx_of_lt hi'] at this
        omega
      · next hge =>
        obtain ⟨f', hs', idx', h1, h2, h3, h4⟩ := ih (i + 1) f hs idx h
        refine ⟨f', hs', idx', h1, h2, h3, ?_⟩
        rintro ⟨j, g1, g2, b, g3, g4⟩
        apply h4
        rcases Nat.eq_or_lt_of_le g1 with rfl | hlt
        · rw [ha] at g3
          cases g3
          exact absurd g4 hge
        · exact ⟨j, hlt, by omega, b, g3, g4⟩

theorem dropLoop_spec (eps : ℚ) (dist : ℚ → ℚ) (old : Nat → ℚ) (f0 : Fitter) (hs0 : List ℚ) (k : Nat) :
    ∀ (f : Fitter) (hs : List ℚ) (idx : List Nat), At f0 hs0 idx f hs → idx.length < k →
    solveEquations eps dist f.mean f.sigma hs old = .ok f.amp →
    ∃ f' hs' idx', dropLoop (fun m s h => solveEquations eps dist m s h old) k f hs = some (.ok f') ∧
      At f0 hs0 idx' f' hs' ∧ idx'.Sublist idx ∧ (∀ a ∈ f'.amp, f'.thr ≤ a) ∧
      solveEquations eps dist f'.mean f'.sigma hs' old = .ok f'.amp := by
  induction k with
  | zero => intro f hs idx _ h; omega
  | succ k ih =>
    intro f hs idx h hk hsol
    rw [dropLoop]
    split
    · next hb =>
      rw [List.any_eq_true] at hb
      obtain ⟨a, ha, hlt⟩ := hb
      obtain ⟨j, hj, rfl⟩ := List.mem_iff_getElem.1 ha
      obtain ⟨f1, hs1, idx1, h1, h2, h3, h4⟩ := eraseLoop_spec f0 hs0 f.amp.length 0 f hs idx h
      have hless := h4 ⟨j, Nat.zero_le _, by omega, _, List.getElem?_eq_getElem hj, by simpa using hlt⟩
      rw [h1]
      simp only
      have hl : f1.mean.length = idx1.length ∧ f1.sigma.length = idx1.length ∧ hs1.length = idx1.length := by
        rw [h2.mean, h2.sigma, h2.hs]; simp
      have hso : ∃ a, solveEquations eps dist f1.mean f1.sigma hs1 old = .ok a ∧ a.length = idx1.length := by
        unfold solveEquations
        rw [if_neg (by omega)]
        exact ⟨_, rfl, by simp [hl.1]⟩
      obtain ⟨a, ha1, ha2⟩ := hso
      rw [ha1]
      simp only
      obtain ⟨f', hs', idx', g1, g2, g3, g4, g5⟩ := ih { f1 with amp := a } hs1 idx1
        ⟨h2.mean, h2.sigma, h2.meanErr, h2.sigmaErr, h2.hs, ha2, by rw [h2.rest]⟩ (by omega) ha1
      exact ⟨f', hs', idx', g1, g2, g3.trans h3, g4, g5⟩
    · next hb =>
      refine ⟨f, hs, idx, rfl, h, List.Sublist.refl _, ?_, hsol⟩
      intro a ha
      by_contra hc
      apply hb
      rw [List.any_eq_true]
      exact ⟨a, ha, by simpa using hc⟩

/-! ### averages -/

theorem sum_le_of_le (l : List ℚ) (B : ℚ) (h : ∀ x ∈ l, x ≤ B) : l.sum ≤ l.length * B := by
  induction l with
  | nil => simp
  | cons x l ih =>
    have h1 := h x (by simp)
    have h2 := ih fun y hy => h y (List.mem_cons_of_mem _ hy)
    simp only [List.sum_cons, List.length_cons]
    push_cast
    linarith

theorem avg_le {l : List ℚ} (hl : l ≠ []) {B : ℚ} (h : ∀ x ∈ l, x ≤ B) : avg l ≤ B := by
  unfold avg
  have hp : (0 : ℚ) < l.length := by exact_mod_cast List.length_pos_iff.2 hl
  rw [div_le_iff₀ hp]
  linarith [sum_le_of_le l B h]

theorem sum_neg' (l : List ℚ) : (l.map fun x => -x).sum = -l.sum := by
  induction l with
  | nil => simp
  | cons x l ih => simp only [List.map_cons, List.sum_cons, ih]; ring

theorem le_avg {l : List ℚ} (hl : l ≠ []) {B : ℚ} (h : ∀ x ∈ l, B ≤ x) : B ≤ avg l := by
  have h1 : avg (l.map fun x => -x) ≤ -B := avg_le (by simpa using hl) (by
    intro x hx
    obtain ⟨y, hy, rfl⟩ := List.mem_map.1 hx
    linarith [h y hy])
  unfold avg at h1 ⊢
  rw [sum_neg', List.length_map, neg_div] at h1
  linarith

end Verif.Rff

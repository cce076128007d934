import Verif.Basic
import Mathlib.Algebra.BigOperators.Group.Finset.Basic
import Mathlib.Algebra.BigOperators.Intervals
import Mathlib.Data.List.Nodup
/-!
# `hit::GausFitCache`, `CompiledGausFitCache`, `CompiledTruncatedGausFitCache` (C23)

Source: `/repo/larreco/RecoAlg/GausFitCache.{h,cxx}`. A `TF1*` is an address in a store of function objects. A function
object is described by its number of parameters and its value as a function of the variable and the parameters.
Values live in any commutative additive monoid `R`; the base function `g x a b c` (Gaussian or truncated Gaussian with
parameters `a b c`) is arbitrary. Trusted: ROOT reads the formula term `gaus(k)` as the Gaussian of parameters
`k, k+1, k+2` and counts the parameters up to the largest one used.
-/
namespace Verif.GausFit
open Verif

/-- a ROOT function object -/
structure TF1 (X R : Type) where
  nparams : Nat
  eval : X → (Nat → R) → R

section
variable {X R : Type} [AddCommMonoid R] (g : X → R → R → R → R)

/-- base function applied to the parameters from `params + k` on, GausFitCache.cxx:92-95 / GausFitCache.h:338-345 -/
def base (x : X) (p : Nat → R) (k : Nat) : R := g x (p k) (p (k + 1)) (p (k + 2))

/-- the loop writing the formula, GausFitCache.cxx:71-74: offsets `3*iGaus` of the terms after the first -/
def formulaLoop (nFunc : Nat) : Nat → Nat → List Nat
  | 0, _ => []
  | fuel + 1, i => if i < nFunc then (i * 3) :: formulaLoop nFunc fuel (i + 1) else []

/-- formula of `CreateFunction`, GausFitCache.cxx:62-78, as the list of `gaus(k)` offsets ("0" has none) -/
def formula (nFunc : Nat) : List Nat := if nFunc = 0 then [] else 0 :: formulaLoop nFunc nFunc 1

/-- the text handed to ROOT -/
def formulaText (nFunc : Nat) : String :=
  if nFunc = 0 then "0" else " + ".intercalate ((formula nFunc).map (fun k => s!"gaus({k})"))

/-- ROOT's reading of such a formula (trusted) -/
def interp (offs : List Nat) : TF1 X R where
  nparams := (offs.map (· + 3)).foldl max 0
  eval x p := (offs.map (base g x p)).sum

/-- `ngaus<N>`, GausFitCache.h:188-192 and 347-352 -/
def ngaus : Nat → X → (Nat → R) → R
  | 0, _, _ => 0
  | n + 1, x, p => base g x p 0 + ngaus n x (fun i => p (i + 3))

/-- `FuncSum<N, Func, 3>::eval`, GausFitCache.h:299-313 -/
def funcSum : Nat → X → (Nat → R) → R
  | 0, _, _ => 0
  | n + 1, x, p => base g x p (3 * (n + 1 - 1)) + funcSum n x p

/-- which of the three classes -/
inductive Kind where
  | formula
  | compiled (maxGaus : Nat)
  | truncated (maxGaus : Nat)

/-- `funcs` (GausFitCache.h:77) and the functions allocated so far -/
structure Cache (X R : Type) where
  funcs : List (Option Nat)
  store : List (TF1 X R)

/-- `funcs.push_back(new TF1(…))` -/
def push (c : Cache X R) (f : TF1 X R) : Cache X R :=
  { funcs := c.funcs ++ [some c.store.length], store := c.store ++ [f] }

/-- `InitializeCompiledGausFitVector<N>`, GausFitCache.h:317-336 -/
def initCompiled : Nat → Cache X R → Cache X R
  | 0, c => push c { nparams := 3 * 0, eval := ngaus g 0 }
  | n + 1, c => push (initCompiled n c) { nparams := 3 * (n + 1), eval := ngaus g (n + 1) }

/-- `InitializeFuncSumVector<N>::fill`, GausFitCache.h:356-374; `NParams`, GausFitCache.h:126 and 133 -/
def initFuncSum : Nat → Cache X R → Cache X R
  | 0, c => push c { nparams := 0, eval := funcSum g 0 }
  | n + 1, c => push (initFuncSum n c) { nparams := (n + 1) * 3, eval := funcSum g (n + 1) }

/-- constructors, GausFitCache.h:48, 246-250, 280-284 -/
def mk : Kind → Cache X R
  | .formula => { funcs := [], store := [] }
  | .compiled m => initCompiled g m { funcs := [], store := [] }
  | .truncated m => initFuncSum g m { funcs := [], store := [] }

/-- virtual `CreateFunction`: GausFitCache.cxx:62-78, or throwing (GausFitCache.h:259, 293) -/
def create (k : Kind) (n : Nat) : Exec (Cache X R) Nat :=
  match k with
  | .formula => fun c => (.ok c.store.length, { c with store := c.store ++ [interp g (formula n)] })
  | _ => Exec.raise

/-- `Get`, GausFitCache.cxx:43-55 -/
def get (k : Kind) (n : Nat) : Exec (Cache X R) Nat := fun c =>
  let c := if n ≥ c.funcs.length then
      { c with funcs := c.funcs ++ List.replicate (n + 1 - c.funcs.length) none } else c
  match c.funcs[n]? with
  | some (some p) => (.ok p, c)
  | some none =>
    match create g k n c with
    | (.ok p, c) => (.ok p, { c with funcs := c.funcs.set n (some p) })
    | (.throw, c) => (.throw, c)
    | (.ub, c) => (.ub, c)
  | none => (.ub, c)

/-- a sequence of requests and their outcomes; a throwing request leaves the cache to the next ones -/
def requests (k : Kind) : List Nat → Cache X R → List (Res Nat) × Cache X R
  | [], c => ([], c)
  | n :: ns, c =>
    let (r, c1) := get g k n c
    let (rs, c2) := requests k ns c1
    (r :: rs, c2)

/-! ## Specification -/

/-- a request is one the cache can serve -/
def Served : Kind → Nat → Prop
  | .formula, _ => True
  | .compiled m, n => n ≤ m
  | .truncated m, n => n ≤ m

/-- the object is a sum of `n` base functions, the i-th using parameters `3i, 3i+1, 3i+2` -/
def IsSum (f : TF1 X R) (n : Nat) : Prop :=
  f.nparams = 3 * n ∧ ∀ x p, f.eval x p = ∑ i ∈ Finset.range n, g x (p (3 * i)) (p (3 * i + 1)) (p (3 * i + 2))

/-! ## Proofs -/

theorem formulaLoop_eq (n fuel i : Nat) (h : n ≤ i + fuel) :
    formulaLoop n fuel i = (List.range' i (n - i)).map (fun j => j * 3) := by
  induction fuel generalizing i with
  | zero => rw [show n - i = 0 by omega]; rfl
  | succ fuel ih =>
    unfold formulaLoop
    by_cases hi : i < n
    · rw [if_pos hi, ih (i + 1) (by omega), show n - i = (n - (i + 1)) + 1 by omega, List.range'_succ]
      rfl
    · rw [if_neg hi, show n - i = 0 by omega]; rfl

theorem formula_eq (n : Nat) : formula n = (List.range n).map (fun j => j * 3) := by
  unfold formula
  cases n with
  | zero => rfl
  | succ n =>
    rw [if_neg (by omega), formulaLoop_eq _ _ _ (by omega), List.range_eq_range', List.range'_succ]
    rfl

theorem foldl_max_range (n : Nat) : ((List.range n).map (fun j => j * 3 + 3)).foldl max 0 = 3 * n := by
  induction n with
  | zero => rfl
  | succ n ih =>
    rw [List.range_succ, List.map_append, List.foldl_append, ih]
    simp; omega

theorem interp_isSum (n : Nat) : IsSum g (interp g (formula n)) n := by
  constructor
  · rw [formula_eq]
    simp only [interp, List.map_map]
    exact foldl_max_range n
  · intro x p
    rw [formula_eq]
    simp only [interp, List.map_map]
    induction n with
    | zero => simp
    | succ n ih =>
      rw [List.range_succ, List.map_append, List.sum_append, ih, Finset.sum_range_succ]
      simp [base, Nat.mul_comm]

theorem ngaus_eq (n : Nat) (x : X) (p : Nat → R) :
    ngaus g n x p = ∑ i ∈ Finset.range n, g x (p (3 * i)) (p (3 * i + 1)) (p (3 * i + 2)) := by
  induction n generalizing p with
  | zero => rfl
  | succ n ih =>
    rw [ngaus, ih, Finset.sum_range_succ', add_comm]
    rfl

theorem funcSum_eq (n : Nat) (x : X) (p : Nat → R) :
    funcSum g n x p = ∑ i ∈ Finset.range n, g x (p (3 * i)) (p (3 * i + 1)) (p (3 * i + 2)) := by
  induction n with
  | zero => rfl
  | succ n ih =>
    rw [funcSum, ih, Finset.sum_range_succ, add_comm]
    rfl

/-- cache invariant -/
structure Inv (k : Kind) (c : Cache X R) : Prop where
  shape : ∀ n p : Nat, c.funcs[n]? = some (some p) → ∃ f, c.store[p]? = some f ∧ IsSum g f n
  inj : ∀ n m p : Nat, c.funcs[n]? = some (some p) → c.funcs[m]? = some (some p) → n = m
  have_ : ∀ n : Nat, (match k with | .formula => False | .compiled m => n ≤ m | .truncated m => n ≤ m) →
    ∃ p, c.funcs[n]? = some (some p)
  only : ∀ n p : Nat, c.funcs[n]? = some (some p) → Served k n

omit [AddCommMonoid R] in
theorem push_funcs (c : Cache X R) (f : TF1 X R) (n : Nat) :
    (push c f).funcs[n]? = if n = c.funcs.length then some (some c.store.length) else c.funcs[n]? := by
  simp only [push, List.getElem?_append]
  split
  · rename_i h; rw [if_neg (by omega)]
  · rename_i h
    by_cases hn : n = c.funcs.length
    · simp [hn]
    · rw [if_neg hn]
      rw [List.getElem?_eq_none (by simp; omega), List.getElem?_eq_none (by omega)]

theorem initCompiled_spec (m : Nat) :
    let c : Cache X R := initCompiled g m { funcs := [], store := [] }
    c.funcs = (List.range (m + 1)).map some ∧ c.store.length = m + 1 ∧
      ∀ n, n ≤ m → ∃ f, c.store[n]? = some f ∧ IsSum g f n := by
  induction m with
  | zero =>
    refine ⟨rfl, rfl, fun n hn => ?_⟩
    obtain rfl : n = 0 := by omega
    exact ⟨_, rfl, rfl, fun x p => ngaus_eq g 0 x p⟩
  | succ m ih =>
    obtain ⟨h1, h2, h3⟩ := ih
    refine ⟨?_, ?_, fun n hn => ?_⟩
    · simp only [initCompiled, push, h1, h2]
      rw [List.range_succ (n := m + 1)]
      simp
    · simp [initCompiled, push, h2]
    · simp only [initCompiled, push]
      by_cases hnm : n ≤ m
      · rw [List.getElem?_append_left (by omega)]; exact h3 n hnm
      · obtain rfl : n = m + 1 := by omega
        rw [List.getElem?_append_right (by omega), h2]
        exact ⟨_, by simp; rfl, rfl, fun x p => ngaus_eq g (m + 1) x p⟩

theorem initFuncSum_spec (m : Nat) :
    let c : Cache X R := initFuncSum g m { funcs := [], store := [] }
    c.funcs = (List.range (m + 1)).map some ∧ c.store.length = m + 1 ∧
      ∀ n, n ≤ m → ∃ f, c.store[n]? = some f ∧ IsSum g f n := by
  induction m with
  | zero =>
    refine ⟨rfl, rfl, fun n hn => ?_⟩
    obtain rfl : n = 0 := by omega
    exact ⟨_, rfl, rfl, fun x p => funcSum_eq g 0 x p⟩
  | succ m ih =>
    obtain ⟨h1, h2, h3⟩ := ih
    refine ⟨?_, ?_, fun n hn => ?_⟩
    · simp only [initFuncSum, push, h1, h2]
      rw [List.range_succ (n := m + 1)]
      simp
    · simp [initFuncSum, push, h2]
    · simp only [initFuncSum, push]
      by_cases hnm : n ≤ m
      · rw [List.getElem?_append_left (by omega)]; exact h3 n hnm
      · obtain rfl : n = m + 1 := by omega
        rw [List.getElem?_append_right (by omega), h2]
        exact ⟨_, by simp; rfl, Nat.mul_comm _ _, fun x p => funcSum_eq g (m + 1) x p⟩

theorem inv_prefilled {k : Kind} {m : Nat} {c : Cache X R} (h1 : c.funcs = (List.range (m + 1)).map some)
    (h3 : ∀ n, n ≤ m → ∃ f, c.store[n]? = some f ∧ IsSum g f n)
    (hk : ∀ n, Served k n ↔ n ≤ m)
    (hk' : ∀ n, (match k with | .formula => False | .compiled m => n ≤ m | .truncated m => n ≤ m) → n ≤ m) :
    Inv g k c := by
  have hf : ∀ n p : Nat, c.funcs[n]? = some (some p) ↔ n ≤ m ∧ p = n := by
    intro n p
    rw [h1, List.getElem?_map]
    by_cases hn : n < m + 1
    · rw [List.getElem?_range hn]
      simp
      constructor
      · rintro rfl; exact ⟨by omega, rfl⟩
      · rintro ⟨_, rfl⟩; rfl
    · rw [List.getElem?_eq_none (by simp; omega)]
      simp; omega
  constructor
  · intro n p h
    obtain ⟨a, rfl⟩ := (hf n p).1 h
    exact h3 p a
  · intro n n' p h h'
    rw [← ((hf n p).1 h).2, ← ((hf n' p).1 h').2]
  · intro n hn
    exact ⟨n, (hf n n).2 ⟨hk' n hn, rfl⟩⟩
  · intro n p h
    exact (hk n).2 ((hf n p).1 h).1

theorem inv_mk (k : Kind) : Inv g k (mk g k : Cache X R) := by
  cases k with
  | formula =>
    constructor <;> simp [mk]
  | compiled m =>
    obtain ⟨h1, _, h3⟩ := initCompiled_spec (X := X) g m
    exact inv_prefilled g h1 h3 (fun _ => Iff.rfl) (fun _ h => h)
  | truncated m =>
    obtain ⟨h1, _, h3⟩ := initFuncSum_spec (X := X) g m
    exact inv_prefilled g h1 h3 (fun _ => Iff.rfl) (fun _ h => h)

/-- after expanding the list -/
def grown (c : Cache X R) (n : Nat) : Cache X R :=
  if n ≥ c.funcs.length then { c with funcs := c.funcs ++ List.replicate (n + 1 - c.funcs.length) none } else c

omit [AddCommMonoid R] in
theorem grown_spec (c : Cache X R) (n : Nat) :
    (grown c n).store = c.store ∧ n < (grown c n).funcs.length ∧
    ∀ j p : Nat, (grown c n).funcs[j]? = some (some p) ↔ c.funcs[j]? = some (some p) := by
  unfold grown
  split
  · rename_i h
    refine ⟨rfl, by simp; omega, fun j p => ?_⟩
    dsimp only
    by_cases hj : j < c.funcs.length
    · rw [List.getElem?_append_left hj]
    · rw [List.getElem?_append_right (by omega), List.getElem?_replicate,
        List.getElem?_eq_none (l := c.funcs) (by omega)]
      split <;> simp
  · rename_i h
    exact ⟨rfl, by omega, fun _ _ => Iff.rfl⟩

/-- one request: outcome, and what stays valid -/
theorem get_spec {k : Kind} {c : Cache X R} (hi : Inv g k c) (n : Nat) :
    let r := get g k n c
    Inv g k r.2 ∧ (∀ j p : Nat, c.funcs[j]? = some (some p) → r.2.funcs[j]? = some (some p)) ∧
    (∃ new, r.2.store = c.store ++ new) ∧
    (Served k n → ∃ p, r.1 = .ok p ∧ r.2.funcs[n]? = some (some p)) ∧ (¬ Served k n → r.1 = .throw) := by
  obtain ⟨g1, g2, g3⟩ := grown_spec c n
  have hget : get g k n c = (match (grown c n).funcs[n]? with
      | some (some p) => (.ok p, grown c n)
      | some none =>
        match create g k n (grown c n) with
        | (.ok p, c) => (.ok p, { c with funcs := c.funcs.set n (some p) })
        | (.throw, c) => (.throw, c)
        | (.ub, c) => (.ub, c)
      | none => (.ub, grown c n)) := rfl
  rw [hget]
  have hgi : Inv g k (grown c n) := by
    constructor
    · intro j p h; rw [g1]; exact hi.shape j p ((g3 j p).1 h)
    · intro a b p h h'; exact hi.inj a b p ((g3 a p).1 h) ((g3 b p).1 h')
    · intro j hj; obtain ⟨p, hp⟩ := hi.have_ j hj; exact ⟨p, (g3 j p).2 hp⟩
    · intro j p h; exact hi.only j p ((g3 j p).1 h)
  generalize hc1 : grown c n = c1 at *
  obtain ⟨o, ho⟩ : ∃ o, c1.funcs[n]? = some o := ⟨_, List.getElem?_eq_getElem g2⟩
  rw [ho]
  cases o with
  | some p =>
    dsimp only
    exact ⟨hgi, fun j p h => (g3 j p).2 h, ⟨[], by simp [g1]⟩, fun _ => ⟨p, rfl, ho⟩,
      fun hns => absurd (hgi.only n p ho) hns⟩
  | none =>
    dsimp only
    have hcomp : ∀ m, (k = .compiled m ∨ k = .truncated m) →
        let r := (Exec.raise : Exec (Cache X R) Nat) c1
        (Inv g k r.2 ∧ (∀ j p : Nat, c.funcs[j]? = some (some p) → r.2.funcs[j]? = some (some p)) ∧
        (∃ new, r.2.store = c.store ++ new) ∧
        (Served k n → ∃ p, r.1 = .ok p ∧ r.2.funcs[n]? = some (some p)) ∧ (¬ Served k n → r.1 = .throw)) := by
      intro m hk
      have hns : ¬ Served k n := by
        intro hs
        obtain ⟨p, hp⟩ := hgi.have_ n (by rcases hk with rfl | rfl <;> exact hs)
        rw [ho] at hp
        simp at hp
      exact ⟨hgi, fun j p h => (g3 j p).2 h, ⟨[], by simp [Exec.raise, g1]⟩, fun hs => absurd hs hns, fun _ => rfl⟩
    cases k with
    | compiled m =>
      have e : create g (.compiled m) n c1 = (.throw, c1) := rfl
      rw [e]
      exact hcomp m (Or.inl rfl)
    | truncated m =>
      have e : create g (.truncated m) n c1 = (.throw, c1) := rfl
      rw [e]
      exact hcomp m (Or.inr rfl)
    | formula =>
      have e : create g .formula n c1 = (.ok c1.store.length, { c1 with store := c1.store ++ [interp g (formula n)] }) := rfl
      rw [e]
      clear hcomp hget e
      have hset : ∀ j p : Nat, (c1.funcs.set n (some c1.store.length))[j]? = some (some p) ↔
          (j = n ∧ p = c1.store.length) ∨ (j ≠ n ∧ c1.funcs[j]? = some (some p)) := by
        intro j p
        rw [List.getElem?_set]
        by_cases hj : n = j
        · subst hj
          simp [g2, eq_comm]
        · have hj' : ¬ j = n := fun e => hj e.symm
          simp [hj, hj']
      have hlt : ∀ j p : Nat, c1.funcs[j]? = some (some p) → p < c1.store.length := by
        intro j p h
        obtain ⟨f, hf, _⟩ := hgi.shape j p h
        exact (List.getElem?_eq_some_iff.1 hf).1
      let c2 : Cache X R := { funcs := c1.funcs.set n (some c1.store.length), store := c1.store ++ [interp g (formula n)] }
      show Inv g Kind.formula c2 ∧ (∀ j p : Nat, c.funcs[j]? = some (some p) → c2.funcs[j]? = some (some p)) ∧
        (∃ new, c2.store = c.store ++ new) ∧
        (Served .formula n → ∃ p, Res.ok c1.store.length = Res.ok p ∧ c2.funcs[n]? = some (some p)) ∧
        (¬ Served .formula n → (Res.ok c1.store.length : Res Nat) = .throw)
      have hstore : c2.store = c.store ++ [interp g (formula n)] := by rw [← g1]
      have hser : Served .formula n := trivial
      have hn2 : c2.funcs[n]? = some (some c1.store.length) := (hset n _).2 (Or.inl ⟨rfl, rfl⟩)
      refine ⟨⟨?_, ?_, ?_, ?_⟩, ?_, ⟨_, hstore⟩, fun _ => ⟨_, rfl, hn2⟩, fun h => absurd hser h⟩
      · intro j p h
        rcases (hset j p).1 h with ⟨rfl, rfl⟩ | ⟨_, h'⟩
        · have : (c1.store ++ [interp g (formula j)])[c1.store.length]? = some (interp g (formula j)) := by simp
          exact ⟨interp g (formula j), this, interp_isSum g j⟩
        · obtain ⟨f, hf, hs⟩ := hgi.shape j p h'
          refine ⟨f, ?_, hs⟩
          show (c1.store ++ [interp g (formula n)])[p]? = some f
          rw [List.getElem?_append_left (hlt j p h')]; exact hf
      · intro a b p h h'
        rcases (hset a p).1 h with ⟨rfl, hp'⟩ | ⟨_, h1⟩ <;> rcases (hset b p).1 h' with ⟨rfl, hp⟩ | ⟨_, h2⟩
        · rfl
        · have := hlt b p h2; omega
        · have := hlt a p h1; omega
        · exact hgi.inj a b p h1 h2
      · intro j hj; exact hj.elim
      · intro j p _; exact (trivial : Served .formula j)
      · intro j p h
        have h' := (g3 j p).2 h
        refine (hset j p).2 (Or.inr ⟨?_, h'⟩)
        rintro rfl
        rw [ho] at h'
        simp at h'

theorem requests_spec {k : Kind} (ns : List Nat) {c : Cache X R} (hi : Inv g k c) :
    let r := requests g k ns c
    Inv g k r.2 ∧ (∀ j p : Nat, c.funcs[j]? = some (some p) → r.2.funcs[j]? = some (some p)) ∧
    r.1.length = ns.length ∧
    ∀ i n : Nat, ns[i]? = some n → (Served k n → ∃ p, r.1[i]? = some (.ok p) ∧ r.2.funcs[n]? = some (some p)) ∧
      (¬ Served k n → r.1[i]? = some .throw) := by
  induction ns generalizing c with
  | nil => exact ⟨hi, fun _ _ h => h, rfl, by simp⟩
  | cons n ns ih =>
    obtain ⟨a1, a2, _, a4, a5⟩ := get_spec g hi n
    obtain ⟨b1, b2, b3, b4⟩ := ih a1
    refine ⟨b1, fun j p h => b2 j p (a2 j p h), by simp [requests, b3], ?_⟩
    intro i m hm
    cases i with
    | zero =>
      simp at hm
      subst hm
      refine ⟨fun hs => ?_, fun hs => ?_⟩
      · obtain ⟨p, e1, e2⟩ := a4 hs
        exact ⟨p, by simp [requests, e1], b2 _ _ e2⟩
      · simp [requests, a5 hs]
    | succ i =>
      simp at hm
      obtain ⟨c1, c2⟩ := b4 i m hm
      refine ⟨fun hs => ?_, fun hs => ?_⟩
      · obtain ⟨p, e1, e2⟩ := c1 hs
        exact ⟨p, by simpa [requests] using e1, e2⟩
      · simpa [requests] using c2 hs

/-- **C23.** For every kind of cache and every sequence of requests to a new cache: the i-th request succeeds exactly
when the cache serves that number of addends (always, or up to `MaxGaus`), whatever was requested or rejected before;
two successful requests get the same object exactly when they asked for the same number; and the object obtained for
`n` is the sum of `n` base functions with parameters `3i..3i+2`. -/
theorem C23_requests (k : Kind) (ns : List Nat) :
    let r := requests g k ns (mk g k : Cache X R)
    r.1.length = ns.length ∧
    (∀ i n : Nat, ns[i]? = some n → (¬ Served k n → r.1[i]? = some .throw) ∧
      (Served k n → ∃ p f, r.1[i]? = some (.ok p) ∧ r.2.store[p]? = some f ∧ IsSum g f n)) ∧
    (∀ i j n m p q : Nat, ns[i]? = some n → ns[j]? = some m → r.1[i]? = some (.ok p) → r.1[j]? = some (.ok q) →
      (p = q ↔ n = m)) := by
  obtain ⟨h1, _, h3, h4⟩ := requests_spec g ns (inv_mk g k : Inv g k (mk g k : Cache X R))
  have hfun : ∀ i n p : Nat, ns[i]? = some n → (requests g k ns (mk g k : Cache X R)).1[i]? = some (.ok p) →
      (requests g k ns (mk g k : Cache X R)).2.funcs[n]? = some (some p) := by
    intro i n p hn hp
    by_cases hs : Served k n
    · obtain ⟨q, e1, e2⟩ := (h4 i n hn).1 hs
      rw [e1] at hp
      cases hp
      exact e2
    · rw [(h4 i n hn).2 hs] at hp; simp at hp
  refine ⟨h3, fun i n hn => ⟨(h4 i n hn).2, fun hs => ?_⟩, ?_⟩
  · obtain ⟨p, e1, e2⟩ := (h4 i n hn).1 hs
    obtain ⟨f, f1, f2⟩ := h1.shape n p e2
    exact ⟨p, f, e1, f1, f2⟩
  · intro i j n m p q hn hm hp hq
    have a := hfun i n p hn hp
    have b := hfun j m q hm hq
    constructor
    · rintro rfl; exact h1.inj n m p a b
    · rintro rfl
      rw [a] at b
      simpa using b

/-- **C23 (destructor).** The pointers the destructor deletes (GausFitCache.cxx:37-40) are pairwise different, so no
function is deleted twice. -/
theorem C23_no_double_delete (k : Kind) (ns : List Nat) :
    ((requests g k ns (mk g k : Cache X R)).2.funcs.filterMap id).Nodup := by
  obtain ⟨h1, _⟩ := requests_spec g ns (inv_mk g k : Inv g k (mk g k : Cache X R))
  generalize (requests g k ns (mk g k : Cache X R)).2 = c at h1
  have hinj := h1.inj
  generalize c.funcs = l at hinj
  clear h1
  induction l with
  | nil => simp
  | cons a l ih =>
    have ih' := ih (fun n m p h h' => by
      have := hinj (n + 1) (m + 1) p (by simpa using h) (by simpa using h')
      omega)
    cases a with
    | none => simpa using ih'
    | some p =>
      show (p :: l.filterMap id).Nodup
      rw [List.nodup_cons]
      refine ⟨fun hm => ?_, ih'⟩
      obtain ⟨o, ho, hop⟩ := List.mem_filterMap.1 hm
      obtain ⟨i, hi, e⟩ := List.getElem_of_mem ho
      have hop : o = some p := hop
      have := hinj 0 (i + 1) p (by simp) (by
        rw [List.getElem?_cons_succ, List.getElem?_eq_getElem hi, e, hop])
      omega

end

/-! ## Witnesses -/

def demoG : Unit → Int → Int → Int → Int := fun _ a b c => a + 10 * b + 100 * c

example : (requests demoG .formula [2, 0, 2, 1] (mk demoG .formula)).1 = [.ok 0, .ok 1, .ok 0, .ok 2] := by decide
example : (requests demoG (.compiled 2) [2, 7, 2, 1] (mk demoG (.compiled 2))).1 = [.ok 2, .throw, .ok 2, .ok 1] := by
  decide
example : formulaText 3 = "gaus(0) + gaus(3) + gaus(6)" := by decide +kernel
example : Served (.truncated 4) 3 ∧ ¬ Served (.truncated 4) 5 := by simp [Served]

end Verif.GausFit

import Mathlib.Tactic.Ring
import Mathlib.Tactic.Linarith
/-!
# Shared conventions

`Res α` is the outcome of a modelled C++ call.
-/

namespace Verif

/-- Outcome of a C++ call: normal return, exception (also `abort`/`exit`), or undefined behaviour. -/
inductive Res (α : Type) where
  | ok (a : α)
  | throw
  | ub
deriving Repr, DecidableEq

namespace Res

def bind {α β : Type} : Res α → (α → Res β) → Res β
  | ok a, f => f a
  | throw, _ => throw
  | ub, _ => ub

instance : Monad Res where
  pure := ok
  bind := Res.bind

@[simp] theorem bind_ok {α β : Type} (a : α) (f : α → Res β) : (ok a >>= f) = f a := rfl
@[simp] theorem bind_throw {α β : Type} (f : α → Res β) : ((throw : Res α) >>= f) = throw := rfl
@[simp] theorem bind_ub {α β : Type} (f : α → Res β) : ((ub : Res α) >>= f) = ub := rfl
@[simp] theorem pure_eq {α : Type} (a : α) : (pure a : Res α) = ok a := rfl

def isOk {α : Type} : Res α → Bool
  | ok _ => true
  | _ => false

/-- value of a successful outcome, default otherwise -/
def getD {α : Type} (r : Res α) (d : α) : α :=
  match r with
  | ok a => a
  | _ => d

end Res
end Verif

namespace Verif

/-- A mutating C++ member function: from the object state to an outcome *and* the object state left
behind. When an exception is thrown the state left behind is whatever had been written before. -/
def Exec (σ α : Type) := σ → Res α × σ

namespace Exec
variable {σ α β : Type}

def pure (a : α) : Exec σ α := fun s => (.ok a, s)

def bind (m : Exec σ α) (f : α → Exec σ β) : Exec σ β := fun s =>
  match m s with
  | (.ok a, s') => f a s'
  | (.throw, s') => (.throw, s')
  | (.ub, s') => (.ub, s')

instance : Monad (Exec σ) where
  pure := Exec.pure
  bind := Exec.bind

theorem bind_of_ok {m : Exec σ α} {f : α → Exec σ β} {s s' : σ} {a : α} (h : m s = (.ok a, s')) :
    (m >>= f) s = f a s' := by
  show Exec.bind m f s = _
  simp [Exec.bind, h]

theorem bind_of_throw {m : Exec σ α} {f : α → Exec σ β} {s s' : σ} (h : m s = (.throw, s')) :
    (m >>= f) s = (.throw, s') := by
  show Exec.bind m f s = _
  simp [Exec.bind, h]

theorem bind_of_ub {m : Exec σ α} {f : α → Exec σ β} {s s' : σ} (h : m s = (.ub, s')) :
    (m >>= f) s = (.ub, s') := by
  show Exec.bind m f s = _
  simp [Exec.bind, h]

theorem pure_apply (a : α) (s : σ) : (Pure.pure a : Exec σ α) s = (.ok a, s) := rfl

/-- throw an exception, leaving the state as it is -/
def raise : Exec σ α := fun s => (.throw, s)
/-- undefined behaviour -/
def undef : Exec σ α := fun s => (.ub, s)
/-- read the object state -/
def get : Exec σ σ := fun s => (.ok s, s)
/-- mutate the object state -/
def modify (f : σ → σ) : Exec σ Unit := fun s => (.ok (), f s)

/-- Total-correctness triple: from every state satisfying `P`, `m` returns normally and `Q` holds of
the result and the state left behind. -/
def Triple (P : σ → Prop) (m : Exec σ α) (Q : α → σ → Prop) : Prop :=
  ∀ s, P s → ∃ a s', m s = (.ok a, s') ∧ Q a s'

theorem Triple.pure {P : σ → Prop} {Q : α → σ → Prop} {a : α} (h : ∀ s, P s → Q a s) :
    Triple P (Pure.pure a : Exec σ α) Q := fun s hs => ⟨a, s, rfl, h s hs⟩

theorem Triple.bind {P : σ → Prop} {m : Exec σ α} {R : α → σ → Prop} {f : α → Exec σ β}
    {Q : β → σ → Prop} (hm : Triple P m R) (hf : ∀ a, Triple (R a) (f a) Q) :
    Triple P (m >>= f) Q := by
  intro s hs
  obtain ⟨a, s', h1, h2⟩ := hm s hs
  obtain ⟨b, s'', h3, h4⟩ := hf a s' h2
  refine ⟨b, s'', ?_, h4⟩
  show Exec.bind m f s = _
  simp [Exec.bind, h1, h3]

theorem Triple.conseq {P P' : σ → Prop} {m : Exec σ α} {Q Q' : α → σ → Prop}
    (h : Triple P m Q) (hP : ∀ s, P' s → P s) (hQ : ∀ a s, Q a s → Q' a s) : Triple P' m Q' := by
  intro s hs
  obtain ⟨a, s', h1, h2⟩ := h s (hP s hs)
  exact ⟨a, s', h1, hQ _ _ h2⟩

/-- `for (i = start; count > 0; ++i, --count) body(i)` -/
def loop (body : Nat → Exec σ Unit) : Nat → Nat → Exec σ Unit
  | _, 0 => Pure.pure ()
  | i, n + 1 => do body i; loop body (i + 1) n

/-- `for (i = lo; i < hi; ++i) body(i)` -/
def forRange (lo hi : Nat) (body : Nat → Exec σ Unit) : Exec σ Unit := loop body lo (hi - lo)

theorem Triple.loop {I : Nat → σ → Prop} {body : Nat → Exec σ Unit} (i n : Nat)
    (h : ∀ k, i ≤ k → k < i + n → Triple (I k) (body k) (fun _ => I (k + 1))) :
    Triple (I i) (loop body i n) (fun _ => I (i + n)) := by
  induction n generalizing i with
  | zero => exact Triple.pure (fun s hs => by simpa using hs)
  | succ n ih =>
    refine Triple.bind (h i (Nat.le_refl _) (by omega)) (fun _ => ?_)
    have := ih (i + 1) (fun k h1 h2 => h k (by omega) (by omega))
    rwa [show i + 1 + n = i + (n + 1) by omega] at this

theorem Triple.forRange {I : Nat → σ → Prop} {body : Nat → Exec σ Unit} {lo hi : Nat} (hle : lo ≤ hi)
    (h : ∀ k, lo ≤ k → k < hi → Triple (I k) (body k) (fun _ => I (k + 1))) :
    Triple (I lo) (forRange lo hi body) (fun _ => I hi) := by
  have := Triple.loop (I := I) (body := body) lo (hi - lo) (fun k h1 h2 => h k h1 (by omega))
  rwa [show lo + (hi - lo) = hi by omega] at this

/-- iterate over a list in order (range-based for) -/
def forEach (l : List α) (body : α → Exec σ Unit) : Exec σ Unit :=
  match l with
  | [] => Pure.pure ()
  | x :: xs => do body x; forEach xs body

end Exec
end Verif

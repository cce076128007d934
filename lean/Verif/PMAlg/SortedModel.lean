import Verif.Basic
/-!
# Model of `pma::SortedObjectBase` / `pma::SortedBranchBase`
Source: `/repo/larreco/RecoAlg/PMAlg/SortedObjects.{h,cxx}`. Elements are identified by numbers; the heap
gives the members of every element. Log messages are dropped.
-/
namespace Verif.PMAlg
open Verif

/-- The members, SortedObjects.h:54-56, 98-99; `branch` is the dynamic type. -/
structure Elem where
  branch : Bool
  next : Option Nat := none
  vec : List Nat := []
  prev : Option Nat := none

abbrev Heap := Nat → Elem

/-- assign to members of element `i` -/
def upd (h : Heap) (i : Nat) (f : Elem → Elem) : Heap := fun j => if j = i then f (h j) else h j

/-- the elements shown by `NextCount()` / `Next(i)`, SortedObjects.h:43-51 and 86-95 -/
def nexts (e : Elem) : List Nat := if e.branch then e.vec else e.next.toList

/-- `SortedObjectBase::RemoveNext`, SortedObjects.cxx:45-60 -/
def removePlain (h : Heap) (x : Nat) (y : Option Nat) : Int × Heap :=
  match y with
  | none => (-1, h)
  | some y =>
    if (h x).next = some y then
      let h1 := if (h y).prev = some x then upd h y (fun e => { e with prev := none }) else h
      (0, upd h1 x (fun e => { e with next := none }))
    else (-1, h)

/-- `SortedBranchBase::RemoveNext`, SortedObjects.cxx:105-130 -/
def removeBranch (h : Heap) (x : Nat) (y : Option Nat) : Int × Heap :=
  match y with
  | none => (-1, h)
  | some y =>
    if y = x then (-1, h)
    else if y ∈ (h x).vec then
      if (h y).prev ≠ some x then (-1, h)
      else
        let h1 := upd h y (fun e => { e with prev := none })
        let idx := (h1 x).vec.idxOf y
        let v := (h1 x).vec.eraseIdx idx
        (idx, upd h1 x (fun e => { e with vec := v, next := v.getLast? }))
    else (-1, h)

/-- virtual `RemoveNext` -/
def removeNext (h : Heap) (x : Nat) (y : Option Nat) : Int × Heap :=
  if (h x).branch then removeBranch h x y else removePlain h x y

/-- `SortedObjectBase::AddNext`, SortedObjects.cxx:31-43 -/
def addPlain (h : Heap) (x : Nat) (y : Option Nat) : Bool × Heap :=
  match y with
  | none => (false, h)
  | some y =>
    if y = x then (false, h)
    else
      let h1 := match (h x).next with
        | some z => if (h z).prev = some x then upd h z (fun e => { e with prev := none }) else h
        | none => h
      let h2 := match (h1 y).prev with
        | some p => if p ≠ x then (removeNext h1 p (some y)).2 else h1
        | none => h1
      let h3 := upd h2 x (fun e => { e with next := some y })
      (true, upd h3 y (fun e => { e with prev := some x }))

/-- `SortedBranchBase::AddNext`, SortedObjects.cxx:71-103 -/
def addBranch (h : Heap) (x : Nat) (y : Option Nat) : Bool × Heap :=
  match y with
  | none => (false, h)
  | some y =>
    if y = x then (false, h)
    else if y ∈ (h x).vec then (false, h)
    else
      let h1 := match (h y).prev with
        | some p => (removeNext h p (some y)).2
        | none => h
      let h2 := upd h1 x (fun e => { e with next := some y })
      let h3 := upd h2 y (fun e => { e with prev := some x })
      (true, upd h3 x (fun e => { e with vec := e.vec ++ [y] }))

/-- virtual `AddNext` -/
def addNext (h : Heap) (x : Nat) (y : Option Nat) : Bool × Heap :=
  if (h x).branch then addBranch h x y else addPlain h x y

/-- `while (next_vector.size()) RemoveNext(next_vector.front())`, SortedObjects.cxx:66-67; `none` = budget
exhausted -/
def removeAll (x : Nat) : Nat → Heap → Option Heap
  | 0, h => if (h x).vec = [] then some h else none
  | fuel + 1, h =>
    match (h x).vec with
    | [] => some h
    | y :: _ => removeAll x fuel (removeNext h x (some y)).2

/-- virtual `Disconnect`: SortedObjects.cxx:25-29 (plain) and 64-69 (branch) -/
def disconnect (fuel : Nat) (h : Heap) (x : Nat) : Option Heap :=
  if (h x).branch then
    match removeAll x fuel h with
    | none => none
    | some h1 =>
      match (h1 x).prev with
      | some p => some (removeNext h1 p (some x)).2
      | none => some h1
  else
    let h1 := match (h x).prev with
      | some p => (removeNext h p (some x)).2
      | none => h
    some (match (h1 x).next with
      | some y => (removeNext h1 x (some y)).2
      | none => h1)

/-- the base-class `Disconnect`, SortedObjects.cxx:25-29, which `~SortedObjectBase` (SortedObjects.h:32) runs on
every element, after `~SortedBranchBase` (SortedObjects.h:77) has run the branch version -/
def disconnectPlain (h : Heap) (x : Nat) : Heap :=
  let h1 := match (h x).prev with
    | some p => (removeNext h p (some x)).2
    | none => h
  match (h1 x).next with
  | some y => (removePlain h1 x (some y)).2
  | none => h1

/-- destructor -/
def destroy (fuel : Nat) (h : Heap) (x : Nat) : Option Heap :=
  if (h x).branch then (disconnect fuel h x).map (fun h1 => disconnectPlain h1 x)
  else some (disconnectPlain h x)

/-- Constructors with neighbours on a new element `x`, SortedObjects.cxx:17-23 and SortedObjects.h:69-73: the base
constructor calls the previous element's (virtual) `AddNext` and then its own *base-class* `AddNext`; the
branch constructor then fills its vector (it pushes `next`, which the base `AddNext` has just set; passing the new
object to its own constructor, which would push a null pointer, is excluded by the callers below). -/
def construct (h : Heap) (x : Nat) (p n : Option Nat) : Heap :=
  let h1 := match p with
    | some p => (addNext h p (some x)).2
    | none => h
  let h2 := match n with
    | some n => (addPlain h1 x (some n)).2
    | none => h1
  if (h x).branch then
    match n with
    | some _ => upd h2 x (fun e => { e with vec := e.vec ++ e.next.toList })
    | none => h2
  else h2

/-- a heap of unconnected elements; `kind i` tells which are branching -/
def emptyHeap (kind : Nat → Bool) : Heap := fun i => { branch := kind i }

end Verif.PMAlg

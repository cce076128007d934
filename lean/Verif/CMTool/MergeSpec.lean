import Verif.CMTool.MergeModel
import Mathlib.Logic.Relation
/-!
# Specification vocabulary for `CMergeBookKeeper`
Independent of how labels and the prohibition table are stored.
-/
namespace Verif.CMTool
open Verif

/-- Connected by a chain of pairs of `M` (in either direction). -/
def Conn (M : List (Nat × Nat)) : Nat → Nat → Prop := Relation.EqvGen (fun a b => (a, b) ∈ M)

/-- A prohibition of `P` relates the `M`-group of `i` to the `M`-group of `j`. -/
def Barred (M P : List (Nat × Nat)) (i j : Nat) : Prop :=
  ∃ p ∈ P, (Conn M p.1 i ∧ Conn M p.2 j) ∨ (Conn M p.1 j ∧ Conn M p.2 i)

/-- `gs` is a partition of `{0..n-1}` into non-empty strictly ascending groups, ordered by smallest
member. -/
structure OrderedPartition (n : Nat) (gs : List (List Nat)) : Prop where
  nonempty : ∀ g ∈ gs, g ≠ []
  ascending : ∀ g ∈ gs, g.Pairwise (· < ·)
  inRange : ∀ g ∈ gs, ∀ i ∈ g, i < n
  covers : ∀ i, i < n → ∃ g ∈ gs, i ∈ g
  disjoint : gs.Pairwise (fun g h => ∀ i ∈ g, i ∉ h)
  ordered : gs.Pairwise (fun g h => ∀ x ∈ g.head?, ∀ y ∈ h.head?, x < y)

namespace BK

/-- `Merge` calls issued one after the other, stopping at the first that throws. -/
def mergeAll (reqs : List (Nat × Nat)) : Exec BK Unit :=
  Exec.forEach reqs (fun p => merge p.1 p.2)

/-- the requests of `reqs` that were accepted when issued in this way (latest first) -/
def accepted : List (Nat × Nat) → BK → List (Nat × Nat)
  | [], _ => []
  | p :: ps, s =>
    match merge p.1 p.2 s with
    | (.ok _, s') => accepted ps s' ++ [p]
    | _ => []

/-- The `Merge` requests that `Combine` issues for own groups `gs` and the other's groups `hs`. -/
def combineRequests (gs hs : List (List Nat)) : List (Nat × Nat) :=
  hs.flatMap (fun h =>
    if h.length = 1 then [] else
      let t := ((gs[h.headD 0]?).getD []).headD 0
      h.flatMap (fun r => (((gs[r]?).getD []).filter (fun o => t ≠ o)).map (fun o => (t, o))))

/-- Merges accepted during a `Combine(another)` call. -/
def combineAccepted (another s : BK) : List (Nat × Nat) :=
  match s.getResult, another.getResult with
  | .ok gs, .ok hs =>
    if gs.length ≠ another.labels.length ∨ hs.length ≥ gs.length then []
    else accepted (combineRequests gs hs) s
  | _, _ => []

/-- The book keepers reachable from `Reset(n)`, with the accepted `Merge` requests `M` (those issued
by `Combine` included) and the accepted `ProhibitMerge` requests `P`. Calls that throw are part of
histories: the history goes on from whatever state they leave behind. -/
inductive Reach : Nat → BK → List (Nat × Nat) → List (Nat × Nat) → Prop
  | reset (n : Nat) : Reach n (reset n) [] []
  | merge {n s M P} (i j : Nat) : Reach n s M P →
      Reach n (merge i j s).2 (if (merge i j s).1.isOk then (i, j) :: M else M) P
  | prohibit {n s M P} (i j : Nat) : Reach n s M P →
      Reach n (prohibitMerge i j s).2 M (if (prohibitMerge i j s).1.isOk then (i, j) :: P else P)
  | combine {n s M P} {m b M' P'} : Reach n s M P → Reach m b M' P' →
      Reach n (combine b s).2 (combineAccepted b s ++ M) P

end BK
end Verif.CMTool

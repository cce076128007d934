import Verif.PMAlg.SortedProofs
/-!
# C17, C18: links between PMA track elements

Observables: `Prev()` is `(h x).prev`; `Next(0..NextCount()-1)` is `nexts (h x)`.
-/
namespace Verif.PMAlg
open Verif

theorem emptyHeap_inv (kind : Nat → Bool) : Inv (emptyHeap kind) := by
  constructor
  · intro x y; cases hk : kind x <;> simp [emptyHeap, nexts, hk]
  · intro x; cases hk : kind x <;> simp [emptyHeap, nexts, hk]
  · intro x; simp [emptyHeap]
  · intro x _; simp [emptyHeap]
  · intro x _; simp [emptyHeap]

theorem addNext_inv {h : Heap} (hi : Inv h) (x : Nat) (y : Option Nat) : Inv (addNext h x y).2 := by
  cases y with
  | none => rw [addNext_refused x none (Or.inl rfl)]; exact hi
  | some y =>
    by_cases h1 : y = x
    · rw [addNext_refused x _ (Or.inr (Or.inl (by rw [h1])))]; exact hi
    · by_cases h2 : (h x).branch = true ∧ y ∈ nexts (h x)
      · rw [addNext_refused x _ (Or.inr (Or.inr ⟨h2.1, y, h2.2, rfl⟩))]; exact hi
      · exact (addNext_effect hi x y h1 (fun hb hm => h2 ⟨hb, hm⟩)).2.2.1

theorem removeNext_none (h : Heap) (x : Nat) : removeNext h x none = (-1, h) := by
  unfold removeNext; split <;> rfl

theorem removeNext_inv {h : Heap} (hi : Inv h) (x : Nat) (y : Option Nat) : Inv (removeNext h x y).2 := by
  cases y with
  | none => rw [removeNext_none]; exact hi
  | some y =>
    obtain ⟨_, h2, h3⟩ := removeNext_effect hi x y
    by_cases hm : y ∈ nexts (h x)
    · exact (h2 hm).2.2.2
    · rw [h3 hm]; exact hi

theorem Inv.next_of_last {h : Heap} (hi : Inv h) {x : Nat} (hn : nexts (h x) = []) : (h x).next = none := by
  by_cases hb : (h x).branch = true
  · rw [hi.last x hb, ← nexts_branch hb, hn]; rfl
  · have hb' : (h x).branch = false := by simpa using hb
    rw [nexts_plain hb'] at hn
    cases hc : (h x).next with
    | none => rfl
    | some z => rw [hc] at hn; simp at hn

/-- on a fresh element the constructor's way of linking is the same as the virtual `AddNext` -/
theorem addPlain_push {h : Heap} (hi : Inv h) {x n : Nat} (hb : (h x).branch = true) (hn : nexts (h x) = []) (hne : n ≠ x) :
    upd (addPlain h x (some n)).2 x (fun e => { e with vec := e.vec ++ e.next.toList }) =
      (addNext h x (some n)).2 := by
  have hnx := hi.next_of_last hn
  have hv : (h x).vec = [] := by rw [← nexts_branch hb]; exact hn
  have hpn : (h n).prev ≠ some x := by
    intro e; have := (hi.link x n).2 e; rw [hn] at this; simp at this
  have hxn : x ≠ n := fun e => hne e.symm
  simp only [addNext, if_pos hb, addBranch, addPlain, if_neg hne, hv, List.not_mem_nil, if_false, hnx]
  have key : ∀ g : Heap, upd (upd (upd g x fun e => { e with next := some n }) n fun e => { e with prev := some x }) x
        (fun e => { e with vec := e.vec ++ e.next.toList }) =
      upd (upd (upd g x fun e => { e with next := some n }) n fun e => { e with prev := some x }) x
        (fun e => { e with vec := e.vec ++ [n] }) := by
    intro g
    funext z
    by_cases hz : z = x
    · subst hz
      rw [upd_same, upd_same, upd_ne _ _ hxn, upd_same]
      rfl
    · rw [upd_ne _ _ hz, upd_ne _ _ hz]
  cases hc : (h n).prev with
  | none => exact key _
  | some p =>
    have hpx : p ≠ x := by rintro rfl; exact hpn hc
    simp only [ne_eq, hpx, not_false_eq_true, if_true]
    exact key _

/-- the constructor with neighbours is `p.AddNext(x)` followed by `x.AddNext(n)` -/
theorem construct_eq {h : Heap} (hi : Inv h) {x : Nat} (hn : nexts (h x) = []) (p n : Option Nat)
    (hp : p ≠ some x) (hnx : n ≠ some x) :
    construct h x p n =
      (let h1 := match p with
        | some p => (addNext h p (some x)).2
        | none => h
      match n with
      | some n => (addNext h1 x (some n)).2
      | none => h1) := by
  unfold construct
  have hk : ∀ q, q ≠ x → SameKind h (addNext h q (some x)).2 ∧ nexts ((addNext h q (some x)).2 x) = [] := by
    intro q hq
    have hxq : x ≠ q := fun e => hq e.symm
    by_cases h2 : (h q).branch = true ∧ x ∈ nexts (h q)
    · rw [addNext_refused q _ (Or.inr (Or.inr ⟨h2.1, x, h2.2, rfl⟩))]
      exact ⟨fun _ => rfl, hn⟩
    · obtain ⟨_, a2, _, _, a5⟩ := addNext_effect hi q x hxq (fun hb hm => h2 ⟨hb, hm⟩)
      refine ⟨a2, ?_⟩
      rw [a5, if_neg hxq, hn]
      rfl
  cases p with
  | none =>
    cases n with
    | none => simp
    | some n =>
      have hne : n ≠ x := fun e => hnx (by rw [e])
      dsimp only
      by_cases hb : (h x).branch = true
      · rw [if_pos hb]; exact addPlain_push hi hb hn hne
      · rw [if_neg hb]; simp [addNext, hb]
  | some q =>
    have hq : q ≠ x := fun e => hp (by rw [e])
    obtain ⟨k1, k2⟩ := hk q hq
    cases n with
    | none => simp
    | some n =>
      have hne : n ≠ x := fun e => hnx (by rw [e])
      dsimp only
      by_cases hb : (h x).branch = true
      · rw [if_pos hb]; exact addPlain_push (addNext_inv hi q _) (by rw [k1 x]; exact hb) k2 hne
      · rw [if_neg hb]
        have hb1 : ¬ ((addNext h q (some x)).2 x).branch = true := by rw [k1 x]; exact hb
        generalize (addNext h q (some x)).2 = g at hb1 ⊢
        simp [addNext, hb1]

theorem disconnectPlain_of_free {h : Heap} {x : Nat} (h1 : (h x).prev = none) (h2 : (h x).next = none) :
    disconnectPlain h x = h := by
  simp [disconnectPlain, h1, h2]

/-- the destructor has the effect of `Disconnect` -/
theorem destroy_eq {h : Heap} (hi : Inv h) (x fuel : Nat) (hf : (nexts (h x)).length ≤ fuel) :
    destroy fuel h x = disconnect fuel h x := by
  unfold destroy
  by_cases hb : (h x).branch = true
  · rw [if_pos hb]
    obtain ⟨h', e1, _, e3, e4, e5⟩ := disconnect_effect hi x fuel hf
    rw [e1, Option.map_some,
      disconnectPlain_of_free (by rw [e4]; simp) (e3.next_of_last (by rw [e5]; simp))]
  · rw [if_neg hb]
    unfold disconnect disconnectPlain
    rw [if_neg hb]
    have aux : ∀ g : Heap, ¬ (g x).branch = true →
        (match (g x).next with
          | some y => (removePlain g x (some y)).2
          | none => g) =
        (match (g x).next with
          | some y => (removeNext g x (some y)).2
          | none => g) := by
      intro g hg
      cases (g x).next with
      | none => rfl
      | some y => simp [removeNext, hg]
    cases hp : (h x).prev with
    | none => exact congrArg some (aux h hb)
    | some p => exact congrArg some (aux _ (by rw [(removeNext_effect hi p x).1 x]; exact hb))

/-- Every state reachable by calls on a population of elements (kinds fixed by `kind`), starting unconnected. A
constructor is called for an element that is not linked; `Disconnect` and destruction run their loop to the end. -/
inductive Reachable (kind : Nat → Bool) : Heap → Prop where
  | init : Reachable kind (emptyHeap kind)
  | addNext {h} (x : Nat) (y : Option Nat) : Reachable kind h → Reachable kind (addNext h x y).2
  | removeNext {h} (x : Nat) (y : Option Nat) : Reachable kind h → Reachable kind (removeNext h x y).2
  | disconnect {h h'} (x fuel : Nat) : Reachable kind h → disconnect fuel h x = some h' → Reachable kind h'
  | destroy {h h'} (x fuel : Nat) : Reachable kind h → destroy fuel h x = some h' → Reachable kind h'
  | construct {h} (x : Nat) (p n : Option Nat) : Reachable kind h → (h x).prev = none → nexts (h x) = [] →
      p ≠ some x → n ≠ some x → Reachable kind (construct h x p n)

theorem removeAll_mono {x : Nat} {fuel : Nat} {h h' : Heap} (he : removeAll x fuel h = some h') (k : Nat) :
    removeAll x (fuel + k) h = some h' := by
  induction fuel generalizing h with
  | zero =>
    unfold removeAll at he
    split at he
    · rename_i hv
      cases k with
      | zero => simp only [Nat.add_zero]; unfold removeAll; rw [if_pos hv]; exact he
      | succ k => rw [Nat.zero_add]; unfold removeAll; rw [hv]; exact he
    · simp at he
  | succ fuel ih =>
    rw [show fuel + 1 + k = (fuel + k) + 1 by omega]
    unfold removeAll at he ⊢
    split at he
    · rename_i hv; exact he
    · rename_i y ys hv; exact ih he

theorem disconnect_mono {x : Nat} {fuel : Nat} {h h' : Heap} (he : disconnect fuel h x = some h') (k : Nat) :
    disconnect (fuel + k) h x = some h' := by
  unfold disconnect at he ⊢
  by_cases hb : (h x).branch = true
  · rw [if_pos hb] at he ⊢
    cases hc : removeAll x fuel h with
    | none => rw [hc] at he; simp at he
    | some h1 => rw [hc] at he; rw [removeAll_mono hc]; exact he
  · rw [if_neg hb] at he ⊢; exact he

theorem destroy_mono {x : Nat} {fuel : Nat} {h h' : Heap} (he : destroy fuel h x = some h') (k : Nat) :
    destroy (fuel + k) h x = some h' := by
  unfold destroy at he ⊢
  by_cases hb : (h x).branch = true
  · rw [if_pos hb] at he ⊢
    cases hc : disconnect fuel h x with
    | none => rw [hc] at he; simp at he
    | some h1 => rw [hc] at he; rw [disconnect_mono hc]; exact he
  · rw [if_neg hb] at he ⊢; exact he

theorem reachable_inv {kind : Nat → Bool} {h : Heap} (hr : Reachable kind h) :
    Inv h ∧ ∀ x, (h x).branch = kind x := by
  induction hr with
  | init => exact ⟨emptyHeap_inv kind, fun _ => rfl⟩
  | @addNext h x y _ ih =>
    refine ⟨addNext_inv ih.1 x y, fun z => ?_⟩
    cases y with
    | none => rw [addNext_refused x none (Or.inl rfl)]; exact ih.2 z
    | some y =>
      by_cases h1 : y = x
      · rw [addNext_refused x _ (Or.inr (Or.inl (by rw [h1])))]; exact ih.2 z
      · by_cases h2 : (h x).branch = true ∧ y ∈ nexts (h x)
        · rw [addNext_refused x _ (Or.inr (Or.inr ⟨h2.1, y, h2.2, rfl⟩))]; exact ih.2 z
        · exact ((addNext_effect ih.1 x y h1 (fun hb hm => h2 ⟨hb, hm⟩)).2.1 z).trans (ih.2 z)
  | @removeNext h x y _ ih =>
    refine ⟨removeNext_inv ih.1 x y, fun z => ?_⟩
    cases y with
    | none => rw [removeNext_none]; exact ih.2 z
    | some y => exact ((removeNext_effect ih.1 x y).1 z).trans (ih.2 z)
  | @disconnect h h' x fuel _ he ih =>
    obtain ⟨h'', e1, e2, e3, _⟩ := disconnect_effect ih.1 x (fuel + (nexts (h x)).length) (by omega)
    rw [disconnect_mono he] at e1
    cases e1
    exact ⟨e3, fun z => (e2 z).trans (ih.2 z)⟩
  | @destroy h h' x fuel _ he ih =>
    obtain ⟨h'', e1, e2, e3, _⟩ := disconnect_effect ih.1 x (fuel + (nexts (h x)).length) (by omega)
    rw [← destroy_eq ih.1 x _ (by omega), destroy_mono he] at e1
    cases e1
    exact ⟨e3, fun z => (e2 z).trans (ih.2 z)⟩
  | @construct h x p n _ hpx hnx hp hn ih =>
    rw [construct_eq ih.1 hnx p n hp hn]
    have hadd : ∀ (g : Heap) (a : Nat) (b : Option Nat), (Inv g ∧ ∀ z, (g z).branch = kind z) →
        (Inv (addNext g a b).2 ∧ ∀ z, ((addNext g a b).2 z).branch = kind z) := by
      intro g a b hg
      refine ⟨addNext_inv hg.1 a b, fun z => ?_⟩
      cases b with
      | none => rw [addNext_refused a none (Or.inl rfl)]; exact hg.2 z
      | some b =>
        by_cases h1 : b = a
        · rw [addNext_refused a _ (Or.inr (Or.inl (by rw [h1])))]; exact hg.2 z
        · by_cases h2 : (g a).branch = true ∧ b ∈ nexts (g a)
          · rw [addNext_refused a _ (Or.inr (Or.inr ⟨h2.1, b, h2.2, rfl⟩))]; exact hg.2 z
          · exact ((addNext_effect hg.1 a b h1 (fun hb hm => h2 ⟨hb, hm⟩)).2.1 z).trans (hg.2 z)
    cases p <;> cases n <;> dsimp only
    · exact ih
    · exact hadd _ _ _ ih
    · exact hadd _ _ _ ih
    · exact hadd _ _ _ (hadd _ _ _ ih)

/-- **C17.** In every reachable structure of plain and branching elements the links are mutually consistent: `y` is
among the `Next` elements of `x` exactly when `Prev()` of `y` is `x`, no element is listed twice, none is its own
predecessor, and a plain element has at most one successor. -/
theorem C17_links_consistent {kind : Nat → Bool} {h : Heap} (hr : Reachable kind h) :
    (∀ x y, y ∈ nexts (h x) ↔ (h y).prev = some x) ∧ (∀ x, (nexts (h x)).Nodup) ∧
    (∀ x, (h x).prev ≠ some x) ∧ (∀ x, kind x = false → (nexts (h x)).length ≤ 1) := by
  obtain ⟨hi, hk⟩ := reachable_inv hr
  refine ⟨hi.link, hi.nodup, hi.irrefl, fun x hx => ?_⟩
  rw [nexts_plain (by rw [hk, hx])]
  cases (h x).next <;> simp

/-- **C18 (AddNext).** A request with a null pointer, the element itself or (for a branching element) an element it
already has is refused and changes nothing; any other request succeeds, and its whole effect on every element's
`Prev` and `Next` list is the one stated. -/
theorem C18_addNext {kind : Nat → Bool} {h : Heap} (hr : Reachable kind h) (x : Nat) (y : Option Nat) :
    let refused := y = none ∨ y = some x ∨ (kind x = true ∧ ∃ z ∈ nexts (h x), y = some z)
    (refused → addNext h x y = (false, h)) ∧
    (∀ b, y = some b → ¬ refused →
      (addNext h x y).1 = true ∧
      (∀ z, ((addNext h x y).2 z).prev =
        if z = b then some x else if kind x = false ∧ (h z).prev = some x then none else (h z).prev) ∧
      (∀ z, nexts ((addNext h x y).2 z) =
        if z = x then (if kind x then nexts (h x) ++ [b] else [b]) else (nexts (h z)).erase b)) := by
  obtain ⟨hi, hk⟩ := reachable_inv hr
  refine ⟨fun hrf => addNext_refused x y (by rw [hk]; exact hrf), ?_⟩
  rintro b rfl hnr
  have hne : b ≠ x := fun e => hnr (Or.inr (Or.inl (by rw [e])))
  obtain ⟨a1, _, _, a4, a5⟩ := addNext_effect hi x b hne
    (fun hb hm => hnr (Or.inr (Or.inr ⟨by rw [← hk]; exact hb, b, hm, rfl⟩)))
  refine ⟨a1, fun z => ?_, fun z => ?_⟩
  · rw [a4, hk]
    simp only [hi.link]
  · rw [a5, hk]

/-- **C18 (RemoveNext).** A listed successor is unlinked, its position is returned and nothing else changes; for any
other argument `-1` is returned and nothing changes. -/
theorem C18_removeNext {kind : Nat → Bool} {h : Heap} (hr : Reachable kind h) (x : Nat) (y : Option Nat) :
    ((∀ b, y = some b → b ∉ nexts (h x)) → removeNext h x y = (-1, h)) ∧
    (∀ b, y = some b → b ∈ nexts (h x) →
      (removeNext h x y).1 = ((nexts (h x)).idxOf b : Int) ∧
      (∀ z, ((removeNext h x y).2 z).prev = if z = b then none else (h z).prev) ∧
      (∀ z, nexts ((removeNext h x y).2 z) = if z = x then (nexts (h x)).erase b else nexts (h z))) := by
  obtain ⟨hi, _⟩ := reachable_inv hr
  constructor
  · intro hn
    cases y with
    | none => exact removeNext_none h x
    | some b => exact (removeNext_effect hi x b).2.2 (hn b rfl)
  · rintro b rfl hm
    obtain ⟨a1, a2, a3, _⟩ := (removeNext_effect hi x b).2.1 hm
    exact ⟨a1, a2, a3⟩

/-- **C18 (AddNext undone).** Linking an element that had no predecessor to one that had room, then removing it,
restores every observable link. -/
theorem C18_remove_undoes_add {kind : Nat → Bool} {h : Heap} (hr : Reachable kind h) (x y : Nat) (hne : y ≠ x)
    (hy : (h y).prev = none) (hx : kind x = false → nexts (h x) = []) :
    let h' := (removeNext (addNext h x (some y)).2 x (some y)).2
    (∀ z, (h' z).prev = (h z).prev) ∧ (∀ z, nexts (h' z) = nexts (h z)) := by
  obtain ⟨hi, hk⟩ := reachable_inv hr
  have hnot : ∀ z, y ∉ nexts (h z) := by
    intro z hm; rw [hi.link, hy] at hm; simp at hm
  obtain ⟨_, _, a3, a4, a5⟩ := addNext_effect hi x y hne (fun _ => hnot x)
  obtain ⟨_, b2, _⟩ := removeNext_effect a3 x y
  have hmem : y ∈ nexts ((addNext h x (some y)).2 x) := by
    rw [a5, if_pos rfl]; split <;> simp
  obtain ⟨_, c2, c3, _⟩ := b2 hmem
  constructor
  · intro z
    rw [c2, a4]
    by_cases hz : z = y
    · simp [hz, hy]
    · rw [if_neg hz, if_neg hz, hk]
      by_cases hb : kind x = false
      · rw [hx hb]; simp
      · rw [if_neg (fun hc => hb hc.1)]
  · intro z
    rw [c3, a5, a5]
    by_cases hz : z = x
    · subst hz
      rw [if_pos rfl, if_pos rfl, hk]
      cases hb : kind z with
      | true =>
        rw [if_pos rfl, List.erase_append_right _ (hnot z)]; simp
      | false => rw [hx hb]; simp
    · rw [if_neg hz, if_neg hz, List.erase_of_not_mem (hnot z)]

/-- **C18 (Disconnect).** The loop ends after at most as many rounds as there are successors; afterwards the element
has neither `Prev` nor `Next`, its former successors have no `Prev`, its former predecessor no longer lists it, and
nothing else changed. The destructor does the same. -/
theorem C18_disconnect {kind : Nat → Bool} {h : Heap} (hr : Reachable kind h) (x fuel : Nat)
    (hf : (nexts (h x)).length ≤ fuel) :
    ∃ h', disconnect fuel h x = some h' ∧ destroy fuel h x = some h' ∧
      (∀ z, (h' z).prev = if z = x ∨ (h z).prev = some x then none else (h z).prev) ∧
      (∀ z, nexts (h' z) = if z = x then [] else (nexts (h z)).erase x) := by
  obtain ⟨hi, _⟩ := reachable_inv hr
  obtain ⟨h', e1, _, _, e4, e5⟩ := disconnect_effect hi x fuel hf
  refine ⟨h', e1, by rw [destroy_eq hi x fuel hf]; exact e1, fun z => ?_, e5⟩
  rw [e4]; simp only [hi.link]

/-- **C18 (constructor).** Constructing an element between `p` and `n` is the same as linking it afterwards. -/
theorem C18_construct {kind : Nat → Bool} {h : Heap} (hr : Reachable kind h) (x p n : Nat)
    (hx : nexts (h x) = []) (hp : p ≠ x) (hn : n ≠ x) :
    construct h x (some p) (some n) = (addNext (addNext h p (some x)).2 x (some n)).2 :=
  construct_eq (reachable_inv hr).1 hx (some p) (some n) (by simpa using hp) (by simpa using hn)

/-! ## Witnesses -/

/-- a branching node 0 with two segments 1, 2; then 2 is moved to the plain node 3 -/
def demoHeap : Heap :=
  (addNext (addNext (addNext (emptyHeap (fun i => i == 0)) 0 (some 1)).2 0 (some 2)).2 3 (some 2)).2

example : Reachable (fun i => i == 0) demoHeap :=
  .addNext _ _ (.addNext _ _ (.addNext _ _ .init))
example : nexts (demoHeap 0) = [1] ∧ nexts (demoHeap 3) = [2] ∧ (demoHeap 2).prev = some 3 := by decide
example : (disconnect 5 demoHeap 0).map (fun h => (h 1).prev) = some none := by decide
example : (addNext demoHeap 0 (some 1)).1 = false := by decide
example : nexts ((construct demoHeap 7 (some 0) (some 2)) 7) = [2] := by decide

end Verif.PMAlg

import Mathlib.Data.List.Nodup
import Mathlib.Tactic.Tauto
import Verif.Voronoi.BeachModel

/-! Trees, contexts and the representation predicate: what it means for the pointers of a beach line to form one tree and one chain. -/
namespace Verif.Voronoi

/-- a binary tree of node identifiers: leaves are arcs, inner nodes breakpoints -/
inductive T where
  | leaf (i : Nat)
  | node (i : Nat) (l r : T)

namespace T
def root : T → Nat
  | leaf i => i
  | node i _ _ => i
/-- the nodes from left to right -/
def ids : T → List Nat
  | leaf i => [i]
  | node i l r => l.ids ++ i :: r.ids
/-- the arcs from left to right -/
def leaves : T → List Nat
  | leaf i => [i]
  | node _ l r => l.leaves ++ r.leaves
def height : T → Nat
  | leaf _ => 0
  | node _ l r => max l.height r.height + 1
end T

/-- the three tree pointers of a node -/
def tf (n : Node) : Option Nat × Option Nat × Option Nat := (n.parent, n.left, n.right)

/-- the subtree with parent pointer `p` is stored in `h` as `t` -/
def Rep (h : Nat → Node) : Option Nat → T → Prop
  | p, .leaf i => tf (h i) = (p, none, none)
  | p, .node i l r => tf (h i) = (p, some l.root, some r.root) ∧ Rep h (some i) l ∧ Rep h (some i) r

/-- the chain: `xs` are linked both ways, with `p` before and `n` after -/
def Thread (h : Nat → Node) : Option Nat → List Nat → Option Nat → Prop
  | _, [], _ => True
  | p, x :: xs, n => (h x).pred = p ∧ (h x).succ = xs.head?.or n ∧ Thread h (some x) xs n

/-- one step of the way down to a subtree: does it go left, at which node, and the other subtree -/
structure Fr where
  isLeft : Bool
  id : Nat
  sib : T

def wrap (f : Fr) (t : T) : T := if f.isLeft then .node f.id t f.sib else .node f.id f.sib t

/-- the whole tree around a subtree; frames from the subtree upwards -/
def plug (t : T) : List Fr → T
  | [] => t
  | f :: c => plug (wrap f t) c

def ctxParent : List Fr → Option Nat
  | [] => none
  | f :: _ => some f.id

def RepC (h : Nat → Node) : Nat → List Fr → Prop
  | _, [] => True
  | ch, f :: c => tf (h f.id) = (ctxParent c, (if f.isLeft then some ch else some f.sib.root), (if f.isLeft then some f.sib.root else some ch)) ∧
      Rep h (some f.id) f.sib ∧ RepC h f.id c

/-- what lies left and right of the subtree -/
def ctxL : List Fr → List Nat
  | [] => []
  | f :: c => if f.isLeft then ctxL c else ctxL c ++ f.sib.ids ++ [f.id]
def ctxR : List Fr → List Nat
  | [] => []
  | f :: c => if f.isLeft then f.id :: f.sib.ids ++ ctxR c else ctxR c
def arcsL : List Fr → List Nat
  | [] => []
  | f :: c => if f.isLeft then arcsL c else arcsL c ++ f.sib.leaves
def arcsR : List Fr → List Nat
  | [] => []
  | f :: c => if f.isLeft then f.sib.leaves ++ arcsR c else arcsR c

@[simp] theorem root_leaf (i : Nat) : (T.leaf i).root = i := rfl
@[simp] theorem root_node (i : Nat) (l r : T) : (T.node i l r).root = i := rfl

theorem root_mem (t : T) : t.root ∈ t.ids := by cases t <;> simp [T.root, T.ids]

theorem ids_ne (t : T) : t.ids ≠ [] := by cases t <;> simp [T.ids]

theorem leaves_ne (t : T) : t.leaves ≠ [] := by
  induction t with
  | leaf i => simp [T.leaves]
  | node i l r ihl ihr => simp [T.leaves, ihl]

theorem leaves_sub (t : T) : ∀ i ∈ t.leaves, i ∈ t.ids := by
  induction t with
  | leaf i => simp [T.leaves, T.ids]
  | node i l r ihl ihr =>
    intro j hj
    simp only [T.leaves, List.mem_append] at hj
    simp only [T.ids, List.mem_append, List.mem_cons]
    rcases hj with h | h
    · exact Or.inl (ihl j h)
    · exact Or.inr (Or.inr (ihr j h))

theorem Rep.frame {h h' : Nat → Node} (t : T) : ∀ p, Rep h p t → (∀ j ∈ t.ids, tf (h' j) = tf (h j)) → Rep h' p t := by
  induction t with
  | leaf i => intro p hr hj; simp only [Rep] at *; rw [hj i (by simp [T.ids]), hr]
  | node i l r ihl ihr =>
    intro p hr hj
    obtain ⟨h1, h2, h3⟩ := hr
    refine ⟨by rw [hj i (by simp [T.ids]), h1], ihl _ h2 (fun j hjl => hj j (by simp [T.ids, hjl])), ihr _ h3 (fun j hjl => hj j (by simp [T.ids, hjl]))⟩

theorem Rep.tf_root {h : Nat → Node} {p : Option Nat} {t : T} (hr : Rep h p t) : (h t.root).parent = p := by
  cases t with
  | leaf i => simp only [Rep, tf, Prod.mk.injEq] at hr; exact hr.1
  | node i l r => simp only [Rep, tf, Prod.mk.injEq] at hr; exact hr.1.1

/-- a subtree given a new parent -/
theorem Rep.reparent {h h' : Nat → Node} {p q : Option Nat} {t : T} (hr : Rep h p t) (hn : t.ids.Nodup)
    (hroot : tf (h' t.root) = (q, (h t.root).left, (h t.root).right)) (hj : ∀ j ∈ t.ids, j ≠ t.root → tf (h' j) = tf (h j)) : Rep h' q t := by
  cases t with
  | leaf i =>
    simp only [Rep, tf, Prod.mk.injEq, T.root] at *
    rw [hr.2.1, hr.2.2] at hroot
    exact hroot
  | node i l r =>
    obtain ⟨h1, h2, h3⟩ := hr
    simp only [T.ids] at hn
    have hn' := (List.nodup_append.1 hn)
    have hroot : tf (h' i) = (q, (h i).left, (h i).right) := hroot
    simp only [tf, Prod.mk.injEq] at h1 hroot
    refine ⟨?_, ?_, ?_⟩
    · simp only [tf, Prod.mk.injEq]; rw [hroot.1, hroot.2.1, hroot.2.2, h1.2.1, h1.2.2]; simp
    · refine h2.frame _ _ (fun j hjl => hj j (by simp [T.ids, hjl]) ?_)
      rintro rfl
      exact hn'.2.2 _ hjl _ (by simp [T.root]) rfl
    · refine h3.frame _ _ (fun j hjl => hj j (by simp [T.ids, hjl]) ?_)
      rintro rfl
      exact (List.nodup_cons.1 hn'.2.1).1 hjl

theorem rep_plug (h : Nat → Node) (c : List Fr) : ∀ t, Rep h none (plug t c) ↔ Rep h (ctxParent c) t ∧ RepC h t.root c := by
  induction c with
  | nil => intro t; simp [plug, ctxParent, RepC]
  | cons f c ih =>
    intro t
    show Rep h none (plug (wrap f t) c) ↔ _
    rw [ih]
    obtain ⟨b, i, s⟩ := f
    cases b
    · simp only [wrap, Rep, RepC, ctxParent, T.root, Bool.false_eq_true, if_false]; tauto
    · simp only [wrap, Rep, RepC, ctxParent, T.root, if_true]; tauto

theorem ids_plug (c : List Fr) : ∀ t, (plug t c).ids = ctxL c ++ t.ids ++ ctxR c := by
  induction c with
  | nil => intro t; simp [plug, ctxL, ctxR]
  | cons f c ih =>
    intro t
    show (plug (wrap f t) c).ids = _
    rw [ih]
    obtain ⟨b, i, s⟩ := f
    cases b <;> simp [wrap, T.ids, ctxL, ctxR]

theorem leaves_plug (c : List Fr) : ∀ t, (plug t c).leaves = arcsL c ++ t.leaves ++ arcsR c := by
  induction c with
  | nil => intro t; simp [plug, arcsL, arcsR]
  | cons f c ih =>
    intro t
    show (plug (wrap f t) c).leaves = _
    rw [ih]
    obtain ⟨b, i, s⟩ := f
    cases b <;> simp [wrap, T.leaves, arcsL, arcsR]

theorem plug_append (t : T) (c d : List Fr) : plug t (c ++ d) = plug (plug t c) d := by
  induction c generalizing t with
  | nil => rfl
  | cons f c ih => exact ih _

theorem exists_ctx (t : T) : ∀ i ∈ t.leaves, ∃ c, plug (.leaf i) c = t := by
  induction t with
  | leaf k => intro i hi; simp only [T.leaves, List.mem_singleton] at hi; subst hi; exact ⟨[], rfl⟩
  | node k l r ihl ihr =>
    intro i hi
    simp only [T.leaves, List.mem_append] at hi
    rcases hi with h | h
    · obtain ⟨c, hc⟩ := ihl i h
      exact ⟨c ++ [⟨true, k, r⟩], by rw [plug_append, hc]; rfl⟩
    · obtain ⟨c, hc⟩ := ihr i h
      exact ⟨c ++ [⟨false, k, l⟩], by rw [plug_append, hc]; rfl⟩

theorem ctx_cons_mem (f : Fr) (c : List Fr) (j : Nat) :
    (j ∈ ctxL (f :: c) ∨ j ∈ ctxR (f :: c)) ↔ (j = f.id ∨ j ∈ f.sib.ids ∨ j ∈ ctxL c ∨ j ∈ ctxR c) := by
  simp only [ctxL, ctxR]
  cases f.isLeft <;> simp <;> tauto

theorem ctx_cons_nodup {f : Fr} {c : List Fr} (hn : (ctxL (f :: c) ++ ctxR (f :: c)).Nodup) :
    f.id ∉ f.sib.ids ∧ f.id ∉ ctxL c ∧ f.id ∉ ctxR c := by
  unfold ctxL ctxR at hn
  cases hb : f.isLeft
  · simp only [hb, Bool.false_eq_true, if_false, List.append_assoc] at hn
    have hn1 := (List.nodup_append.1 hn)
    have hn2 := (List.nodup_append.1 hn1.2.1)
    refine ⟨fun h => ?_, fun h => ?_, fun h => ?_⟩
    · exact hn2.2.2 _ h _ (by simp) rfl
    · exact hn1.2.2 _ h _ (by simp) rfl
    · exact (List.nodup_cons.1 hn2.2.1).1 h
  · simp only [hb, if_true] at hn
    have hn1 := (List.nodup_append.1 hn)
    have hn2 := (List.nodup_cons.1 hn1.2.1)
    refine ⟨fun h => hn2.1 (by simp [h]), fun h => ?_, fun h => hn2.1 (by simp [h])⟩
    exact hn1.2.2 _ h _ (by simp) rfl

theorem RepC.frame {h h' : Nat → Node} (c : List Fr) : ∀ ch, RepC h ch c → (∀ j, j ∈ ctxL c ∨ j ∈ ctxR c → tf (h' j) = tf (h j)) → RepC h' ch c := by
  induction c with
  | nil => intros; trivial
  | cons f c ih =>
    intro ch hr hj
    obtain ⟨h1, h2, h3⟩ := hr
    have key : ∀ j, j = f.id ∨ j ∈ f.sib.ids ∨ j ∈ ctxL c ∨ j ∈ ctxR c → tf (h' j) = tf (h j) := by
      intro j hjj
      apply hj
      unfold ctxL ctxR
      cases f.isLeft <;> simp <;> tauto
    exact ⟨by rw [key _ (Or.inl rfl), h1], h2.frame _ _ (fun j hjj => key j (by tauto)), ih _ h3 (fun j hjj => key j (by tauto))⟩

/-- the parent of the hole is in the context -/
theorem ctxParent_mem {c : List Fr} {p : Nat} (h : ctxParent c = some p) : p ∈ ctxL c ∨ p ∈ ctxR c := by
  cases c with
  | nil => simp [ctxParent] at h
  | cons f c =>
    simp only [ctxParent, Option.some.injEq] at h
    subst h
    unfold ctxL ctxR
    cases f.isLeft <;> simp

/-- changing the child below a context: only the bottom frame's node changes -/
theorem RepC.setChild {h h' : Nat → Node} {ch ch' : Nat} {f : Fr} {c : List Fr} (hr : RepC h ch (f :: c))
    (hf : tf (h' f.id) = (ctxParent c, (if f.isLeft then some ch' else some f.sib.root), (if f.isLeft then some f.sib.root else some ch')))
    (hj : ∀ j, j ≠ f.id → j ∈ ctxL (f :: c) ∨ j ∈ ctxR (f :: c) → tf (h' j) = tf (h j)) (hn : (ctxL (f :: c) ++ ctxR (f :: c)).Nodup) :
    RepC h' ch' (f :: c) := by
  obtain ⟨h1, h2, h3⟩ := hr
  have key : ∀ j, j ∈ f.sib.ids ∨ j ∈ ctxL c ∨ j ∈ ctxR c → j ≠ f.id ∧ (j ∈ ctxL (f :: c) ∨ j ∈ ctxR (f :: c)) := by
    intro j hjj
    obtain ⟨n1, n2, n3⟩ := ctx_cons_nodup hn
    refine ⟨?_, (ctx_cons_mem f c j).2 (Or.inr hjj)⟩
    rintro rfl
    tauto
  refine ⟨hf, h2.frame _ _ (fun j hjj => ?_), h3.frame _ _ (fun j hjj => ?_)⟩
  · exact hj j (key j (by tauto)).1 (key j (by tauto)).2
  · exact hj j (key j (by tauto)).1 (key j (by tauto)).2

theorem Thread.frame {h h' : Nat → Node} (xs : List Nat) : ∀ p n, Thread h p xs n →
    (∀ j ∈ xs, (h' j).pred = (h j).pred ∧ (h' j).succ = (h j).succ) → Thread h' p xs n := by
  induction xs with
  | nil => intros; trivial
  | cons x xs ih =>
    intro p n ht hj
    obtain ⟨h1, h2, h3⟩ := ht
    exact ⟨by rw [(hj x (by simp)).1, h1], by rw [(hj x (by simp)).2, h2], ih _ _ h3 (fun j hjj => hj j (by simp [hjj]))⟩

theorem thread_append (h : Nat → Node) (xs ys : List Nat) : ∀ p n, Thread h p (xs ++ ys) n ↔
    Thread h p xs (ys.head?.or n) ∧ Thread h (xs.getLast?.or p) ys n := by
  induction xs with
  | nil => intro p n; simp [Thread]
  | cons x xs ih =>
    intro p n
    show (h x).pred = p ∧ (h x).succ = (xs ++ ys).head?.or n ∧ Thread h (some x) (xs ++ ys) n ↔ _
    rw [ih]
    have e1 : ((xs ++ ys).head?).or n = xs.head?.or (ys.head?.or n) := by cases xs <;> simp
    have e2 : ((x :: xs).getLast?).or p = xs.getLast?.or (some x) := by
      rw [List.getLast?_cons]
      cases xs.getLast? <;> simp
    rw [e1, e2]
    simp only [Thread]
    tauto

end Verif.Voronoi

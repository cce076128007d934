import Mathlib.Logic.Relation
import Mathlib.Data.List.Nodup
import Mathlib.Data.List.Sort
import Mathlib.Order.Lattice
import Verif.Cluster.DBQueue

/-!
Model of the third clustering method of `larreco/RecoAlg/DBScanAlg.cxx`, `run_dbscan_cluster` and `ExpandCluster`, and C103.

A hit is its index.  `RegionQuery` is an arbitrary function that gives a set of hits; a `std::set<unsigned int>` is a strictly increasing list.
Not modelled: messages.
-/
namespace Verif.DBSet

open Verif.DBQueue (Core Linked)

/-- an entry of `fpointId_to_clusterId`: `kNO_CLUSTER`, `kNOISE_CLUSTER`, or the number of a cluster (DBScanAlg.cxx:239-240) -/
inductive Lab where
  | no
  | noise
  | cl (c : Nat)
  deriving DecidableEq, Repr

/-- assignment to an entry of `fpointId_to_clusterId` -/
def put (f : Nat → Lab) (x : Nat) (l : Lab) : Nat → Lab := fun y => if y = x then l else f y

/-- `std::set::insert` -/
def ins (x : Nat) : List Nat → List Nat
  | [] => [x]
  | y :: t => if x < y then x :: y :: t else if x = y then y :: t else y :: ins x t

section
variable (nb : Nat → List Nat) (minPts : Nat)

/-- the loop over the seeds, DBScanAlg.cxx:622-624 -/
def labelAll (cid : Nat) (f : Nat → Lab) (l : List Nat) : Nat → Lab := l.foldl (fun f x => put f x (.cl cid)) f

/-- the body of the loop over `result`, DBScanAlg.cxx:631-639 -/
def takeOne (cid : Nat) (s : (Nat → Lab) × List Nat) (r : Nat) : (Nat → Lab) × List Nat :=
  match s.1 r with
  | .no => (put s.1 r (.cl cid), ins r s.2)
  | .noise => (put s.1 r (.cl cid), s.2)
  | .cl _ => s

/-- one round of the `while` loop, DBScanAlg.cxx:627-641, for the smallest seed `p` -/
def round (cid : Nat) (f : Nat → Lab) (p : Nat) (seeds : List Nat) : (Nat → Lab) × List Nat :=
  let r := if (nb p).length ≥ minPts then (nb p).foldl (takeOne cid) (f, seeds) else (f, seeds)
  (r.1, r.2.erase p)

/-- the `while` loop, DBScanAlg.cxx:626-642 -/
def grow (cid : Nat) : Nat → (Nat → Lab) → List Nat → Option (Nat → Lab)
  | _, f, [] => some f
  | 0, _, _ :: _ => none
  | fuel + 1, f, p :: t =>
    let r := round nb minPts cid f p (p :: t)
    grow cid fuel r.1 r.2

/-- `ExpandCluster`, DBScanAlg.cxx:609-645; `fuel` bounds the rounds of the `while` loop -/
def expandCluster (fuel : Nat) (f : Nat → Lab) (point cid : Nat) : Option ((Nat → Lab) × Bool) :=
  if (nb point).length < minPts then some (put f point .noise, false)
  else (grow nb minPts cid fuel (labelAll cid (put f point (.cl cid)) (nb point)) ((nb point).erase point)).map (fun g => (g, true))

/-- the loop over the hits, DBScanAlg.cxx:534-539 -/
def loop (fuel : Nat) : List Nat → (Nat → Lab) → Nat → Option ((Nat → Lab) × Nat)
  | [], f, cid => some (f, cid)
  | p :: ps, f, cid =>
    if f p = .no then
      match expandCluster nb minPts fuel f p cid with
      | none => none
      | some (g, b) => loop fuel ps g (if b then cid + 1 else cid)
    else loop fuel ps f cid

/-- the clusters are filled from the labels, DBScanAlg.cxx:544-561; `cl c` with `c ≥ cid` would be a write past the end of `fclusters` -/
def collect (n : Nat) (f : Nat → Lab) (cid : Nat) : List (List Nat) := (List.range cid).map (fun c => (List.range n).filter (fun y => f y = .cl c))

/-- `run_dbscan_cluster`, DBScanAlg.cxx:530-569, for `n` hits after `InitScan` -/
def runDbscan (n : Nat) : Option ((Nat → Lab) × List (List Nat)) :=
  (loop nb minPts n (List.range n) (fun _ => .no) 0).map (fun r => (r.1, collect n r.1 r.2))

end

variable {nb : Nat → List Nat} {k : Nat}

theorem mem_ins {x y : Nat} {l : List Nat} : y ∈ ins x l ↔ y = x ∨ y ∈ l := by
  induction l with
  | nil => simp [ins]
  | cons a t ih =>
    rw [ins]; split
    · simp
    · split
      · rename_i h; subst h; simp
      · simp [ih]; tauto

theorem ins_length (x : Nat) (l : List Nat) : (ins x l).length ≤ l.length + 1 := by
  induction l with
  | nil => simp [ins]
  | cons a t ih =>
    rw [ins]; split
    · simp
    · split <;> simp <;> omega

theorem ins_sorted {x : Nat} {l : List Nat} (h : l.Pairwise (· < ·)) : (ins x l).Pairwise (· < ·) := by
  induction l with
  | nil => simp [ins]
  | cons a t ih =>
    rw [List.pairwise_cons] at h
    rw [ins]; split
    · rename_i h1
      rw [List.pairwise_cons, List.pairwise_cons]
      refine ⟨?_, h⟩
      intro y hy
      rcases List.mem_cons.1 hy with rfl | hy
      · exact h1
      · exact lt_trans h1 (h.1 y hy)
    · split
      · rw [List.pairwise_cons]; exact h
      · rw [List.pairwise_cons]
        refine ⟨?_, ih h.2⟩
        intro y hy
        rcases mem_ins.1 hy with rfl | hy
        · omega
        · exact h.1 y hy

theorem labelAll_eq (cid : Nat) (l : List Nat) : ∀ (f : Nat → Lab) (x : Nat), labelAll cid f l x = if x ∈ l then .cl cid else f x := by
  induction l with
  | nil => intro f x; simp [labelAll]
  | cons a t ih =>
    intro f x
    have : labelAll cid f (a :: t) = labelAll cid (put f a (.cl cid)) t := rfl
    rw [this, ih]
    by_cases h1 : x ∈ t
    · simp [h1]
    · by_cases h2 : x = a
      · simp [h2, put]
      · simp [h1, h2, put]

/-- what the loop over `result` does -/
theorem fold_take (cid : Nat) : ∀ (l : List Nat) (s : (Nat → Lab) × List Nat),
    (∀ x, (l.foldl (takeOne cid) s).1 x = if x ∈ l ∧ (s.1 x = .no ∨ s.1 x = .noise) then .cl cid else s.1 x) ∧
    (∀ x, x ∈ (l.foldl (takeOne cid) s).2 ↔ x ∈ s.2 ∨ (x ∈ l ∧ s.1 x = .no)) ∧
    (s.2.Pairwise (· < ·) → (l.foldl (takeOne cid) s).2.Pairwise (· < ·)) := by
  intro l
  induction l with
  | nil => intro s; simp
  | cons a t ih =>
    intro s
    have e : (a :: t).foldl (takeOne cid) s = t.foldl (takeOne cid) (takeOne cid s a) := rfl
    rw [e]
    obtain ⟨i1, i2, i3⟩ := ih (takeOne cid s a)
    generalize hT : t.foldl (takeOne cid) (takeOne cid s a) = T at i1 i2 i3 ⊢
    cases hs : s.1 a with
    | no =>
      have ht : takeOne cid s a = (put s.1 a (.cl cid), ins a s.2) := by unfold takeOne; rw [hs]
      rw [ht] at i1 i2 i3
      simp only at i1 i2 i3
      refine ⟨?_, ?_, fun h => i3 (ins_sorted h)⟩
      · intro x; rw [i1]
        by_cases hx : x = a
        · subst hx; simp [put, hs]
        · simp [put, hx]
      · intro x; rw [i2, mem_ins]
        by_cases hx : x = a
        · subst hx; simp [put, hs]
        · simp [put, hx]
    | noise =>
      have ht : takeOne cid s a = (put s.1 a (.cl cid), s.2) := by unfold takeOne; rw [hs]
      rw [ht] at i1 i2 i3
      simp only at i1 i2 i3
      refine ⟨?_, ?_, i3⟩
      · intro x; rw [i1]
        by_cases hx : x = a
        · subst hx; simp [put, hs]
        · simp [put, hx]
      · intro x; rw [i2]
        by_cases hx : x = a
        · subst hx; simp [put, hs]
        · simp [put, hx]
    | cl c =>
      have ht : takeOne cid s a = s := by unfold takeOne; rw [hs]
      rw [ht] at i1 i2 i3
      refine ⟨?_, ?_, i3⟩
      · intro x; rw [i1]
        by_cases hx : x = a
        · subst hx; simp [hs]
        · simp [hx]
      · intro x; rw [i2]
        by_cases hx : x = a
        · subst hx; simp [hs]
        · simp [hx]

/-- how many of the hits carry no label -/
def free (n : Nat) (f : Nat → Lab) : Nat := ((List.range n).filter (fun x => f x = .no)).length

theorem free_le (n : Nat) (f : Nat → Lab) : free n f ≤ n := by
  unfold free
  exact (List.length_filter_le _ _).trans (by simp)

theorem filter_length_split (l : List Nat) (p q : Nat → Bool) (h : ∀ x, q x = true → p x = true) :
    (l.filter q).length + (l.filter (fun x => p x && !q x)).length = (l.filter p).length := by
  induction l with
  | nil => rfl
  | cons a t ih =>
    simp only [List.filter_cons]
    by_cases h1 : q a = true
    · simp [h1, h a h1]; omega
    · have h1' : q a = false := by simpa using h1
      by_cases h2 : p a = true
      · simp [h1', h2]; omega
      · simp [h1', h2]; simpa using ih

/-- between the rounds of the `while` loop -/
structure Inv (nb : Nat → List Nat) (k n cid : Nat) (f : Nat → Lab) (S : List Nat) : Prop where
  range : ∀ x c, f x = .cl c → x < n ∧ c ≤ cid
  noise : ∀ x, f x = .noise → ¬ Core nb k x
  sorted : S.Pairwise (· < ·)
  seeds : ∀ x ∈ S, f x = .cl cid
  closed : ∀ x c, f x = .cl c → Core nb k x → x ∉ S → ∀ y ∈ nb x, (∃ d, f y = .cl d) ∧ (Core nb k y → f y = .cl c)
  near : ∀ x c, f x = .cl c → ∃ y, f y = .cl c ∧ Core nb k y ∧ x ∈ nb y
  full : ∀ c, c < cid → ∃ x, f x = .cl c ∧ Core nb k x
  link : ∀ x y c, f x = .cl c → f y = .cl c → Core nb k x → Core nb k y → Linked nb k x y

theorem sorted_le_length : ∀ (n : Nat) (l : List Nat), l.Pairwise (· < ·) → (∀ x ∈ l, x < n) → l.length ≤ n := by
  intro n l h1 h2
  have hnd : l.Nodup := h1.imp (fun h => ne_of_lt h)
  have hs : l ⊆ List.range n := fun x hx => List.mem_range.2 (h2 x hx)
  simpa using (List.subperm_of_subset hnd hs).length_le

theorem erase_mem_iff {l : List Nat} (h : l.Pairwise (· < ·)) (x p : Nat) : x ∈ l.erase p ↔ x ≠ p ∧ x ∈ l := by
  have hnd : l.Nodup := h.imp (fun h => ne_of_lt h)
  exact hnd.mem_erase_iff

theorem linked_symm (hs : ∀ a b, b ∈ nb a → a ∈ nb b) {a b : Nat} (h : Linked nb k a b) : Linked nb k b a := by
  induction h with
  | refl => exact .refl
  | tail _ hbc ih => exact .head ⟨hbc.2.1, hbc.1, hs _ _ hbc.2.2⟩ ih

/-- a round keeps the invariant and takes a seed or a free hit away -/
theorem round_inv {n cid : Nat} (hn : ∀ a b, b ∈ nb a → b < n) (hs : ∀ a b, b ∈ nb a → a ∈ nb b) {f : Nat → Lab} {p : Nat} {t : List Nat} (h : Inv nb k n cid f (p :: t)) :
    Inv nb k n cid (round nb k cid f p (p :: t)).1 (round nb k cid f p (p :: t)).2 ∧
    (round nb k cid f p (p :: t)).2.length + free n (round nb k cid f p (p :: t)).1 < (p :: t).length + free n f := by
  obtain ⟨h1, h2, h3, h4, h5, h6, h7, h8⟩ := h
  have hp := h4 p (by simp)
  by_cases hc : (nb p).length ≥ k
  · -- a core hit
    obtain ⟨i1, i2, i3⟩ := fold_take cid (nb p) (f, p :: t)
    have e : round nb k cid f p (p :: t) = (((nb p).foldl (takeOne cid) (f, p :: t)).1, ((nb p).foldl (takeOne cid) (f, p :: t)).2.erase p) := by
      unfold round; rw [if_pos hc]
    rw [e]
    generalize hT : (nb p).foldl (takeOne cid) (f, p :: t) = T at i1 i2 i3 ⊢
    obtain ⟨g, S⟩ := T
    simp only at i1 i2 i3 ⊢
    have hS := i3 h3
    have hcl : ∀ x c, f x = .cl c → g x = .cl c := by
      intro x c hx; rw [i1, hx]; simp
    have hcl' : ∀ x c, g x = .cl c → f x = .cl c ∨ (c = cid ∧ x ∈ nb p ∧ (f x = .no ∨ f x = .noise)) := by
      intro x c hx
      rw [i1] at hx
      split at hx
      · rename_i h9; cases hx; exact Or.inr ⟨rfl, h9⟩
      · exact Or.inl hx
    have hcp : Core nb k p := hc
    have hnewlab : ∀ x ∈ nb p, ∃ d, g x = .cl d := by
      intro x hx
      rw [i1]
      cases hfx : f x with
      | no => exact ⟨cid, by simp [hx]⟩
      | noise => exact ⟨cid, by simp [hx]⟩
      | cl d => exact ⟨d, by simp⟩
    -- core neighbours of a hit that was labelled before have the same label or are in the seeds
    have hcorep : ∀ y ∈ nb p, Core nb k y → g y = .cl cid := by
      intro y hy hyc
      cases hfy : f y with
      | no => rw [i1]; simp [hy, hfy]
      | noise => rw [i1]; simp [hy, hfy]
      | cl d =>
        by_cases hyS : y ∈ p :: t
        · exact hcl y cid (h4 y hyS)
        · have := (h5 y d hfy hyc hyS p (hs p y hy)).2 hcp
          rw [hp] at this
          rw [hcl y d hfy]; exact this.symm
    have hlinkp : ∀ x, g x = .cl cid → Core nb k x → Linked nb k p x := by
      intro x hx hxc
      rcases hcl' x cid hx with h9 | ⟨-, h9, -⟩
      · exact h8 p x cid hp h9 hcp hxc
      · exact .single ⟨hcp, hxc, h9⟩
    refine ⟨⟨?_, ?_, ?_, ?_, ?_, ?_, ?_, ?_⟩, ?_⟩
    · intro x c hx
      rcases hcl' x c hx with h9 | ⟨rfl, h9, -⟩
      · exact h1 x c h9
      · exact ⟨hn p x h9, le_refl _⟩
    · intro x hx
      rw [i1] at hx
      split at hx
      · cases hx
      · exact h2 x hx
    · exact hS.sublist List.erase_sublist
    · intro x hx
      have := List.mem_of_mem_erase hx
      rcases (i2 x).1 this with h9 | ⟨h9, h10⟩
      · exact hcl x cid (h4 x h9)
      · rw [i1]; simp [h9, h10]
    · intro x c hx hxc hxS y hy
      rw [erase_mem_iff hS] at hxS
      by_cases hxp : x = p
      · subst hxp
        have : c = cid := by
          have := hcl x cid hp
          rw [hx] at this; cases this; rfl
        subst this
        exact ⟨hnewlab y hy, fun hyc => hcorep y hy hyc⟩
      · have hxS' : x ∉ S := fun h => hxS ⟨hxp, h⟩
        rw [i2] at hxS'
        push Not at hxS'
        rcases hcl' x c hx with h9 | ⟨-, h9, h10⟩
        · have := h5 x c h9 hxc hxS'.1 y hy
          obtain ⟨⟨d, hd⟩, h11⟩ := this
          exact ⟨⟨d, hcl y d hd⟩, fun hyc => hcl y c (h11 hyc)⟩
        · rcases h10 with h10 | h10
          · exact absurd h10 (hxS'.2 h9)
          · exact absurd hxc (h2 x h10)
    · intro x c hx
      rcases hcl' x c hx with h9 | ⟨rfl, h9, -⟩
      · obtain ⟨y, hy1, hy2⟩ := h6 x c h9
        exact ⟨y, hcl y c hy1, hy2⟩
      · exact ⟨p, hcl p c hp, hcp, h9⟩
    · intro c hc'
      obtain ⟨x, hx1, hx2⟩ := h7 c hc'
      exact ⟨x, hcl x c hx1, hx2⟩
    · intro x y c hx hy hxc hyc
      by_cases hcc : c = cid
      · subst hcc
        exact (linked_symm hs (hlinkp x hx hxc)).trans (hlinkp y hy hyc)
      · rcases hcl' x c hx with h9 | ⟨h9, -⟩
        · rcases hcl' y c hy with h10 | ⟨h10, -⟩
          · exact h8 x y c h9 h10 hxc hyc
          · exact absurd h10 hcc
        · exact absurd h9 hcc
    · -- the measure
      have hpS : p ∈ S := (i2 p).2 (Or.inl (by simp))
      have hlen : (S.erase p).length + 1 = S.length := by
        rw [List.length_erase_of_mem hpS]
        have := List.length_pos_of_mem hpS
        omega
      have hnew : S.length ≤ (p :: t).length + ((List.range n).filter (fun x => decide (f x = .no) && !decide (g x = .no))).length := by
        have hnd : S.Nodup := hS.imp (fun h => ne_of_lt h)
        have hsub : S ⊆ (p :: t) ++ (List.range n).filter (fun x => decide (f x = .no) && !decide (g x = .no)) := by
          intro x hx
          rcases (i2 x).1 hx with h9 | ⟨h9, h10⟩
          · exact List.mem_append_left _ h9
          · refine List.mem_append_right _ (List.mem_filter.2 ⟨List.mem_range.2 (hn p x h9), ?_⟩)
            have : g x = .cl cid := by rw [i1]; simp [h9, h10]
            simp [h10, this]
        have := (List.subperm_of_subset hnd hsub).length_le
        rw [List.length_append] at this
        exact this
      have hsplit := filter_length_split (List.range n) (fun x => decide (f x = .no)) (fun x => decide (g x = .no)) (by
        intro x hx
        simp only [decide_eq_true_eq] at hx ⊢
        rw [i1] at hx
        split at hx
        · cases hx
        · exact hx)
      unfold free
      omega
  · have e : round nb k cid f p (p :: t) = (f, t) := by
      unfold round; rw [if_neg hc]; simp
    rw [e]
    refine ⟨⟨h1, h2, (List.pairwise_cons.1 h3).2, fun x hx => h4 x (List.mem_cons_of_mem _ hx), ?_, h6, h7, h8⟩, by simp⟩
    intro x c hx hxc hxt
    have hxp : x ≠ p := by
      rintro rfl; exact hc hxc
    exact h5 x c hx hxc (by simp [hxp, hxt])

theorem grow_inv {n cid : Nat} (hn : ∀ a b, b ∈ nb a → b < n) (hs : ∀ a b, b ∈ nb a → a ∈ nb b) : ∀ fuel (f : Nat → Lab) S, Inv nb k n cid f S → S.length + free n f ≤ fuel →
    ∃ g, grow nb k cid fuel f S = some g ∧ Inv nb k n cid g [] := by
  intro fuel
  induction fuel with
  | zero =>
    intro f S h hf
    cases S with
    | nil => exact ⟨f, rfl, h⟩
    | cons p t => simp at hf
  | succ fuel ih =>
    intro f S h hf
    cases S with
    | nil => exact ⟨f, rfl, h⟩
    | cons p t =>
      obtain ⟨g1, g2⟩ := round_inv hn hs h
      obtain ⟨g, h1, h2⟩ := ih _ _ g1 (by omega)
      exact ⟨g, by rw [grow]; exact h1, h2⟩

theorem round_lab {cid : Nat} {f : Nat → Lab} {p : Nat} {S : List Nat} {x : Nat} (h : f x ≠ .no) : (round nb k cid f p S).1 x ≠ .no := by
  unfold round
  split
  · simp only
    rw [(fold_take cid (nb p) (f, S)).1]
    split
    · simp
    · exact h
  · exact h

theorem grow_lab {cid : Nat} : ∀ fuel (f : Nat → Lab) S g, grow nb k cid fuel f S = some g → ∀ x, f x ≠ .no → g x ≠ .no := by
  intro fuel
  induction fuel with
  | zero =>
    intro f S g h x hx
    cases S with
    | nil => simp [grow] at h; subst h; exact hx
    | cons p t => simp [grow] at h
  | succ fuel ih =>
    intro f S g h x hx
    cases S with
    | nil => simp [grow] at h; subst h; exact hx
    | cons p t =>
      rw [grow] at h
      exact ih _ _ g h x (round_lab hx)

theorem grow_cl {cid : Nat} : ∀ fuel (f : Nat → Lab) S g, grow nb k cid fuel f S = some g → ∀ x c, f x = .cl c → g x = .cl c := by
  intro fuel
  induction fuel with
  | zero =>
    intro f S g h x c hx
    cases S with
    | nil => simp [grow] at h; subst h; exact hx
    | cons p t => simp [grow] at h
  | succ fuel ih =>
    intro f S g h x c hx
    cases S with
    | nil => simp [grow] at h; subst h; exact hx
    | cons p t =>
      rw [grow] at h
      refine ih _ _ g h x c ?_
      unfold round
      split
      · simp only
        rw [(fold_take cid (nb p) (f, p :: t)).1]; simp [hx]
      · exact hx

/-- between two hits of the outer loop: `Inv` for the number of the last cluster, or none so far -/
structure Out (nb : Nat → List Nat) (k n cid : Nat) (f : Nat → Lab) : Prop where
  range : ∀ x c, f x = .cl c → x < n ∧ c < cid
  noise : ∀ x, f x = .noise → ¬ Core nb k x
  closed : ∀ x c, f x = .cl c → Core nb k x → ∀ y ∈ nb x, (∃ d, f y = .cl d) ∧ (Core nb k y → f y = .cl c)
  near : ∀ x c, f x = .cl c → ∃ y, f y = .cl c ∧ Core nb k y ∧ x ∈ nb y
  full : ∀ c, c < cid → ∃ x, f x = .cl c ∧ Core nb k x
  link : ∀ x y c, f x = .cl c → f y = .cl c → Core nb k x → Core nb k y → Linked nb k x y

theorem expand_out {n cid : Nat} (hn : ∀ a b, b ∈ nb a → b < n) (hs : ∀ a b, b ∈ nb a → a ∈ nb b) (hr : ∀ a, a < n → a ∈ nb a) (hset : ∀ a, (nb a).Pairwise (· < ·))
    {f : Nat → Lab} (ho : Out nb k n cid f) {p : Nat} (hpn : p < n) (hp : f p = .no) :
    ∃ g b, expandCluster nb k n f p cid = some (g, b) ∧ Out nb k n (if b then cid + 1 else cid) g ∧ (∀ x, f x ≠ .no → g x ≠ .no) ∧ g p ≠ .no := by
  obtain ⟨o1, o2, o3, o4, o5, o6⟩ := ho
  unfold expandCluster
  by_cases hc : (nb p).length < k
  · rw [if_pos hc]
    have hpc : ¬ Core nb k p := by unfold Core; omega
    have hput : ∀ x c, put f p .noise x = .cl c ↔ f x = .cl c := by
      intro x c; unfold put; split
      · rename_i h; subst h; simp [hp]
      · rfl
    refine ⟨_, _, rfl, ⟨?_, ?_, ?_, ?_, ?_, ?_⟩, ?_, by simp [put]⟩
    · intro x c hx; exact o1 x c ((hput x c).1 hx)
    · intro x hx
      unfold put at hx; split at hx
      · rename_i h; subst h; exact hpc
      · exact o2 x hx
    · intro x c hx hxc y hy
      obtain ⟨⟨d, hd⟩, h2⟩ := o3 x c ((hput x c).1 hx) hxc y hy
      exact ⟨⟨d, (hput y d).2 hd⟩, fun hyc => (hput y c).2 (h2 hyc)⟩
    · intro x c hx
      obtain ⟨y, hy1, hy2⟩ := o4 x c ((hput x c).1 hx)
      exact ⟨y, (hput y c).2 hy1, hy2⟩
    · intro c hc'
      obtain ⟨x, hx1, hx2⟩ := o5 c hc'
      exact ⟨x, (hput x c).2 hx1, hx2⟩
    · intro x y c hx hy
      exact o6 x y c ((hput x c).1 hx) ((hput y c).1 hy)
    · intro x hx
      unfold put; split
      · simp
      · exact hx
  · rw [if_neg hc]
    have hpc : Core nb k p := by unfold Core; omega
    have hpp := hr p hpn
    have hlab : ∀ x, labelAll cid (put f p (.cl cid)) (nb p) x = if x ∈ nb p then .cl cid else f x := by
      intro x; rw [labelAll_eq]
      by_cases hx : x ∈ nb p
      · simp [hx]
      · have : x ≠ p := by rintro rfl; exact hx hpp
        simp [hx, put, this]
    generalize hL : labelAll cid (put f p (.cl cid)) (nb p) = L at hlab
    -- core hits that have a label keep it
    have hkeep : ∀ x c, f x = .cl c → Core nb k x → x ∉ nb p := by
      intro x c hx hxc hxp
      obtain ⟨⟨d, hd⟩, -⟩ := o3 x c hx hxc p (hs p x hxp)
      rw [hp] at hd; cases hd
    have hLold : ∀ x c, c ≠ cid → L x = .cl c → f x = .cl c ∧ x ∉ nb p := by
      intro x c hne hx
      rw [hlab] at hx
      split at hx
      · cases hx; exact absurd rfl hne
      · exact ⟨hx, by assumption⟩
    have hLcid : ∀ x, L x = .cl cid → x ∈ nb p := by
      intro x hx
      rw [hlab] at hx
      split at hx
      · assumption
      · exact absurd (o1 x cid hx).2 (lt_irrefl _)
    have hinv : Inv nb k n cid L ((nb p).erase p) := by
      refine ⟨?_, ?_, (hset p).sublist List.erase_sublist, ?_, ?_, ?_, ?_, ?_⟩
      · intro x c hx
        by_cases hcc : c = cid
        · subst hcc; exact ⟨hn p x (hLcid x hx), le_refl _⟩
        · have := o1 x c (hLold x c hcc hx).1
          exact ⟨this.1, le_of_lt this.2⟩
      · intro x hx
        rw [hlab] at hx
        split at hx
        · cases hx
        · exact o2 x hx
      · intro x hx
        rw [hlab, if_pos (List.mem_of_mem_erase hx)]
      · intro x c hx hxc hxS y hy
        rw [erase_mem_iff (hset p)] at hxS
        by_cases hcc : c = cid
        · subst hcc
          have hxp : x = p := by
            by_contra hne; exact hxS ⟨hne, hLcid x hx⟩
          subst hxp
          rw [hlab, if_pos hy]
          exact ⟨⟨c, rfl⟩, fun _ => rfl⟩
        · have hfx := (hLold x c hcc hx).1
          obtain ⟨⟨d, hd⟩, h2⟩ := o3 x c hfx hxc y hy
          refine ⟨?_, ?_⟩
          · rw [hlab]; split
            · exact ⟨cid, rfl⟩
            · exact ⟨d, hd⟩
          · intro hyc
            have := h2 hyc
            rw [hlab, if_neg (hkeep y c this hyc)]; exact this
      · intro x c hx
        by_cases hcc : c = cid
        · subst hcc
          exact ⟨p, by rw [hlab, if_pos hpp], hpc, hLcid x hx⟩
        · obtain ⟨y, hy1, hy2, hy3⟩ := o4 x c (hLold x c hcc hx).1
          exact ⟨y, by rw [hlab, if_neg (hkeep y c hy1 hy2)]; exact hy1, hy2, hy3⟩
      · intro c hc'
        obtain ⟨x, hx1, hx2⟩ := o5 c hc'
        exact ⟨x, by rw [hlab, if_neg (hkeep x c hx1 hx2)]; exact hx1, hx2⟩
      · intro x y c hx hy hxc hyc
        by_cases hcc : c = cid
        · subst hcc
          exact .trans (.single ⟨hxc, hpc, hs p x (hLcid x hx)⟩) (.single ⟨hpc, hyc, hLcid y hy⟩)
        · exact o6 x y c (hLold x c hcc hx).1 (hLold y c hcc hy).1 hxc hyc
    obtain ⟨g, g1, g2⟩ := grow_inv hn hs n L ((nb p).erase p) hinv (by
      have hnd : ((nb p).erase p ++ (List.range n).filter (fun x => decide (L x = .no))).Nodup := by
        rw [List.nodup_append]
        refine ⟨((hset p).imp (fun h => ne_of_lt h)).erase p, List.nodup_range.filter _, ?_⟩
        rintro a ha b hb rfl
        have h1 := List.mem_of_mem_erase ha
        have h2 := (List.mem_filter.1 hb).2
        rw [decide_eq_true_eq, hlab, if_pos h1] at h2
        cases h2
      have hsub : ((nb p).erase p ++ (List.range n).filter (fun x => decide (L x = .no))) ⊆ List.range n := by
        intro x hx
        rcases List.mem_append.1 hx with h | h
        · exact List.mem_range.2 (hn p x (List.mem_of_mem_erase h))
        · exact (List.mem_filter.1 h).1
      have := (List.subperm_of_subset hnd hsub).length_le
      rw [List.length_append, List.length_range] at this
      exact this)
    rw [g1]
    have hpL : L p ≠ .no := by rw [hlab, if_pos hpp]; simp
    refine ⟨g, true, rfl, ?_, ?_, grow_lab n L _ g g1 p hpL⟩
    · obtain ⟨i1, i2, i3, i4, i5, i6, i7, i8⟩ := g2
      simp only [if_true]
      refine ⟨?_, i2, fun x c hx hxc => i5 x c hx hxc (by simp), i6, ?_, i8⟩
      · intro x c hx; have := i1 x c hx; exact ⟨this.1, by omega⟩
      · intro c hc'
        by_cases hcc : c = cid
        · subst hcc
          exact ⟨p, grow_cl n L _ g g1 p c (by rw [hlab, if_pos hpp]), hpc⟩
        · exact i7 c (by omega)
    · intro x hx
      apply grow_lab n L _ g g1
      rw [hlab]; split
      · simp
      · exact hx

theorem loop_out {n : Nat} (hn : ∀ a b, b ∈ nb a → b < n) (hs : ∀ a b, b ∈ nb a → a ∈ nb b) (hr : ∀ a, a < n → a ∈ nb a) (hset : ∀ a, (nb a).Pairwise (· < ·)) :
    ∀ ps (f : Nat → Lab) cid, (∀ p ∈ ps, p < n) → Out nb k n cid f →
    ∃ g cid', loop nb k n ps f cid = some (g, cid') ∧ Out nb k n cid' g ∧ (∀ x, f x ≠ .no → g x ≠ .no) ∧ ∀ p ∈ ps, g p ≠ .no := by
  intro ps
  induction ps with
  | nil => intro f cid _ ho; exact ⟨f, cid, rfl, ho, fun _ h => h, by simp⟩
  | cons p ps ih =>
    intro f cid hp ho
    have hp' : ∀ q ∈ ps, q < n := fun q hq => hp q (List.mem_cons_of_mem _ hq)
    rw [loop]
    by_cases hf : f p = .no
    · rw [if_pos hf]
      obtain ⟨g, b, e1, e2, e3, e4⟩ := expand_out hn hs hr hset ho (hp p (by simp)) hf
      rw [e1]
      obtain ⟨g', cid', h1, h2, h3, h4⟩ := ih g _ hp' e2
      refine ⟨g', cid', h1, h2, fun x hx => h3 x (e3 x hx), ?_⟩
      intro q hq
      rcases List.mem_cons.1 hq with rfl | hq
      · exact h3 _ e4
      · exact h4 q hq
    · rw [if_neg hf]
      obtain ⟨g', cid', h1, h2, h3, h4⟩ := ih f cid hp' ho
      refine ⟨g', cid', h1, h2, h3, ?_⟩
      intro q hq
      rcases List.mem_cons.1 hq with rfl | hq
      · exact h3 _ hf
      · exact h4 q hq

theorem mem_collect {n cid : Nat} {f : Nat → Lab} {cl : List Nat} : cl ∈ collect n f cid ↔ ∃ c, c < cid ∧ cl = (List.range n).filter (fun y => f y = .cl c) := by
  unfold collect
  rw [List.mem_map]
  constructor
  · rintro ⟨c, hc, rfl⟩; exact ⟨c, List.mem_range.1 hc, rfl⟩
  · rintro ⟨c, hc, rfl⟩; exact ⟨c, List.mem_range.2 hc, rfl⟩

/-- what `RegionQuery` is taken to be for the `n` hits: a set of hits, with the hit itself, and symmetric -/
structure Region (nb : Nat → List Nat) (n : Nat) : Prop where
  set : ∀ a, (nb a).Pairwise (· < ·)
  hits : ∀ a b, b ∈ nb a → b < n
  self : ∀ a, a < n → a ∈ nb a
  symm : ∀ a b, b ∈ nb a → a ∈ nb b

theorem run_out {n : Nat} (k : Nat) (hreg : Region nb n) : ∃ g cid, runDbscan nb k n = some (g, collect n g cid) ∧ Out nb k n cid g ∧ ∀ p < n, g p ≠ .no := by
  obtain ⟨g, cid, h1, h2, -, h4⟩ := loop_out (k := k) hreg.hits hreg.symm hreg.self hreg.set (List.range n) (fun _ => .no) 0 (fun p hp => List.mem_range.1 hp) (by
    constructor <;> simp)
  exact ⟨g, cid, by unfold runDbscan; rw [h1]; rfl, h2, fun p hp => h4 p (List.mem_range.2 hp)⟩

/-- **C103**: for every symmetric neighbourhood search that finds the hit itself, the clustering of `n` hits ends; all writes into the list of clusters are in range;
every cluster is a list of different hits with a core hit in it, each of them a neighbour of a core hit of the same cluster; no hit is in two clusters;
a hit is in no cluster exactly when it has no core hit among its neighbours (it counts as its own neighbour); two core hits are in the same cluster exactly if a chain of core hits links them -/
theorem C103_clusters (nb : Nat → List Nat) (k n : Nat) (hreg : Region nb n) :
    ∃ f cls, runDbscan nb k n = some (f, cls) ∧ (∀ x c, f x = .cl c → c < cls.length) ∧
      (∀ c ∈ cls, c.Pairwise (· < ·) ∧ (∀ x ∈ c, x < n ∧ ∃ y ∈ c, Core nb k y ∧ x ∈ nb y) ∧ ∃ x ∈ c, Core nb k x) ∧
      cls.Pairwise List.Disjoint ∧
      (∀ x < n, (∀ c ∈ cls, x ∉ c) ↔ ∀ y ∈ nb x, ¬ Core nb k y) ∧
      (∀ x < n, f x = .noise ↔ ∀ c ∈ cls, x ∉ c) ∧
      (∀ x < n, ∀ y < n, Core nb k x → Core nb k y → ((∃ c ∈ cls, x ∈ c ∧ y ∈ c) ↔ Linked nb k x y)) := by
  obtain ⟨g, cid, h1, ho, h4⟩ := run_out k hreg
  have hin : ∀ x, x < n → ∀ c, g x = .cl c → ∃ cl ∈ collect n g cid, x ∈ cl := by
    intro x hx c hc
    exact ⟨_, mem_collect.2 ⟨c, (ho.range x c hc).2, rfl⟩, List.mem_filter.2 ⟨List.mem_range.2 hx, by simp [hc]⟩⟩
  have hcore : ∀ x, x < n → Core nb k x → ∃ c, g x = .cl c := by
    intro x hx hc
    cases hg : g x with
    | no => exact absurd hg (h4 x hx)
    | noise => exact absurd hc (ho.noise x hg)
    | cl c => exact ⟨c, rfl⟩
  have hnoise : ∀ x < n, g x = .noise ↔ ∀ c ∈ collect n g cid, x ∉ c := by
    intro x hx
    constructor
    · intro hg c hc hxc
      obtain ⟨d, -, rfl⟩ := mem_collect.1 hc
      have := (List.mem_filter.1 hxc).2
      simp [hg] at this
    · intro hno
      cases hg : g x with
      | no => exact absurd hg (h4 x hx)
      | noise => rfl
      | cl c =>
        obtain ⟨cl, hcl, hxcl⟩ := hin x hx c hg
        exact absurd hxcl (hno cl hcl)
  refine ⟨g, _, h1, ?_, ?_, ?_, ?_, hnoise, ?_⟩
  · intro x c hx
    have := (ho.range x c hx).2
    simpa [collect] using this
  · intro cl hcl
    obtain ⟨c, hc, rfl⟩ := mem_collect.1 hcl
    refine ⟨List.pairwise_lt_range.sublist List.filter_sublist, ?_, ?_⟩
    · intro x hx
      obtain ⟨hx1, hx2⟩ := List.mem_filter.1 hx
      refine ⟨List.mem_range.1 hx1, ?_⟩
      obtain ⟨y, hy1, hy2, hy3⟩ := ho.near x c (by simpa using hx2)
      exact ⟨y, List.mem_filter.2 ⟨List.mem_range.2 (ho.range y c hy1).1, by simp [hy1]⟩, hy2, hy3⟩
    · obtain ⟨x, hx1, hx2⟩ := ho.full c hc
      exact ⟨x, List.mem_filter.2 ⟨List.mem_range.2 (ho.range x c hx1).1, by simp [hx1]⟩, hx2⟩
  · unfold collect
    rw [List.pairwise_map]
    refine List.nodup_range.imp ?_
    intro a b hab x hx hy
    have h5 := (List.mem_filter.1 hx).2
    have h6 := (List.mem_filter.1 hy).2
    simp only [decide_eq_true_eq] at h5 h6
    rw [h5] at h6; cases h6; exact hab rfl
  · intro x hx
    constructor
    · intro hno y hy hyc
      have hg := (hnoise x hx).2 hno
      obtain ⟨c, hc⟩ := hcore y (hreg.hits x y hy) hyc
      obtain ⟨⟨d, hd⟩, -⟩ := ho.closed y c hc hyc x (hreg.symm x y hy)
      rw [hg] at hd; cases hd
    · intro hno cl hcl hxcl
      obtain ⟨c, hc, rfl⟩ := mem_collect.1 hcl
      obtain ⟨y, hy1, hy2, hy3⟩ := ho.near x c (by simpa using (List.mem_filter.1 hxcl).2)
      exact hno y (hreg.symm y x hy3) hy2
  · intro x hx y hy hxc hyc
    constructor
    · rintro ⟨cl, hcl, hx1, hy1⟩
      obtain ⟨c, hc, rfl⟩ := mem_collect.1 hcl
      exact ho.link x y c (by simpa using (List.mem_filter.1 hx1).2) (by simpa using (List.mem_filter.1 hy1).2) hxc hyc
    · intro hl
      obtain ⟨c, hc⟩ := hcore x hx hxc
      have : ∀ z, Linked nb k x z → g z = .cl c := by
        intro z hz
        induction hz with
        | refl => exact hc
        | tail _ hbc ih => exact (ho.closed _ c ih hbc.1 _ hbc.2.2).2 hbc.2.1
      refine ⟨_, mem_collect.2 ⟨c, (ho.range x c hc).2, rfl⟩, List.mem_filter.2 ⟨List.mem_range.2 hx, by simp [hc]⟩, List.mem_filter.2 ⟨List.mem_range.2 hy, by simp [this y hl]⟩⟩

/-- **C103**: the set-based method with `minPts + 1` and the queue-based method (which leaves the hit itself out of its neighbours, `RegionQuery_vector`, DBScanAlg.cxx:588-605) with `minPts`
leave out the same hits and put the same core hits together -/
theorem C103_agree (nb : Nat → List Nat) (k n : Nat) (hreg : Region nb n) :
    ∃ f cls s, runDbscan nb (k + 1) n = some (f, cls) ∧ DBQueue.dbscan (fun a => (nb a).erase a) k (List.range n) = some s ∧
      (∀ x < n, (∀ c ∈ cls, x ∉ c) ↔ ∀ c ∈ s.done, x ∉ c) ∧
      (∀ x < n, ∀ y < n, Core nb (k + 1) x → Core nb (k + 1) y → ((∃ c ∈ cls, x ∈ c ∧ y ∈ c) ↔ ∃ c ∈ s.done, x ∈ c ∧ y ∈ c)) := by
  have hcore : ∀ x, x < n → (Core nb (k + 1) x ↔ Core (fun a => (nb a).erase a) k x) := by
    intro x hx
    have := List.length_erase_of_mem (hreg.self x hx)
    have h2 := List.length_pos_of_mem (hreg.self x hx)
    show k + 1 ≤ (nb x).length ↔ k ≤ ((nb x).erase x).length
    omega
  have hmem : ∀ x y, y ∈ (nb x).erase x ↔ y ≠ x ∧ y ∈ nb x := fun x y => erase_mem_iff (hreg.set x) y x
  have hn' : ∀ a ∈ List.range n, ∀ b ∈ (nb a).erase a, b ∈ List.range n := by
    intro a _ b hb; exact List.mem_range.2 (hreg.hits a b (List.mem_of_mem_erase hb))
  have hs' : ∀ a b, b ∈ (nb a).erase a → a ∈ (nb b).erase b := by
    intro a b hb
    rw [hmem] at hb ⊢
    exact ⟨fun h => hb.1 h.symm, hreg.symm a b hb.2⟩
  obtain ⟨f, cls, h1, -, -, -, h2, -, h3⟩ := C103_clusters nb (k + 1) n hreg
  obtain ⟨s, g1, -, -, -, -, g2, -⟩ := DBQueue.C102_clusters (fun a => (nb a).erase a) k (List.range n) hn'
  obtain ⟨s', g1', g3⟩ := DBQueue.C102_linked (fun a => (nb a).erase a) k (List.range n) hn' hs'
  rw [g1] at g1'; cases g1'
  refine ⟨f, cls, s, h1, g1, ?_, ?_⟩
  · intro x hx
    rw [h2 x hx]
    have := g2 x (List.mem_range.2 hx)
    have hfl : (∀ c ∈ s.done, x ∉ c) ↔ x ∉ s.done.flatten := by
      rw [List.mem_flatten]; push Not; rfl
    rw [hfl, this]
    constructor
    · intro h
      refine ⟨fun hc => h x (hreg.self x hx) ((hcore x hx).2 hc), ?_⟩
      intro y hy hyc hxy
      have hy' := List.mem_range.1 hy
      exact h y (hreg.symm _ _ (List.mem_of_mem_erase hxy)) ((hcore y hy').2 hyc)
    · rintro ⟨h4, h5⟩ y hy hyc
      have hy' := hreg.hits x y hy
      by_cases hyx : y = x
      · subst hyx; exact h4 ((hcore y hy').1 hyc)
      · exact h5 y (List.mem_range.2 hy') ((hcore y hy').1 hyc) ((hmem y x).2 ⟨fun h => hyx h.symm, hreg.symm x y hy⟩)
  · intro x hx y hy hxc hyc
    rw [h3 x hx y hy hxc hyc, g3 x (List.mem_range.2 hx) y (List.mem_range.2 hy) ((hcore x hx).1 hxc) ((hcore y hy).1 hyc)]
    constructor
    · intro h
      have : ∀ z, Linked nb (k + 1) x z → Linked (fun a => (nb a).erase a) k x z := by
        intro z hz
        induction hz with
        | refl => exact .refl
        | @tail b c _ hbc ih =>
          by_cases hcb : c = b
          · subst hcb; exact ih
          · have hc' := hreg.hits b c hbc.2.2
            have hb' := hreg.hits c b (hreg.symm b c hbc.2.2)
            exact .tail ih ⟨(hcore b hb').1 hbc.1, (hcore c hc').1 hbc.2.1, (hmem b c).2 ⟨hcb, hbc.2.2⟩⟩
      exact this y h
    · intro h
      have : ∀ z, Linked (fun a => (nb a).erase a) k x z → Linked nb (k + 1) x z := by
        intro z hz
        induction hz with
        | refl => exact .refl
        | @tail b c _ hbc ih =>
          have h6 := ((hmem b c).1 hbc.2.2).2
          have hc' := hreg.hits b c h6
          have hb' := hreg.hits c b (hreg.symm b c h6)
          exact .tail ih ⟨(hcore b hb').2 hbc.1, (hcore c hc').2 hbc.2.1, h6⟩
      exact this y h

/-- a border hit 0 between the core hits 1 and 4, a hit 6 on its own -/
def sampleReg (a : Nat) : List Nat := [[0, 1, 4], [0, 1, 2, 3], [1, 2], [1, 3], [0, 4, 5, 7], [4, 5], [6], [4, 7]].getD a []

theorem sampleReg_region : Region sampleReg 8 := by
  have hout : ∀ a, 8 ≤ a → sampleReg a = [] := by
    intro a ha
    unfold sampleReg
    rw [List.getD_eq_getElem?_getD, List.getElem?_eq_none (by simpa using ha)]; rfl
  have hcase : ∀ a, a < 8 ∨ sampleReg a = [] := fun a => (Nat.lt_or_ge a 8).imp_right (hout a)
  refine ⟨?_, ?_, ?_, ?_⟩
  · intro a
    rcases hcase a with h | h
    · revert a; decide +kernel
    · rw [h]; simp
  · intro a b hb
    rcases hcase a with h | h
    · revert b; revert a; decide +kernel
    · rw [h] at hb; simp at hb
  · decide +kernel
  · intro a b hb
    rcases hcase a with h | h
    · revert b; revert a; decide +kernel
    · rw [h] at hb; simp at hb

/-- hit 0 was noise first, came into the cluster of hit 1 and is taken over by that of hit 4 -/
example : (runDbscan sampleReg 4 8).map (fun r => r.2) = some [[1, 2, 3], [0, 4, 5, 7]] := by decide +kernel

/-- hit 1 finds hit 0, but not the other way -/
def oneWay (a : Nat) : List Nat := [[0], [0, 1]].getD a []

/-- symmetry is needed: a search that finds hit 0 from hit 1 but not the other way makes two clusters of which the first one is empty -/
theorem C103_asymmetric_refuted : ∃ nb k n f cls, runDbscan nb k n = some (f, cls) ∧ (∀ a, (nb a).Pairwise (· < ·)) ∧ (∀ a b, b ∈ nb a → b < n) ∧ (∀ a, a < n → a ∈ nb a) ∧ [] ∈ cls := by
  cases hd : runDbscan oneWay 1 2 with
  | none =>
    have : (runDbscan oneWay 1 2).isSome = true := by decide +kernel
    rw [hd] at this; simp at this
  | some s =>
    have h1 : (runDbscan oneWay 1 2).map (fun s => s.2) = some [[], [0, 1]] := by decide +kernel
    rw [hd] at h1
    simp at h1
    have hcase : ∀ a, a < 2 ∨ oneWay a = [] := by
      intro a
      rcases Nat.lt_or_ge a 2 with h | h
      · exact Or.inl h
      · right; unfold oneWay; rw [List.getD_eq_getElem?_getD, List.getElem?_eq_none (by simpa using h)]; rfl
    refine ⟨oneWay, 1, 2, s.1, s.2, hd, ?_, ?_, by decide +kernel, by rw [h1]; simp⟩
    · intro a
      rcases hcase a with h | h
      · revert a; decide +kernel
      · rw [h]; simp
    · intro a b hb
      rcases hcase a with h | h
      · revert b; revert a; decide +kernel
      · rw [h] at hb; simp at hb

end Verif.DBSet

import Verif.PMAlg.TreeIds
import Mathlib.Analysis.Real.Sqrt
/-! # Track trees: branches, attachment, nearest track -/
namespace Verif.PMAlg.Tree
open Relation

variable {g : Graph} {T : List Nat}

theorem fold_filter {m : Type → Type} [Monad m] [LawfulMonad m] {β : Type} (F : β → Nat → m β) (p : Nat → Prop)
    [DecidablePred p] (h : Nat → Nat) (l : List Nat) (b : β) :
    l.foldlM (fun b s => if p (h s) then F b (h s) else pure b) b =
      ((l.filter fun s => p (h s)).map h).foldlM F b := by
  induction l generalizing b with
  | nil => rfl
  | cons a l ih =>
    simp only [List.foldlM_cons]
    by_cases hp : p (h a)
    · simp only [hp, if_true, List.filter_cons, decide_true, List.map_cons, List.foldlM_cons, ih]
    · simp only [hp, if_false, List.filter_cons, decide_false, pure_bind, ih, Bool.false_eq_true]

theorem kids_eq (t : Nat) (skip : Bool) :
    kids g t skip = (((if skip then (g.nodes t).drop 1 else g.nodes t).flatMap g.next).filter
      fun s => g.trk s ≠ t).map g.trk := by
  unfold kids
  generalize (if skip then (g.nodes t).drop 1 else g.nodes t) = l
  induction l with
  | nil => rfl
  | cons a l ih => simp only [List.flatMap_cons, List.filter_append, List.map_append, ih]

theorem getBranches_succ (f : Nat) (br : List Nat) (t : Nat) (skip : Bool) (h : t ∉ br) :
    getBranches g (f + 1) br t skip =
      (kids g t skip).foldlM (fun br u => getBranches g f br u true) (br ++ [t]) := by
  rw [getBranches, if_neg h, kids_eq]
  exact fold_filter (m := Except Err) (fun br u => getBranches g f br u true) (fun u => u ≠ t) g.trk _ _

theorem below_head {t x : Nat} :
    Below g T t x ↔ t = x ∨ ∃ u, Child g T t u ∧ Below g T u x :=
  ⟨fun h => by
    rcases ReflTransGen.cases_head h with h | ⟨u, h1, h2⟩
    · exact Or.inl h
    · exact Or.inr ⟨u, h1, h2⟩,
   fun h => by
    rcases h with rfl | ⟨u, h1, h2⟩
    · exact ReflTransGen.refl
    · exact ReflTransGen.head h1 h2⟩

theorem Forest.not_below_up (hF : Forest g T) {t u : Nat} (ht : t ∈ T) (h : Child g T t u) : ¬ Below g T u t := by
  obtain ⟨R, hR⟩ := hF.rank
  have key : ∀ a b, a ∈ T → Below g T a b → R a ≤ R b := by
    intro a b ha hb
    induction hb with
    | refl => exact le_refl _
    | @tail y z h1 h2 ih =>
      have := hR y (Forest.below_T ha h1) z h2
      omega
  intro hb
  have h1 := key u t h.1 hb
  have h2 := hR t ht u h
  omega

/-- the branches below two tracks of a family are apart -/
theorem branches_fold {F : List Nat → Nat → Except Err (List Nat)} (B : Nat → Nat → Prop) (ks : List Nat)
    (hnd : ks.Nodup)
    (happ : ∀ u ∈ ks, ∀ br, (∀ x ∈ br, ¬ B u x) →
      ∃ l, F br u = .ok (br ++ l) ∧ l.Nodup ∧ ∀ x, x ∈ l ↔ B u x)
    (hdisj : ∀ u ∈ ks, ∀ w ∈ ks, ∀ x, B u x → B w x → u = w) :
    ∀ br, (∀ x ∈ br, ∀ u ∈ ks, ¬ B u x) →
      ∃ l, ks.foldlM F br = .ok (br ++ l) ∧ l.Nodup ∧ ∀ x, x ∈ l ↔ ∃ u ∈ ks, B u x := by
  induction ks with
  | nil => intro br _; exact ⟨[], by simp [pure, Except.pure], List.nodup_nil, by simp⟩
  | cons a ks ih =>
    intro br hbr
    obtain ⟨l, h1, h2, h3⟩ := happ a (List.mem_cons_self ..) br (fun x hx => hbr x hx a (List.mem_cons_self ..))
    have hnd' := List.nodup_cons.1 hnd
    obtain ⟨l', h4, h5, h6⟩ := ih hnd'.2 (fun u hu => happ u (List.mem_cons_of_mem _ hu))
      (fun u hu w hw => hdisj u (List.mem_cons_of_mem _ hu) w (List.mem_cons_of_mem _ hw)) (br ++ l) (by
        intro x hx u hu hB
        rcases List.mem_append.1 hx with hx | hx
        · exact hbr x hx u (List.mem_cons_of_mem _ hu) hB
        · have := hdisj a (List.mem_cons_self ..) u (List.mem_cons_of_mem _ hu) x ((h3 x).1 hx) hB
          subst this
          exact hnd'.1 hu)
    refine ⟨l ++ l', ?_, ?_, ?_⟩
    · rw [List.foldlM_cons, h1]
      show List.foldlM F (br ++ l) ks = _
      rw [h4, List.append_assoc]
    · rw [List.nodup_append']
      refine ⟨h2, h5, ?_⟩
      rw [List.disjoint_left]
      intro x hx hx'
      obtain ⟨u, hu, hB⟩ := (h6 x).1 hx'
      have := hdisj a (List.mem_cons_self ..) u (List.mem_cons_of_mem _ hu) x ((h3 x).1 hx) hB
      subst this
      exact hnd'.1 hu
    · intro x
      rw [List.mem_append, h3, h6]
      simp only [List.mem_cons]
      constructor
      · rintro (h | ⟨u, hu, h⟩)
        · exact ⟨a, Or.inl rfl, h⟩
        · exact ⟨u, Or.inr hu, h⟩
      · rintro ⟨u, rfl | hu, h⟩
        · exact Or.inl h
        · exact Or.inr ⟨u, hu, h⟩

theorem Forest.getBranches_spec (hF : Forest g T) : ∀ t ∈ T,
    ∃ N, ∀ f, N ≤ f → ∀ br, (∀ x ∈ br, ¬ Below g T t x) →
      ∃ l, getBranches g f br t true = .ok (br ++ l) ∧ l.Nodup ∧ ∀ x, x ∈ l ↔ Below g T t x := by
  refine hF.downward ?_
  intro t ht ih
  obtain ⟨N, hN⟩ := bound (kids g t true) (fun u hu => ih u ((hF.mem_kids_true ht u).1 hu))
  refine ⟨N + 1, ?_⟩
  intro f hf br hbr
  obtain ⟨f, rfl⟩ : ∃ f', f = f' + 1 := ⟨f - 1, by omega⟩
  have htb : t ∉ br := fun h => hbr t h ReflTransGen.refl
  rw [getBranches_succ f br t true htb]
  obtain ⟨l, h1, h2, h3⟩ := branches_fold (F := fun br u => getBranches g f br u true) (Below g T) (kids g t true)
    (hF.kids_nodup_true ht) (fun u hu br => hN u hu f (by omega) br)
    (by
      intro u hu w hw x hux hwx
      have hu' := (hF.mem_kids_true ht u).1 hu
      have hw' := (hF.mem_kids_true ht w).1 hw
      have aux : ∀ u w, Child g T t u → Child g T t w → Below g T u w → u = w := by
        intro u w hu hw hb
        rcases ReflTransGen.cases_tail hb with rfl | ⟨y, h1, h2⟩
        · rfl
        · have := hF.parent_unique (Forest.below_T hu.1 h1) ht h2 hw
          subst this
          exact absurd h1 (hF.not_below_up ht hu)
      rcases hF.in_line hu'.1 hw'.1 hux hwx with h | h
      · exact aux u w hu' hw' h
      · exact (aux w u hw' hu' h).symm)
    (br ++ [t]) (by
      intro x hx u hu hb
      have hu' := (hF.mem_kids_true ht u).1 hu
      rcases List.mem_append.1 hx with hx | hx
      · exact hbr x hx (ReflTransGen.head hu' hb)
      · rw [List.mem_singleton] at hx
        subst hx
        exact hF.not_below_up ht hu' hb)
  refine ⟨t :: l, by rw [h1, List.append_assoc]; rfl, ?_, ?_⟩
  · refine List.nodup_cons.2 ⟨fun h => ?_, h2⟩
    obtain ⟨u, hu, hb⟩ := (h3 t).1 h
    exact hF.not_below_up ht ((hF.mem_kids_true ht u).1 hu) hb
  · intro x
    rw [List.mem_cons, h3, below_head]
    constructor
    · rintro (rfl | ⟨u, hu, hb⟩)
      · exact Or.inl rfl
      · exact Or.inr ⟨u, (hF.mem_kids_true ht u).1 hu, hb⟩
    · rintro (rfl | ⟨u, hu, hb⟩)
      · exact Or.inl rfl
      · exact Or.inr ⟨u, (hF.mem_kids_true ht u).2 hu, hb⟩

/-- for a track at the root of its tree: itself, the tracks that start at the same node, and all below them -/
theorem Forest.tree_of_root (hF : Forest g T) {t x v0 : Nat} (ht : t ∈ T) (h0 : front g t = some v0)
    (hp : g.prev v0 = none) :
    (x = t ∨ ∃ u ∈ kids g t false, Below g T u x) ↔ x ∈ T ∧ Conn g T t x := by
  have hr : IsRoot g T t := ⟨ht, v0, h0, hp⟩
  constructor
  · rintro (rfl | ⟨u, hu, hb⟩)
    · exact ⟨ht, EqvGen.refl _⟩
    · obtain ⟨huT, _, h | h⟩ := (hF.mem_kids_false ht h0 hp u).1 hu
      · exact ⟨Forest.below_T huT hb, hF.root_conn hr ⟨huT, v0, h, hp⟩ ReflTransGen.refl hb (h0.trans h.symm)⟩
      · exact ⟨Forest.below_T huT hb, Forest.below_conn ht (ReflTransGen.head h hb)⟩
  · rintro ⟨hx, hc⟩
    obtain ⟨r, _, hr', hb, _⟩ := hF.getRoot_spec x hx
    have hf := hF.conn_root hc ht t r hr hr' ReflTransGen.refl hb
    by_cases hrt : r = t
    · subst hrt
      rcases below_head.1 hb with rfl | ⟨u, hu, hb'⟩
      · exact Or.inl rfl
      · exact Or.inr ⟨u, (hF.mem_kids_false ht h0 hp u).2 ⟨hu.1, hF.child_ne hu, Or.inr hu⟩, hb'⟩
    · exact Or.inr ⟨r, (hF.mem_kids_false ht h0 hp r).2 ⟨hr'.1, hrt, Or.inl (hf ▸ h0)⟩, hb⟩

/-- **C112** (branches). For a track whose first node is not entered, the listing of its tree ends without the loop
exception and lists each track of the tree once, and no other track. -/
theorem C112_branches (hF : Forest g T) {t v0 : Nat} (ht : t ∈ T) (h0 : front g t = some v0)
    (hp : g.prev v0 = none) :
    ∃ N, ∀ f, N ≤ f → ∃ l, getBranches g f [] t false = .ok l ∧ l.Nodup ∧
      ∀ x, x ∈ l ↔ x ∈ T ∧ Conn g T t x := by
  have hr : IsRoot g T t := ⟨ht, v0, h0, hp⟩
  obtain ⟨N, hN⟩ := bound (kids g t false) (fun u hu => hF.getBranches_spec u (hF.kids_T hu))
  refine ⟨N + 1, ?_⟩
  intro f hf
  obtain ⟨f, rfl⟩ : ∃ f', f = f' + 1 := ⟨f - 1, by omega⟩
  rw [getBranches_succ f [] t false (by simp)]
  have hsib : ∀ u, front g u = some v0 → u ∈ T → IsRoot g T u := fun u h hu => ⟨hu, v0, h, hp⟩
  obtain ⟨l, h1, h2, h3⟩ := branches_fold (F := fun br u => getBranches g f br u true) (Below g T) (kids g t false)
    (hF.kids_nodup_false ht h0 hp) (fun u hu br => hN u hu f (by omega) br)
    (by
      have aux : ∀ u w, u ∈ kids g t false → w ∈ kids g t false → Below g T u w → u = w := by
        intro u w hu hw hb
        obtain ⟨hwT, _, h | h⟩ := (hF.mem_kids_false ht h0 hp w).1 hw
        · exact hF.below_root (hF.kids_T hu) (hsib w h hwT) hb
        · rcases ReflTransGen.cases_tail hb with rfl | ⟨y, h1, h2⟩
          · rfl
          · have := hF.parent_unique (Forest.below_T (hF.kids_T hu) h1) ht h2 h
            subst this
            exact absurd (hF.below_root (hF.kids_T hu) hr h1) ((hF.mem_kids_false ht h0 hp u).1 hu).2.1
      intro u hu w hw x hux hwx
      rcases hF.in_line (hF.kids_T hu) (hF.kids_T hw) hux hwx with h | h
      · exact aux u w hu hw h
      · exact (aux w u hw hu h).symm)
    ([] ++ [t]) (by
      intro x hx u hu hb
      rw [List.nil_append, List.mem_singleton] at hx
      subst hx
      exact ((hF.mem_kids_false ht h0 hp u).1 hu).2.1 (hF.below_root (hF.kids_T hu) hr hb))
  refine ⟨t :: l, by rw [h1]; rfl, ?_, ?_⟩
  · refine List.nodup_cons.2 ⟨fun h => ?_, h2⟩
    obtain ⟨u, hu, hb⟩ := (h3 t).1 h
    exact ((hF.mem_kids_false ht h0 hp u).1 hu).2.1 (hF.below_root (hF.kids_T hu) hr hb)
  · intro x
    rw [List.mem_cons, h3, hF.tree_of_root ht h0 hp]

/-- **C112** (attachment). For two tracks whose first nodes are not entered, the test ends without the loop exception
and answers whether the two are tracks of one tree. -/
theorem C112_attached_partial (hF : Forest g T) {a b va vb : Nat} (ha : a ∈ T) (hb : b ∈ T) (h0 : front g a = some va)
    (hp : g.prev va = none) (h0' : front g b = some vb) (hp' : g.prev vb = none) :
    ∃ N, ∀ f, N ≤ f → ∃ r, isAttachedTo g f a b = .ok r ∧ (r = true ↔ Conn g T a b) := by
  obtain ⟨N1, h1⟩ := C112_branches hF ha h0 hp
  obtain ⟨N2, h2⟩ := C112_branches hF hb h0' hp'
  refine ⟨max N1 N2, fun f hf => ?_⟩
  obtain ⟨la, h3, _, h5⟩ := h1 f (le_trans (le_max_left _ _) hf)
  obtain ⟨lb, h6, _, h8⟩ := h2 f (le_trans (le_max_right _ _) hf)
  unfold isAttachedTo
  by_cases hab : b = a
  · rw [if_pos hab]
    exact ⟨true, rfl, by rw [hab]; exact ⟨fun _ => EqvGen.refl _, fun _ => rfl⟩⟩
  · rw [if_neg hab]
    simp only [h3, h6]
    refine ⟨_, rfl, ?_⟩
    rw [List.any_eq_true]
    constructor
    · rintro ⟨x, hx, hy⟩
      rw [List.any_eq_true] at hy
      obtain ⟨y, hy, he⟩ := hy
      simp only [decide_eq_true_eq] at he
      subst he
      exact EqvGen.trans _ _ _ ((h5 x).1 hx).2 (EqvGen.symm _ _ ((h8 x).1 hy).2)
    · intro hc
      refine ⟨a, (h5 a).2 ⟨ha, EqvGen.refl _⟩, ?_⟩
      rw [List.any_eq_true]
      exact ⟨a, (h8 a).2 ⟨ha, EqvGen.symm _ _ hc⟩, by simp⟩

/-- **C112** (root). Following the tracks upwards ends at the only track above `t` that has a first node which is
not entered. -/
theorem C112_root (hF : Forest g T) {t : Nat} (ht : t ∈ T) :
    ∃ N r, (∀ f, N ≤ f → getRoot g f t = some r) ∧ IsRoot g T r ∧ Below g T r t ∧
      ∀ r', IsRoot g T r' → Below g T r' t → r' = r := by
  obtain ⟨r, N, h1, h2, h3⟩ := hF.getRoot_spec t ht
  exact ⟨N, r, h3, h1, h2, fun r' h4 h5 => hF.root_unique h4 h1 h5 h2⟩

example : (getBranches exG 10 [] 0 false, getBranches exG 10 [] 3 false) =
    (.ok [0, 3, 1, 2], .ok [3, 0, 1, 2]) := by decide
example : (isAttachedTo exG 10 0 3, isAttachedTo exG 10 0 4) = (.ok true, .ok false) := by decide
example : getRoot exG 10 2 = some 0 := by decide
example : (0 : Nat) ∈ [0, 1, 2, 3, 4] ∧ front exG 0 = some 0 ∧ exG.prev 0 = none ∧ front exG 4 = some 6 ∧
    exG.prev 6 = none := by decide

/-- **C112, refuted for daughters.** Track 1 leaves track 0 at an inner node: asked about it, the test of attachment
throws the loop exception although the tracks form a tree. -/
theorem C112_daughter_refuted : Forest exG [0, 1, 2, 3, 4] ∧ isAttachedTo exG 10 1 4 = .error .loop ∧
    isAttachedTo exG 10 0 1 = .error .loop :=
  ⟨exG_forest, by decide, by decide⟩

/-! ### the nearest track -/

theorem nearest_fold {K : Type} [LinearOrder K] (d : Nat → K) (G : Nat → Option (Nat × K)) (B : Nat → Nat → Prop)
    (ks : List Nat)
    (hG : ∀ u ∈ ks, ∃ r, G u = some (r, d r) ∧ B u r ∧ ∀ x, B u x → d r ≤ d x) :
    ∀ (b : Nat), ∃ r, ks.foldlM (fun (b : Nat × K) u =>
        match G u with
        | none => none
        | some r => some (if r.2 < b.2 then r else b)) (b, d b) = some (r, d r) ∧
      (r = b ∨ ∃ u ∈ ks, B u r) ∧ d r ≤ d b ∧ ∀ u ∈ ks, ∀ x, B u x → d r ≤ d x := by
  induction ks with
  | nil => intro b; exact ⟨b, rfl, Or.inl rfl, le_refl _, by simp⟩
  | cons a ks ih =>
    intro b
    obtain ⟨r1, h1, h2, h3⟩ := hG a (List.mem_cons_self ..)
    have ih' := ih (fun u hu => hG u (List.mem_cons_of_mem _ hu))
    by_cases hlt : d r1 < d b
    · obtain ⟨r, h4, h5, h6, h7⟩ := ih' r1
      refine ⟨r, ?_, ?_, le_trans h6 (le_of_lt hlt), ?_⟩
      · rw [List.foldlM_cons, h1]
        simp only [hlt, if_true]
        exact h4
      · rcases h5 with rfl | ⟨u, hu, h⟩
        · exact Or.inr ⟨a, List.mem_cons_self .., h2⟩
        · exact Or.inr ⟨u, List.mem_cons_of_mem _ hu, h⟩
      · intro u hu x hx
        rcases List.mem_cons.1 hu with rfl | hu
        · exact le_trans h6 (h3 x hx)
        · exact h7 u hu x hx
    · obtain ⟨r, h4, h5, h6, h7⟩ := ih' b
      refine ⟨r, ?_, ?_, h6, ?_⟩
      · rw [List.foldlM_cons, h1]
        simp only [hlt, if_false]
        exact h4
      · rcases h5 with rfl | ⟨u, hu, h⟩
        · exact Or.inl rfl
        · exact Or.inr ⟨u, List.mem_cons_of_mem _ hu, h⟩
      · intro u hu x hx
        rcases List.mem_cons.1 hu with rfl | hu
        · exact le_trans h6 (le_trans (not_lt.1 hlt) (h3 x hx))
        · exact h7 u hu x hx

theorem Forest.nearest_spec {K : Type} [LinearOrder K] (hF : Forest g T) (d : Nat → K) : ∀ t ∈ T,
    ∃ N, ∀ f, N ≤ f → ∃ r, nearest g d f t true = some (r, d r) ∧ Below g T t r ∧
      ∀ x, Below g T t x → d r ≤ d x := by
  refine hF.downward ?_
  intro t ht ih
  obtain ⟨N, hN⟩ := bound (kids g t true) (fun u hu => ih u ((hF.mem_kids_true ht u).1 hu))
  refine ⟨max (N + 1) (g.nodes t).length, ?_⟩
  intro f hf
  obtain ⟨f, rfl⟩ : ∃ f', f = f' + 1 := ⟨f - 1, by omega⟩
  simp only [nearest]
  rw [hF.kidsOf_eq ht true (by omega)]
  obtain ⟨r, h1, h2, h3, h4⟩ := nearest_fold d (fun u => nearest g d f u true) (Below g T) (kids g t true)
    (fun u hu => hN u hu f (by omega)) t
  refine ⟨r, h1, ?_, ?_⟩
  · rcases h2 with rfl | ⟨u, hu, h⟩
    · exact ReflTransGen.refl
    · exact ReflTransGen.head ((hF.mem_kids_true ht u).1 hu) h
  · intro x hx
    rcases below_head.1 hx with rfl | ⟨u, hu, hb⟩
    · exact h3
    · exact h4 u ((hF.mem_kids_true ht u).2 hu) x hb

/-- **C113** (nearest track, point in space). For a track whose first node is not entered, the search ends and
returns a track of the tree together with its distance, which is the smallest over all tracks of the tree. -/
theorem C113_nearest {K : Type} [LinearOrder K] (hF : Forest g T) (d : Nat → K) {t v0 : Nat} (ht : t ∈ T)
    (h0 : front g t = some v0) (hp : g.prev v0 = none) :
    ∃ N, ∀ f, N ≤ f → ∃ r, nearest g d f t false = some (r, d r) ∧ r ∈ T ∧ Conn g T t r ∧
      ∀ x ∈ T, Conn g T t x → d r ≤ d x := by
  obtain ⟨N, hN⟩ := bound (kids g t false) (fun u hu => hF.nearest_spec d u (hF.kids_T hu))
  refine ⟨max (N + 1) (g.nodes t).length, ?_⟩
  intro f hf
  obtain ⟨f, rfl⟩ : ∃ f', f = f' + 1 := ⟨f - 1, by omega⟩
  simp only [nearest]
  rw [hF.kidsOf_eq ht false (by omega)]
  obtain ⟨r, h1, h2, h3, h4⟩ := nearest_fold d (fun u => nearest g d f u true) (Below g T) (kids g t false)
    (fun u hu => hN u hu f (by omega)) t
  have hrr := (hF.tree_of_root ht h0 hp).1 h2
  refine ⟨r, h1, hrr.1, hrr.2, ?_⟩
  intro x hx hc
  rcases (hF.tree_of_root ht h0 hp).2 ⟨hx, hc⟩ with rfl | ⟨u, hu, hb⟩
  · exact h3
  · exact h4 u hu x hb

example : nearest exG (fun t => 10 - t * t) 10 0 false = some (3, 1) := by decide

/-- the tree of two tracks used below: track 1 leaves track 0 at its node 1 -/
def exG2 : Graph where
  nodes := fun t => match t with | 0 => [0, 1] | 1 => [1, 2] | _ => []
  next := fun v => match v with | 0 => [10] | 1 => [11] | _ => []
  prev := fun v => match v with | 1 => some 10 | 2 => some 11 | _ => none
  trk := fun s => match s with | 11 => 1 | _ => 0
  snext := fun s => match s with | 10 => some 1 | 11 => some 2 | _ => none

theorem exG2_forest : Forest exG2 [0, 1] where
  two := by simp [exG2]
  joined := by
    intro t ht i v w h1 h2
    simp only [List.mem_cons, List.not_mem_nil, or_false] at ht
    rcases ht with rfl | rfl <;> rcases i with _ | _ | _ | i <;> simp [exG2] at h1 h2 <;>
      subst h1 <;> subst h2 <;> simp [exG2]
  seg := by
    intro v s hs
    have : (v = 0 ∧ s = 10) ∨ (v = 1 ∧ s = 11) := by
      unfold exG2 at hs
      simp only at hs
      split at hs <;> simp at hs ⊢ <;> omega
    rcases this with ⟨rfl, rfl⟩ | ⟨rfl, rfl⟩
    · exact ⟨by simp [exG2], 0, 1, rfl, rfl, rfl, rfl⟩
    · exact ⟨by simp [exG2], 0, 2, rfl, rfl, rfl, rfl⟩
  entered := by
    intro w s h
    have : (w = 1 ∧ s = 10) ∨ (w = 2 ∧ s = 11) := by
      unfold exG2 at h
      simp only at h
      split at h <;> simp at h ⊢ <;> omega
    rcases this with ⟨rfl, rfl⟩ | ⟨rfl, rfl⟩
    · exact ⟨0, by decide, rfl⟩
    · exact ⟨1, by decide, rfl⟩
  once := by
    intro v
    unfold exG2
    simp only
    split <;> decide
  acyclic := by
    refine ⟨id, fun v s hs w h => ?_⟩
    have : (v = 0 ∧ s = 10) ∨ (v = 1 ∧ s = 11) := by
      unfold exG2 at hs
      simp only at hs
      split at hs <;> simp at hs ⊢ <;> omega
    rcases this with ⟨rfl, rfl⟩ | ⟨rfl, rfl⟩ <;> cases h <;> decide

theorem sqrt_of {a b : ℝ} (hb : 0 ≤ b) (h : b * b = a) : Real.sqrt a = b := by
  rw [← h]; exact Real.sqrt_mul_self hb

theorem nearest2_ex (d2 : Nat → ℝ) : nearest2 exG2 Real.sqrt d2 10 0 false =
    some (if Real.sqrt (d2 1) < d2 0 then (1, Real.sqrt (Real.sqrt (d2 1))) else (0, Real.sqrt (d2 0))) := by
  have h0 : ∀ f, kidsOf exG2 (f + 3) 0 false = some [1] := by
    intro f
    exact exG2_forest.kidsOf_eq (t := 0) (by decide) false (by show 2 ≤ _; omega)
  have h1 : ∀ f, kidsOf exG2 (f + 3) 1 true = some [] := by
    intro f
    exact exG2_forest.kidsOf_eq (t := 1) (by decide) true (by show 2 ≤ _; omega)
  have e1 : nearest2 exG2 Real.sqrt d2 9 1 true = some (1, Real.sqrt (d2 1)) := by
    unfold nearest2
    rw [h1 6]
    rfl
  unfold nearest2
  rw [h0 7]
  simp only [List.foldlM_cons, List.foldlM_nil, e1]
  by_cases h : Real.sqrt (d2 1) < d2 0 <;> simp [h]

/-- **C113, refuted for a point of a view.** The search compares the distance of a daughter with the squared distance
of the track, so with distances 1/3 and 1/4 it returns the farther track; and the distance it returns for a daughter
is the square root of the distance. -/
theorem C113_view_refuted :
    (∃ d : Nat → ℝ, d 1 < d 0 ∧ 0 ≤ d 1 ∧ nearest2 exG2 Real.sqrt (fun t => d t ^ 2) 10 0 false = some (0, d 0)) ∧
    (∃ d : Nat → ℝ, 0 ≤ d 1 ∧ d 1 ≠ 2 ∧
      nearest2 exG2 Real.sqrt (fun t => d t ^ 2) 10 0 false = some (1, 2)) := by
  constructor
  · refine ⟨fun t => if t = 0 then 1 / 3 else 1 / 4, by norm_num, by norm_num, ?_⟩
    rw [nearest2_ex]
    have e1 : Real.sqrt ((fun t : Nat => (if t = 0 then (1 / 3 : ℝ) else 1 / 4) ^ 2) 1) = 1 / 4 :=
      sqrt_of (by norm_num) (by norm_num)
    have e0 : Real.sqrt ((fun t : Nat => (if t = 0 then (1 / 3 : ℝ) else 1 / 4) ^ 2) 0) = 1 / 3 :=
      sqrt_of (by norm_num) (by norm_num)
    rw [e1, e0]
    norm_num
  · refine ⟨fun t => if t = 0 then 10 else 4, by norm_num, by norm_num, ?_⟩
    rw [nearest2_ex]
    have e1 : Real.sqrt ((fun t : Nat => (if t = 0 then (10 : ℝ) else 4) ^ 2) 1) = 4 :=
      sqrt_of (by norm_num) (by norm_num)
    have e2 : Real.sqrt 4 = 2 := sqrt_of (by norm_num) (by norm_num)
    rw [e1, e2]
    norm_num

/-- **C113** (point of a view, tracks without daughters). The returned track is the track itself and the distance its
own. -/
theorem C113_view_alone_partial (hF : Forest g T) {t v0 : Nat} (ht : t ∈ T) (h0 : front g t = some v0)
    (hp : g.prev v0 = none) (hal : ∀ x ∈ T, Conn g T t x → x = t) (d : Nat → ℝ) (hd : 0 ≤ d t) :
    ∃ N, ∀ f, N ≤ f → nearest2 g Real.sqrt (fun t => d t ^ 2) f t false = some (t, d t) := by
  have hk : kids g t false = [] := by
    rw [List.eq_nil_iff_forall_not_mem]
    intro u hu
    have h1 := (hF.tree_of_root (x := u) ht h0 hp).1 (Or.inr ⟨u, hu, ReflTransGen.refl⟩)
    exact ((hF.mem_kids_false ht h0 hp u).1 hu).2.1 (hal u h1.1 h1.2)
  refine ⟨(g.nodes t).length + 1, fun f hf => ?_⟩
  obtain ⟨f, rfl⟩ : ∃ f', f = f' + 1 := ⟨f - 1, by omega⟩
  unfold nearest2
  rw [hF.kidsOf_eq ht false (by omega), hk]
  simp [Real.sqrt_sq hd]

end Verif.PMAlg.Tree

import Verif.PMAlg.TreeProofs
/-! # Track trees: the recursions -/
namespace Verif.PMAlg.Tree
open Relation

variable {g : Graph} {T : List Nat}

theorem bound {Q : Nat → Nat → Prop} (l : List Nat) (h : ∀ u ∈ l, ∃ N, ∀ f, N ≤ f → Q u f) :
    ∃ N, ∀ u ∈ l, ∀ f, N ≤ f → Q u f := by
  induction l with
  | nil => exact ⟨0, by simp⟩
  | cons a l ih =>
    obtain ⟨N, hN⟩ := ih (fun u hu => h u (List.mem_cons_of_mem _ hu))
    obtain ⟨M, hM⟩ := h a (List.mem_cons_self ..)
    refine ⟨max N M, ?_⟩
    intro u hu f hf
    rcases List.mem_cons.1 hu with rfl | hu
    · exact hM f (le_trans (le_max_right _ _) hf)
    · exact hN u hu f (le_trans (le_max_left _ _) hf)

/-- tracks reached from `t` downwards through tracks of `S` -/
abbrev Reach (g : Graph) (T : List Nat) (S : Nat → Prop) : Nat → Nat → Prop :=
  ReflTransGen fun a b => Child g T a b ∧ S b

theorem reach_head {S : Nat → Prop} {t x : Nat} :
    Reach g T S t x ↔ t = x ∨ ∃ u, (Child g T t u ∧ S u) ∧ Reach g T S u x :=
  ⟨fun h => by
    rcases ReflTransGen.cases_head h with h | ⟨u, h1, h2⟩
    · exact Or.inl h
    · exact Or.inr ⟨u, h1, h2⟩,
   fun h => by
    rcases h with rfl | ⟨u, h1, h2⟩
    · exact ReflTransGen.refl
    · exact ReflTransGen.head h1 h2⟩

theorem reach_T {S : Nat → Prop} {t x : Nat} (ht : t ∈ T) (h : Reach g T S t x) : x ∈ T := by
  rcases ReflTransGen.cases_tail h with rfl | ⟨y, _, h⟩
  · exact ht
  · exact h.1.1

/-- induction from the ends of the tree -/
theorem Forest.downward (hF : Forest g T) {P : Nat → Prop}
    (h : ∀ t ∈ T, (∀ u, Child g T t u → P u) → P t) : ∀ t ∈ T, P t := by
  obtain ⟨H, hH⟩ := hF.height
  have key : ∀ n t, t ∈ T → H t < n → P t := by
    intro n
    induction n with
    | zero => intro t _ h; omega
    | succ n ih =>
      intro t ht hn
      refine h t ht fun u hu => ih u hu.1 ?_
      have := hH t ht u hu
      omega
  exact fun t ht => key (H t + 1) t ht (by omega)

/-- induction from the roots -/
theorem Forest.upward (hF : Forest g T) {P : Nat → Prop}
    (h : ∀ t ∈ T, (∀ u ∈ T, Child g T u t → P u) → P t) : ∀ t ∈ T, P t := by
  obtain ⟨R, hR⟩ := hF.rank
  have key : ∀ n t, t ∈ T → R t < n → P t := by
    intro n
    induction n with
    | zero => intro t _ h; omega
    | succ n ih =>
      intro t ht hn
      refine h t ht fun u hu hc => ih u hu ?_
      have := hR u hu t hc
      omega
  exact fun t ht => key (R t + 1) t ht (by omega)

/-! ### candidates -/

/-- no track is listed twice -/
def Distinct (c : List Cand) : Prop :=
  ∀ (i j t : Nat), c[i]?.bind Cand.track = some t → c[j]?.bind Cand.track = some t → i = j

def InC (c : List Cand) (u : Nat) : Prop := ∃ i : Nat, c[i]?.bind Cand.track = some u

theorem index_eq {c : List Cand} (hd : Distinct c) {t j : Nat} (h : c[j]?.bind Cand.track = some t) :
    index c t = some j := by
  have hj : j < c.length := by
    by_contra hc
    rw [List.getElem?_eq_none (by omega)] at h
    cases h
  have hjt : c[j].track = some t := by
    rw [List.getElem?_eq_getElem hj] at h
    exact h
  have hlt : c.findIdx (fun x => x.track = some t) < c.length :=
    List.findIdx_lt_length_of_exists ⟨c[j], List.getElem_mem hj, by simp [hjt]⟩
  have h2 := List.findIdx_getElem (w := hlt)
  simp only [decide_eq_true_eq] at h2
  simp only [index, hlt, if_true]
  refine congrArg some (hd _ _ t ?_ h)
  rw [List.getElem?_eq_getElem hlt]
  exact h2

theorem index_none {c : List Cand} {t : Nat} (h : ¬ InC c t) : index c t = none := by
  unfold index
  rw [if_neg]
  intro hlt
  have h2 := List.findIdx_getElem (w := hlt)
  simp only [decide_eq_true_eq] at h2
  refine h ⟨c.findIdx (fun x => x.track = some t), ?_⟩
  rw [List.getElem?_eq_getElem hlt]
  exact h2

theorem index_some {c : List Cand} {t j : Nat} (h : index c t = some j) : c[j]?.bind Cand.track = some t := by
  unfold index at h
  split at h
  · rename_i hlt
    cases h
    have h2 := List.findIdx_getElem (w := hlt)
    simp only [decide_eq_true_eq] at h2
    rw [List.getElem?_eq_getElem hlt]
    exact h2
  · cases h

open Classical in
noncomputable def markOne (P : Nat → Prop) (id : Int) (x : Cand) : Cand :=
  if ∃ u, x.track = some u ∧ P u then { x with treeId := id } else x

theorem markOne_pos {P : Nat → Prop} {id : Int} {x : Cand} {u : Nat} (h : x.track = some u) (hP : P u) :
    markOne P id x = { x with treeId := id } := if_pos ⟨u, h, hP⟩

theorem markOne_neg {P : Nat → Prop} {id : Int} {x : Cand} (h : ∀ u, x.track = some u → ¬ P u) :
    markOne P id x = x := if_neg (by rintro ⟨u, h1, h2⟩; exact h u h1 h2)

theorem markOne_track (P : Nat → Prop) (id : Int) (x : Cand) : (markOne P id x).track = x.track := by
  unfold markOne; split <;> rfl

/-- give `id` to the candidates whose tracks satisfy `P` -/
noncomputable def mark (P : Nat → Prop) (id : Int) (c : List Cand) : List Cand := c.map (markOne P id)

theorem mark_track (P : Nat → Prop) (id : Int) (c : List Cand) (i : Nat) :
    (mark P id c)[i]?.bind Cand.track = c[i]?.bind Cand.track := by
  simp only [mark, List.getElem?_map]
  cases c[i]? with
  | none => rfl
  | some x => simp only [Option.map_some, Option.bind_some, markOne_track]

theorem mark_distinct {P : Nat → Prop} {id : Int} {c : List Cand} (h : Distinct c) : Distinct (mark P id c) := by
  intro i j t
  rw [mark_track, mark_track]
  exact h i j t

theorem mark_inC {P : Nat → Prop} {id : Int} {c : List Cand} (u : Nat) : InC (mark P id c) u ↔ InC c u := by
  simp only [InC, mark_track]

theorem mark_mark (P Q : Nat → Prop) (id : Int) (c : List Cand) :
    mark P id (mark Q id c) = mark (fun u => Q u ∨ P u) id c := by
  simp only [mark, List.map_map]
  apply List.map_congr_left
  intro x _
  simp only [Function.comp]
  cases hx : x.track with
  | none =>
    have h : ∀ P : Nat → Prop, markOne P id x = x := fun P => markOne_neg (by rw [hx]; intro u h; cases h)
    rw [h, h, h]
  | some u =>
    have hn : ∀ P : Nat → Prop, ¬ P u → markOne P id x = x := fun P hP =>
      markOne_neg (by rw [hx]; intro u h; cases h; exact hP)
    by_cases hQ : Q u
    · rw [markOne_pos hx hQ, markOne_pos (P := fun u => Q u ∨ P u) hx (Or.inl hQ)]
      by_cases hP : P u
      · rw [markOne_pos (x := { x with treeId := id }) hx hP]
      · exact markOne_neg (x := { x with treeId := id }) (by
          show ∀ u, x.track = some u → ¬ P u
          rw [hx]; intro u h; cases h; exact hP)
    · rw [hn Q hQ]
      by_cases hP : P u
      · rw [markOne_pos hx hP, markOne_pos (P := fun u => Q u ∨ P u) hx (Or.inr hP)]
      · rw [hn P hP, hn _ (by rintro (h | h); exacts [hQ h, hP h])]

theorem mark_congr {P Q : Nat → Prop} {id : Int} {c : List Cand} (h : ∀ u, InC c u → (P u ↔ Q u)) :
    mark P id c = mark Q id c := by
  simp only [mark]
  apply List.map_congr_left
  intro x hx
  obtain ⟨i, hi⟩ := List.mem_iff_getElem?.1 hx
  have : (∃ u, x.track = some u ∧ P u) ↔ ∃ u, x.track = some u ∧ Q u := by
    constructor
    · rintro ⟨u, h1, h2⟩; exact ⟨u, h1, (h u ⟨i, by rw [hi]; exact h1⟩).1 h2⟩
    · rintro ⟨u, h1, h2⟩; exact ⟨u, h1, (h u ⟨i, by rw [hi]; exact h1⟩).2 h2⟩
  unfold markOne
  by_cases hP : ∃ u, x.track = some u ∧ P u
  · rw [if_pos hP, if_pos (this.1 hP)]
  · rw [if_neg hP, if_neg (fun h => hP (this.2 h))]

theorem mark_false {P : Nat → Prop} {id : Int} {c : List Cand} (h : ∀ u, ¬ P u) : mark P id c = c := by
  unfold mark
  have : markOne P id = fun x => x := by
    funext x
    exact markOne_neg fun u _ => h u
  rw [this]
  exact List.map_id' c

theorem putId_eq {c : List Cand} (hd : Distinct c) {i t : Nat} (h : c[i]?.bind Cand.track = some t) (id : Int) :
    putId c i id = mark (fun u => u = t) id c := by
  apply List.ext_getElem?
  intro j
  simp only [putId, mark, List.getElem?_map, List.getElem?_modify]
  cases hj : c[j]? with
  | none => rfl
  | some x =>
    by_cases hij : i = j
    · subst hij
      rw [hj] at h
      show some (if i = i then { x with treeId := id } else x) = some (markOne _ id x)
      rw [if_pos rfl, markOne_pos (P := fun u => u = t) h rfl]
    · show some (if i = j then { x with treeId := id } else x) = some (markOne _ id x)
      rw [if_neg hij, markOne_neg]
      rintro u h1 rfl
      exact hij (hd i j u h (by rw [hj]; exact h1))

theorem fold_mark {S : Nat → Prop} {id : Int} {P : Nat → Nat → Prop} {F : List Cand → Nat → Option (List Cand)}
    (ks : List Nat)
    (hF : ∀ u ∈ ks, S u → ∀ c, Distinct c → (∀ u, InC c u ↔ S u) → ∀ j, c[j]?.bind Cand.track = some u →
      F c j = some (mark (P u) id c)) :
    ∀ c, Distinct c → (∀ u, InC c u ↔ S u) →
      ks.foldlM (fun c u => match index c u with | some j => F c j | none => some c) c =
        some (mark (fun x => ∃ u ∈ ks, S u ∧ P u x) id c) := by
  induction ks with
  | nil =>
    intro c _ _
    simp only [List.foldlM_nil]
    rw [mark_false (by simp)]
    rfl
  | cons a ks ih =>
    intro c hd hS
    simp only [List.foldlM_cons]
    have ih' := ih (fun u hu => hF u (List.mem_cons_of_mem _ hu))
    by_cases ha : S a
    · obtain ⟨j, hj⟩ := (hS a).2 ha
      rw [index_eq hd hj]
      simp only
      rw [hF a (List.mem_cons_self ..) ha c hd hS j hj]
      show List.foldlM _ (mark (P a) id c) ks = _
      rw [ih' _ (mark_distinct hd) (fun u => (mark_inC u).trans (hS u)), mark_mark]
      refine congrArg some (mark_congr fun x _ => ?_)
      simp only [List.mem_cons]
      constructor
      · rintro (h | ⟨u, h1, h2⟩)
        · exact ⟨a, Or.inl rfl, ha, h⟩
        · exact ⟨u, Or.inr h1, h2⟩
      · rintro ⟨u, rfl | h1, h2, h3⟩
        · exact Or.inl h3
        · exact Or.inr ⟨u, h1, h2, h3⟩
    · rw [index_none (fun h => ha ((hS a).1 h))]
      show List.foldlM _ c ks = _
      rw [ih' c hd hS]
      refine congrArg some (mark_congr fun x _ => ?_)
      simp only [List.mem_cons]
      constructor
      · rintro ⟨u, h1, h2⟩
        exact ⟨u, Or.inr h1, h2⟩
      · rintro ⟨u, rfl | h1, h2, h3⟩
        · exact absurd h2 ha
        · exact ⟨u, h1, h2, h3⟩

theorem Forest.setTreeId_spec (hF : Forest g T) (S : Nat → Prop) : ∀ t ∈ T,
    ∃ N, ∀ f, N ≤ f → ∀ (id : Int) c, Distinct c → (∀ u, InC c u ↔ S u) → ∀ j, c[j]?.bind Cand.track = some t →
      setTreeId g id f c j false = some (mark (Reach g T S t) id c) := by
  refine hF.downward ?_
  intro t ht ih
  obtain ⟨N, hN⟩ := bound (kids g t true) (fun u hu => ih u ((hF.mem_kids_true ht u).1 hu))
  refine ⟨max (N + 1) (g.nodes t).length, ?_⟩
  intro f hf id c hd hS j hj
  obtain ⟨f, rfl⟩ : ∃ f', f = f' + 1 := ⟨f - 1, by omega⟩
  simp only [setTreeId, hj, Bool.not_false]
  rw [hF.kidsOf_eq ht true (by omega)]
  simp only
  have hfold := fold_mark (S := S) (id := id) (P := fun u => Reach g T S u)
    (F := fun c j => setTreeId g id f c j false) (kids g t true)
    (fun u hu _ c hd hS j hj => hN u hu f (by omega) id c hd hS j hj) c hd hS
  refine Eq.trans (congrArg (fun z => match z with | none => none | some c => some (putId c j id)) hfold) ?_
  simp only
  rw [putId_eq (mark_distinct hd) (by rw [mark_track]; exact hj), mark_mark]
  refine congrArg some (mark_congr fun x _ => ?_)
  rw [reach_head]
  constructor
  · rintro (⟨u, h1, h2, h3⟩ | h)
    · exact Or.inr ⟨u, ⟨(hF.mem_kids_true ht u).1 h1, h2⟩, h3⟩
    · exact Or.inl h.symm
  · rintro (h | ⟨u, ⟨h1, h2⟩, h3⟩)
    · exact Or.inr h.symm
    · exact Or.inl ⟨u, (hF.mem_kids_true ht u).2 h1, h2, h3⟩

theorem Forest.setTreeId_root (hF : Forest g T) (S : Nat → Prop) {t v0 : Nat} (ht : t ∈ T)
    (h0 : front g t = some v0) (hp : g.prev v0 = none) :
    ∃ N, ∀ f, N ≤ f → ∀ (id : Int) c, Distinct c → (∀ u, InC c u ↔ S u) → ∀ j, c[j]?.bind Cand.track = some t →
      setTreeId g id f c j true =
        some (mark (fun x => ∃ r ∈ T, S r ∧ front g r = some v0 ∧ Reach g T S r x) id c) := by
  obtain ⟨N, hN⟩ := bound (kids g t false) (fun u hu => hF.setTreeId_spec S u (hF.kids_T hu))
  refine ⟨max (N + 1) (g.nodes t).length, ?_⟩
  intro f hf id c hd hS j hj
  obtain ⟨f, rfl⟩ : ∃ f', f = f' + 1 := ⟨f - 1, by omega⟩
  simp only [setTreeId, hj, Bool.not_true]
  rw [hF.kidsOf_eq ht false (by omega)]
  simp only
  have hfold := fold_mark (S := S) (id := id) (P := fun u => Reach g T S u)
    (F := fun c j => setTreeId g id f c j false) (kids g t false)
    (fun u hu _ c hd hS j hj => hN u hu f (by omega) id c hd hS j hj) c hd hS
  refine Eq.trans (congrArg (fun z => match z with | none => none | some c => some (putId c j id)) hfold) ?_
  simp only
  rw [putId_eq (mark_distinct hd) (by rw [mark_track]; exact hj), mark_mark]
  refine congrArg some (mark_congr fun x _ => ?_)
  have hSt : S t := (hS t).1 ⟨j, hj⟩
  constructor
  · rintro (⟨u, h1, h2, h3⟩ | rfl)
    · obtain ⟨hu, _, h4 | h4⟩ := (hF.mem_kids_false ht h0 hp u).1 h1
      · exact ⟨u, hu, h2, h4, h3⟩
      · exact ⟨t, ht, hSt, h0, ReflTransGen.head ⟨h4, h2⟩ h3⟩
    · exact ⟨x, ht, hSt, h0, ReflTransGen.refl⟩
  · rintro ⟨r, hr, h1, h2, h3⟩
    by_cases hrt : r = t
    · subst hrt
      rcases reach_head.1 h3 with rfl | ⟨u, ⟨h4, h5⟩, h6⟩
      · exact Or.inr rfl
      · exact Or.inl ⟨u, (hF.mem_kids_false hr h0 hp u).2 ⟨h4.1, hF.child_ne h4, Or.inr h4⟩, h5, h6⟩
    · exact Or.inl ⟨r, (hF.mem_kids_false ht h0 hp r).2 ⟨hr, hrt, Or.inl h2⟩, h1, h3⟩

/-! ### the root -/

/-- all tracks below `t`, and `t` -/
abbrev Below (g : Graph) (T : List Nat) : Nat → Nat → Prop := ReflTransGen (Child g T)

/-- `r` is a track of `T` whose first node is not entered -/
def IsRoot (g : Graph) (T : List Nat) (r : Nat) : Prop := r ∈ T ∧ ∃ v, front g r = some v ∧ g.prev v = none

theorem Forest.getRoot_spec (hF : Forest g T) : ∀ t ∈ T,
    ∃ r N, IsRoot g T r ∧ Below g T r t ∧ ∀ f, N ≤ f → getRoot g f t = some r := by
  refine hF.upward ?_
  intro t ht ih
  obtain ⟨v, w, _, _, h0⟩ := hF.front_some ht
  have h0' : (g.nodes t).head? = some v := h0
  cases hp : g.prev v with
  | none =>
    refine ⟨t, 1, ⟨ht, v, h0, hp⟩, ReflTransGen.refl, ?_⟩
    intro f hf
    obtain ⟨f, rfl⟩ : ∃ f', f = f' + 1 := ⟨f - 1, by omega⟩
    simp [getRoot, h0', hp]
  | some s =>
    obtain ⟨h1, h2⟩ := hF.prev_track hp
    have hc : Child g T (g.trk s) t := ⟨ht, v, h0, h2⟩
    obtain ⟨r, N, hr, hb, hN⟩ := ih (g.trk s) h1 hc
    refine ⟨r, N + 1, hr, ReflTransGen.tail hb hc, ?_⟩
    intro f hf
    obtain ⟨f, rfl⟩ : ∃ f', f = f' + 1 := ⟨f - 1, by omega⟩
    simp only [getRoot, h0', hp]
    exact hN f (by omega)

theorem Forest.root_no_parent (hF : Forest g T) {t r : Nat} (ht : t ∈ T) (hr : IsRoot g T r) :
    ¬ Child g T t r := by
  rintro ⟨_, v, h1, h2⟩
  obtain ⟨_, v', h3, h4⟩ := hr
  rw [h1] at h3
  cases h3
  obtain ⟨s, h5, _⟩ := hF.prev_tail ht h2
  rw [h4] at h5
  cases h5

/-- two tracks above the same track are in line -/
theorem Forest.in_line (hF : Forest g T) {a b x : Nat} (ha : a ∈ T) (hb : b ∈ T) (h1 : Below g T a x)
    (h2 : Below g T b x) : Below g T a b ∨ Below g T b a := by
  induction h1 with
  | refl => exact Or.inr h2
  | @tail y z h3 h4 ih =>
    rcases ReflTransGen.cases_tail h2 with rfl | ⟨y', h5, h6⟩
    · exact Or.inl (ReflTransGen.tail h3 h4)
    · have hy : y ∈ T := by
        rcases ReflTransGen.cases_tail h3 with rfl | ⟨_, _, h⟩
        · exact ha
        · exact h.1
      have hy' : y' ∈ T := by
        rcases ReflTransGen.cases_tail h5 with rfl | ⟨_, _, h⟩
        · exact hb
        · exact h.1
      have := hF.parent_unique hy hy' h4 h6
      subst this
      exact ih h5

theorem Forest.below_T {t x : Nat} (ht : t ∈ T) (h : Below g T t x) : x ∈ T := by
  rcases ReflTransGen.cases_tail h with rfl | ⟨_, _, h⟩
  · exact ht
  · exact h.1

theorem Forest.below_root (hF : Forest g T) {a r : Nat} (ha : a ∈ T) (hr : IsRoot g T r) (h : Below g T a r) :
    a = r := by
  rcases ReflTransGen.cases_tail h with rfl | ⟨y, h1, h2⟩
  · rfl
  · exact absurd h2 (hF.root_no_parent (Forest.below_T ha h1) hr)

theorem Forest.root_unique (hF : Forest g T) {r r' x : Nat} (hr : IsRoot g T r) (hr' : IsRoot g T r')
    (h : Below g T r x) (h' : Below g T r' x) : r = r' := by
  rcases hF.in_line hr.1 hr'.1 h h' with h1 | h1
  · exact hF.below_root hr.1 hr' h1
  · exact (hF.below_root hr'.1 hr h1).symm

/-- tracks joined by a chain of tracks that share nodes -/
def Conn (g : Graph) (T : List Nat) : Nat → Nat → Prop :=
  EqvGen fun a b => a ∈ T ∧ b ∈ T ∧ ∃ v, v ∈ g.nodes a ∧ v ∈ g.nodes b

theorem front_mem {t v : Nat} (h : front g t = some v) : v ∈ g.nodes t := by
  unfold front at h
  exact List.mem_of_mem_head? h

theorem Forest.child_conn {t u : Nat} (ht : t ∈ T) (h : Child g T t u) : Conn g T t u := by
  obtain ⟨hu, v, h1, h2⟩ := h
  exact EqvGen.rel _ _ ⟨ht, hu, v, List.mem_of_mem_drop h2, front_mem h1⟩

theorem Forest.below_conn {t u : Nat} (ht : t ∈ T) (h : Below g T t u) : Conn g T t u := by
  induction h with
  | refl => exact EqvGen.refl _
  | @tail y z h1 h2 ih => exact EqvGen.trans _ _ _ ih (Forest.child_conn (Forest.below_T ht h1) h2)

theorem Forest.node_cases {t v : Nat} (h : v ∈ g.nodes t) :
    front g t = some v ∨ v ∈ (g.nodes t).drop 1 := by
  unfold front
  cases hn : g.nodes t with
  | nil => rw [hn] at h; cases h
  | cons a l =>
    rw [hn] at h
    rcases List.mem_cons.1 h with rfl | h
    · left; rfl
    · right; simpa using h

/-- the first node of the root is the same for all tracks of a tree -/
theorem Forest.conn_root (hF : Forest g T) {t u : Nat} (h : Conn g T t u) : t ∈ T →
    ∀ r r', IsRoot g T r → IsRoot g T r' → Below g T r t → Below g T r' u → front g r = front g r' := by
  have step : ∀ t u : Nat, t ∈ T → u ∈ T → (∃ v, v ∈ g.nodes t ∧ v ∈ g.nodes u) →
      ∀ r r', IsRoot g T r → IsRoot g T r' → Below g T r t → Below g T r' u → front g r = front g r' := by
    rintro t u ht hu ⟨v, h1, h2⟩ r r' hr hr' hb hb'
    rcases Forest.node_cases h1 with h1 | h1 <;> rcases Forest.node_cases h2 with h2 | h2
    · -- both start at v
      rcases ReflTransGen.cases_tail hb with rfl | ⟨y, h3, h4⟩
      · have hru : IsRoot g T u := ⟨hu, v, h2, by
          obtain ⟨_, v', h3, h4⟩ := hr
          rw [h1] at h3
          cases h3
          exact h4⟩
        rw [hF.root_unique hr' hru hb' ReflTransGen.refl, h1, h2]
      · obtain ⟨_, v', h5, h6⟩ := h4
        rw [h1] at h5
        cases h5
        have hb2 : Below g T r u := ReflTransGen.tail h3 ⟨hu, v, h2, h6⟩
        rw [hF.root_unique hr hr' hb2 hb']
    · have hc : Child g T u t := ⟨ht, v, h1, h2⟩
      rw [hF.root_unique hr hr' hb (ReflTransGen.tail hb' hc)]
    · have hc : Child g T t u := ⟨hu, v, h2, h1⟩
      rw [hF.root_unique hr hr' (ReflTransGen.tail hb hc) hb']
    · obtain ⟨s, h3, h4⟩ := hF.prev_tail ht h1
      obtain ⟨s', h3', h4'⟩ := hF.prev_tail hu h2
      rw [h3] at h3'
      cases h3'
      have htu : t = u := h4.symm.trans h4'
      subst htu
      rw [hF.root_unique hr hr' hb hb']
  have main : (t ∈ T ∨ u ∈ T → t ∈ T ∧ u ∈ T) ∧ (t ∈ T → ∀ r r', IsRoot g T r → IsRoot g T r' → Below g T r t →
      Below g T r' u → front g r = front g r') := by
    induction h with
    | rel a b h => exact ⟨fun _ => ⟨h.1, h.2.1⟩, fun _ => step a b h.1 h.2.1 h.2.2⟩
    | refl a =>
      exact ⟨fun h => ⟨h.elim id id, h.elim id id⟩, fun ha r r' hr hr' hb hb' => by
        rw [hF.root_unique hr hr' hb hb']⟩
    | symm a b _ ih =>
      exact ⟨fun h => (ih.1 h.symm).symm, fun hb r r' hr hr' h1 h2 =>
        (ih.2 (ih.1 (Or.inr hb)).1 r' r hr' hr h2 h1).symm⟩
    | trans a b c _ _ ih1 ih2 =>
      refine ⟨fun h => ?_, fun ha r r' hr hr' h1 h2 => ?_⟩
      · rcases h with h | h
        · have := ih1.1 (Or.inl h)
          exact ⟨h, (ih2.1 (Or.inl this.2)).2⟩
        · have := ih2.1 (Or.inr h)
          exact ⟨(ih1.1 (Or.inr this.1)).1, h⟩
      · have hbT := (ih1.1 (Or.inl ha)).2
        obtain ⟨q, _, hq, hqb, _⟩ := hF.getRoot_spec b hbT
        rw [ih1.2 ha r q hr hq h1 hqb, ih2.2 hbT q r' hq hr' hqb h2]
  exact main.2

theorem Forest.root_conn (hF : Forest g T) {t u r r' : Nat} (hr : IsRoot g T r) (hr' : IsRoot g T r')
    (h : Below g T r t) (h' : Below g T r' u) (hf : front g r = front g r') : Conn g T t u := by
  obtain ⟨_, v, h1, _⟩ := id hr
  have h2 : Conn g T r r' := EqvGen.rel _ _ ⟨hr.1, hr'.1, v, front_mem h1, front_mem (hf ▸ h1)⟩
  exact EqvGen.trans _ _ _ (EqvGen.trans _ _ _ (EqvGen.symm _ _ (Forest.below_conn hr.1 h)) h2)
    (Forest.below_conn hr'.1 h')

end Verif.PMAlg.Tree

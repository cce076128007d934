import Verif.Voronoi.SweepModel
import Mathlib.Algebra.BigOperators.Group.List.Basic
import Mathlib.Data.List.Nodup

/-!
C96: `buildVoronoiDiagramBoost` and `boostTranslation`, Voronoi.cxx:281-443: the copy of a boost diagram into the doubly connected edge list.

The boost diagram is given (edges, twins, next, previous, the vertex at the end, the cell), as are its coordinates; the maps of pointers are functions.
-/
namespace Verif.Voronoi

/-- the boost diagram; `point c` is `source_index()` of a cell -/
structure Diagram where
  edges : List Nat
  twin : Nat → Nat
  next : Nat → Nat
  prev : Nat → Nat
  /-- `vertex1()`, null for an infinite edge -/
  vtx : Nat → Option Nat
  cell : Nat → Nat

/-- the three maps and the three lists -/
structure BState where
  emap : Nat → Option Nat
  vmap : Nat → Option Nat
  cmap : Nat → Option Nat
  he : Nat → HEdge
  nhe : Nat
  /-- `fVertexList`: the boost vertex and the half edge -/
  verts : List (Nat × Nat)
  /-- `fFaceList`: the boost cell and the half edge -/
  faces : List (Nat × Nat)

namespace BState

def empty : BState := ⟨fun _ => none, fun _ => none, fun _ => none, fun _ => {}, 0, [], []⟩

/-- the half edge of a boost edge, made if there is none, Voronoi.cxx:364-385 -/
def getEdge (s : BState) (e : Nat) : Nat × BState :=
  match s.emap e with
  | some h => (h, s)
  | none => (s.nhe, { s with emap := fun j => if j = e then some s.nhe else s.emap j, he := fun j => if j = s.nhe then {} else s.he j, nhe := s.nhe + 1 })

/-- the vertex, Voronoi.cxx:388-404 -/
def getVertex (s : BState) (v : Option Nat) (h : Nat) : Option Nat × BState :=
  match v with
  | none => (none, s)
  | some v =>
    match s.vmap v with
    | none => (some s.verts.length, { s with vmap := fun j => if j = v then some s.verts.length else s.vmap j, verts := s.verts ++ [(v, h)] })
    | some i => (some i, s)

/-- the face, Voronoi.cxx:406-423: the pointer stays null when the cell has a face already -/
def getFace (s : BState) (c h : Nat) : Option Nat × BState :=
  match s.cmap c with
  | none => (some s.faces.length, { s with cmap := fun j => if j = c then some s.faces.length else s.cmap j, faces := s.faces ++ [(c, h)] })
  | some _ => (none, s)

def modE (s : BState) (h : Nat) (f : HEdge → HEdge) : BState := { s with he := fun j => if j = h then f (s.he h) else s.he j }

/-- the setters, Voronoi.cxx:425-440 -/
def link (s : BState) (d : Diagram) (e h t : Nat) (v f : Option Nat) : BState :=
  let s := s.modE h (fun n => { n with target := v, face := f, twin := some t })
  let s := match s.emap (d.next e) with
    | some g => (s.modE h (fun n => { n with next := some g })).modE g (fun n => { n with last := some h })
    | none => s
  match s.emap (d.prev e) with
  | some g => (s.modE h (fun n => { n with last := some g })).modE g (fun n => { n with next := some h })
  | none => s

/-- `boostTranslation(edge, twin)`, Voronoi.cxx:355-443 -/
def visit (d : Diagram) (s : BState) (e : Nat) : BState :=
  let (h, s) := s.getEdge e
  let (t, s) := s.getEdge (d.twin e)
  let (v, s) := s.getVertex (d.vtx e) h
  let (f, s) := s.getFace (d.cell e) h
  s.link d e h t v f

/-- the loop of Voronoi.cxx:321-328 -/
def build (d : Diagram) : BState := (d.edges.flatMap (fun e => [e, d.twin e])).foldl (visit d) empty

end BState

/-! ## Specification -/

/-- what a boost diagram guarantees -/
structure Diagram.Ok (d : Diagram) : Prop where
  nodup : d.edges.Nodup
  twin : ∀ e ∈ d.edges, d.twin e ∈ d.edges ∧ d.twin (d.twin e) = e ∧ d.twin e ≠ e
  next : ∀ e ∈ d.edges, d.next e ∈ d.edges ∧ d.prev (d.next e) = e
  prev : ∀ e ∈ d.edges, d.prev e ∈ d.edges ∧ d.next (d.prev e) = e

/-! ## One call -/

theorem link_spec (s : BState) (d : Diagram) (e h t : Nat) (v f : Option Nat) :
    (s.link d e h t v f).emap = s.emap ∧ (s.link d e h t v f).vmap = s.vmap ∧ (s.link d e h t v f).cmap = s.cmap ∧ (s.link d e h t v f).nhe = s.nhe ∧
    (s.link d e h t v f).verts = s.verts ∧ (s.link d e h t v f).faces = s.faces ∧
    ∀ j, ((s.link d e h t v f).he j).twin = (if j = h then some t else (s.he j).twin) ∧
      ((s.link d e h t v f).he j).target = (if j = h then v else (s.he j).target) ∧
      ((s.link d e h t v f).he j).face = (if j = h then f else (s.he j).face) ∧
      ((s.link d e h t v f).he j).next = (if s.emap (d.prev e) = some j then some h else if j = h then (s.emap (d.next e)).or (s.he j).next else (s.he j).next) ∧
      ((s.link d e h t v f).he j).last = (if j = h then (s.emap (d.prev e)).or (if s.emap (d.next e) = some j then some h else (s.he j).last)
        else if s.emap (d.next e) = some j then some h else (s.he j).last) := by
  unfold BState.link
  cases h1 : s.emap (d.next e) with
  | none =>
    cases h2 : s.emap (d.prev e) with
    | none =>
      simp only [BState.modE, h1, h2]
      refine ⟨trivial, trivial, trivial, trivial, trivial, trivial, fun j => ?_⟩
      by_cases hj : j = h <;> simp [hj]
    | some p =>
      simp only [BState.modE, h1, h2]
      refine ⟨trivial, trivial, trivial, trivial, trivial, trivial, fun j => ?_⟩
      by_cases hj : j = h
      · subst hj; by_cases hp : p = j
        · subst hp; simp
        · simp [hp, Ne.symm hp]
      · by_cases hp : p = j
        · subst hp; simp [hj]
        · simp [hj, hp, Ne.symm hp]
  | some g =>
    cases h2 : s.emap (d.prev e) with
    | none =>
      simp only [BState.modE, h1, h2]
      refine ⟨trivial, trivial, trivial, trivial, trivial, trivial, fun j => ?_⟩
      by_cases hj : j = h
      · subst hj; by_cases hg : g = j
        · subst hg; simp
        · simp [hg, Ne.symm hg]
      · by_cases hg : g = j
        · subst hg; simp [hj]
        · simp [hj, hg, Ne.symm hg]
    | some p =>
      simp only [BState.modE, h1, h2]
      refine ⟨trivial, trivial, trivial, trivial, trivial, trivial, fun j => ?_⟩
      by_cases hj : j = h
      · subst hj
        by_cases hg : g = j
        · subst hg
          by_cases hp : p = g
          · subst hp; simp
          · simp [hp, Ne.symm hp]
        · by_cases hp : p = j
          · subst hp; simp [hg, Ne.symm hg]
          · simp [hg, hp, Ne.symm hg, Ne.symm hp]
      · by_cases hg : g = j
        · subst hg
          by_cases hp : p = g
          · subst hp; simp [hj]
          · simp [hj, hp, Ne.symm hp]
        · by_cases hp : p = j
          · subst hp; simp [hj, hg, Ne.symm hg]
          · simp [hj, hg, hp, Ne.symm hg, Ne.symm hp]

/-- the state after the calls for the edges `vs` (latest first); `D` are the edges with a half edge -/
structure BInv (d : Diagram) (D : Nat → Prop) (vs : List Nat) (s : BState) : Prop where
  sub : ∀ e ∈ vs, e ∈ d.edges
  dom : ∀ e, s.emap e ≠ none ↔ D e
  domE : ∀ e, D e → e ∈ d.edges
  closed : ∀ e ∈ vs, D e ∧ D (d.twin e)
  bnd : ∀ e h, s.emap e = some h → h < s.nhe
  inj : ∀ e e' h, s.emap e = some h → s.emap e' = some h → e = e'
  surj : ∀ h, h < s.nhe → ∃ e, s.emap e = some h
  twin : ∀ e ∈ vs, ∀ h, s.emap e = some h → (s.he h).twin = s.emap (d.twin e)
  target : ∀ e ∈ vs, ∀ h, s.emap e = some h → (s.he h).target = (d.vtx e).bind s.vmap
  vdom : ∀ e ∈ vs, ∀ v, d.vtx e = some v → s.vmap v ≠ none
  vidx : ∀ v i, s.vmap v = some i ↔ (s.verts[i]?).map Prod.fst = some v
  vhe : ∀ p ∈ s.verts, ∃ e ∈ vs, d.vtx e = some p.1 ∧ s.emap e = some p.2
  cdom : ∀ e ∈ vs, s.cmap (d.cell e) ≠ none
  cidx : ∀ c i, s.cmap c = some i ↔ (s.faces[i]?).map Prod.fst = some c
  che : ∀ p ∈ s.faces, ∃ e ∈ vs, d.cell e = p.1 ∧ s.emap e = some p.2
  nextR : ∀ e h g, s.emap e = some h → (s.he h).next = some g → s.emap (d.next e) = some g
  lastR : ∀ e h g, s.emap e = some h → (s.he h).last = some g → s.emap (d.prev e) = some g
  lk : ∀ e ∈ vs, d.next e ∈ vs → ∀ h g, s.emap e = some h → s.emap (d.next e) = some g → (s.he h).next = some g ∧ (s.he g).last = some h
  null : ∀ e h, s.emap e = some h → 2 ≤ vs.count e → (s.he h).face = none

theorem getEdge_inv {d : Diagram} {D : Nat → Prop} {vs : List Nat} {s : BState} (I : BInv d D vs s) {e : Nat} (he : e ∈ d.edges) :
    BInv d (fun j => D j ∨ j = e) vs (s.getEdge e).2 ∧ (s.getEdge e).2.emap e = some (s.getEdge e).1 ∧
    ∀ j h, s.emap j = some h → (s.getEdge e).2.emap j = some h := by
  unfold BState.getEdge
  cases hm : s.emap e with
  | some h =>
    refine ⟨?_, hm, fun j h hj => hj⟩
    have : (fun j => D j ∨ j = e) = D := by
      funext j; apply propext
      constructor
      · rintro (h1 | rfl)
        · exact h1
        · exact (I.dom _).1 (by rw [hm]; simp)
      · exact Or.inl
    rw [this]; exact I
  | none =>
    have hD : ¬ D e := fun h => (I.dom e).2 h hm
    have key : ∀ j h, s.emap j = some h → (if j = e then some s.nhe else s.emap j) = some h := by
      intro j h hj
      rw [if_neg]; exact hj
      rintro rfl; rw [hm] at hj; cases hj
    have inv : ∀ j h, (if j = e then some s.nhe else s.emap j) = some h → (j = e ∧ h = s.nhe) ∨ (j ≠ e ∧ s.emap j = some h ∧ h ≠ s.nhe) := by
      intro j h hj
      by_cases hje : j = e
      · rw [if_pos hje] at hj; left; exact ⟨hje, by injection hj with h1; exact h1.symm⟩
      · rw [if_neg hje] at hj; right; exact ⟨hje, hj, by have := I.bnd _ _ hj; omega⟩
    have hne : ∀ j, D j → j ≠ e := by rintro j hj rfl; exact hD hj
    refine ⟨⟨I.sub, ?_, ?_, ?_, ?_, ?_, ?_, ?_, ?_, I.vdom, I.vidx, ?_, I.cdom, I.cidx, ?_, ?_, ?_, ?_, ?_⟩, by simp, key⟩
    · intro j
      by_cases hj : j = e
      · simp [hj]
      · simp only [hj, if_false, or_false]; exact I.dom j
    · rintro j (hj | rfl)
      · exact I.domE j hj
      · exact he
    · intro j hj; exact ⟨Or.inl (I.closed j hj).1, Or.inl (I.closed j hj).2⟩
    · intro j h hj
      rcases inv j h hj with ⟨-, rfl⟩ | ⟨-, h1, -⟩
      · exact Nat.lt_succ_self _
      · exact Nat.lt_succ_of_lt (I.bnd _ _ h1)
    · intro j j' h hj hj'
      rcases inv j h hj with ⟨h1, h2⟩ | ⟨h1, h2, h3⟩ <;> rcases inv j' h hj' with ⟨k1, k2⟩ | ⟨k1, k2, k3⟩
      · rw [h1, k1]
      · exact absurd h2 k3
      · exact absurd k2 h3
      · exact I.inj _ _ _ h2 k2
    · intro h hh
      by_cases hn : h = s.nhe
      · exact ⟨e, by simp [hn]⟩
      · obtain ⟨j, hj⟩ := I.surj h (by have : h < s.nhe + 1 := hh; omega)
        exact ⟨j, key _ _ hj⟩
    · intro j hj h hjh
      rcases inv j h hjh with ⟨h1, h2⟩ | ⟨h1, h2, h3⟩
      · exact absurd h1 (hne j (I.closed j hj).1)
      · show (if h = s.nhe then ({} : HEdge) else s.he h).twin = if d.twin j = e then some s.nhe else s.emap (d.twin j)
        rw [if_neg h3, if_neg (hne _ (I.closed j hj).2)]; exact I.twin j hj h h2
    · intro j hj h hjh
      rcases inv j h hjh with ⟨h1, h2⟩ | ⟨h1, h2, h3⟩
      · exact absurd h1 (hne j (I.closed j hj).1)
      · show (if h = s.nhe then ({} : HEdge) else s.he h).target = _
        rw [if_neg h3]; exact I.target j hj h h2
    · intro p hp
      obtain ⟨j, h1, h2, h3⟩ := I.vhe p hp
      exact ⟨j, h1, h2, key _ _ h3⟩
    · intro p hp
      obtain ⟨j, h1, h2, h3⟩ := I.che p hp
      exact ⟨j, h1, h2, key _ _ h3⟩
    · intro j h g hj hg
      replace hg : (if h = s.nhe then ({} : HEdge) else s.he h).next = some g := hg
      rcases inv j h hj with ⟨h1, h2⟩ | ⟨h1, h2, h3⟩
      · rw [if_pos h2] at hg; cases hg
      · rw [if_neg h3] at hg; exact key _ _ (I.nextR j h g h2 hg)
    · intro j h g hj hg
      replace hg : (if h = s.nhe then ({} : HEdge) else s.he h).last = some g := hg
      rcases inv j h hj with ⟨h1, h2⟩ | ⟨h1, h2, h3⟩
      · rw [if_pos h2] at hg; cases hg
      · rw [if_neg h3] at hg; exact key _ _ (I.lastR j h g h2 hg)
    · intro j hj hn h g h1 h2
      rcases inv j h h1 with ⟨k1, k2⟩ | ⟨k1, k2, k3⟩
      · exact absurd k1 (hne j (I.closed j hj).1)
      rcases inv _ g h2 with ⟨l1, l2⟩ | ⟨l1, l2, l3⟩
      · exact absurd l1 (hne _ (I.closed _ hn).1)
      show (if h = s.nhe then ({} : HEdge) else s.he h).next = _ ∧ (if g = s.nhe then ({} : HEdge) else s.he g).last = _
      rw [if_neg k3, if_neg l3]; exact I.lk j hj hn h g k2 l2
    · intro j h hj hc
      show (if h = s.nhe then ({} : HEdge) else s.he h).face = none
      rcases inv j h hj with ⟨h1, h2⟩ | ⟨h1, h2, h3⟩
      · rw [if_pos h2]
      · rw [if_neg h3]; exact I.null j h h2 hc

theorem getVertex_spec (s : BState) (v : Option Nat) (h : Nat)
    (vidx : ∀ v i, s.vmap v = some i ↔ (s.verts[i]?).map Prod.fst = some v) :
    (s.getVertex v h).2.emap = s.emap ∧ (s.getVertex v h).2.cmap = s.cmap ∧ (s.getVertex v h).2.he = s.he ∧ (s.getVertex v h).2.nhe = s.nhe ∧
    (s.getVertex v h).2.faces = s.faces ∧ (s.getVertex v h).1 = v.bind (s.getVertex v h).2.vmap ∧
    (∀ w, v = some w → (s.getVertex v h).2.vmap w ≠ none) ∧ (∀ w i, s.vmap w = some i → (s.getVertex v h).2.vmap w = some i) ∧
    (∀ v' i, (s.getVertex v h).2.vmap v' = some i ↔ ((s.getVertex v h).2.verts[i]?).map Prod.fst = some v') ∧
    ∀ p ∈ (s.getVertex v h).2.verts, p ∈ s.verts ∨ (v = some p.1 ∧ p.2 = h) := by
  unfold BState.getVertex
  cases v with
  | none => exact ⟨rfl, rfl, rfl, rfl, rfl, rfl, by simp, fun _ _ h => h, vidx, fun p hp => Or.inl hp⟩
  | some v =>
    cases hm : s.vmap v with
    | some i => simp only [hm]; exact ⟨trivial, trivial, trivial, trivial, trivial, by simp [hm], by rintro w ⟨⟩; rw [hm]; simp, fun _ _ h => h, vidx, fun p hp => Or.inl hp⟩
    | none =>
      simp only [hm]
      refine ⟨trivial, trivial, trivial, trivial, trivial, by simp, by rintro w ⟨⟩; simp, ?_, ?_, ?_⟩
      · intro w i hw
        rw [if_neg]; exact hw
        rintro rfl; rw [hm] at hw; cases hw
      · intro w i
        have hlen : ∀ w i, s.vmap w = some i → i < s.verts.length := by
          intro w i hw
          have := (vidx w i).1 hw
          by_contra hc
          rw [List.getElem?_eq_none (by omega)] at this; simp at this
        rcases Nat.lt_trichotomy i s.verts.length with hi | hi | hi
        · rw [List.getElem?_append_left hi, ← vidx]
          by_cases hw : w = v
          · subst hw; simp [hm]; omega
          · simp [hw]
        · subst hi
          by_cases hw : w = v
          · simp [hw]
          · simp [hw, Ne.symm hw]
            intro hc; have := hlen _ _ hc; omega
        · rw [List.getElem?_eq_none (by simp; omega)]
          by_cases hw : w = v
          · simp [hw]; omega
          · simp [hw]; intro hc; have := hlen _ _ hc; omega
      · intro p hp
        rcases List.mem_append.1 hp with hp | hp
        · exact Or.inl hp
        · right; simp at hp; subst hp; simp

theorem getFace_spec (s : BState) (c h : Nat)
    (cidx : ∀ v i, s.cmap v = some i ↔ (s.faces[i]?).map Prod.fst = some v) :
    (s.getFace c h).2.emap = s.emap ∧ (s.getFace c h).2.vmap = s.vmap ∧ (s.getFace c h).2.he = s.he ∧ (s.getFace c h).2.nhe = s.nhe ∧
    (s.getFace c h).2.verts = s.verts ∧ (s.cmap c ≠ none → (s.getFace c h).1 = none) ∧
    (s.getFace c h).2.cmap c ≠ none ∧ (∀ w i, s.cmap w = some i → (s.getFace c h).2.cmap w = some i) ∧
    (∀ v' i, (s.getFace c h).2.cmap v' = some i ↔ ((s.getFace c h).2.faces[i]?).map Prod.fst = some v') ∧
    ∀ p ∈ (s.getFace c h).2.faces, p ∈ s.faces ∨ (c = p.1 ∧ p.2 = h) := by
  unfold BState.getFace
  cases hm : s.cmap c with
  | some i => simp only []; exact ⟨trivial, trivial, trivial, trivial, trivial, by simp, by rw [hm]; simp, fun _ _ h => h, cidx, fun p hp => Or.inl hp⟩
  | none =>
    simp only []
    refine ⟨trivial, trivial, trivial, trivial, trivial, by simp, by simp, ?_, ?_, ?_⟩
    · intro w i hw
      rw [if_neg]; exact hw
      rintro rfl; rw [hm] at hw; cases hw
    · intro w i
      have hlen : ∀ w i, s.cmap w = some i → i < s.faces.length := by
        intro w i hw
        have := (cidx w i).1 hw
        by_contra hc
        rw [List.getElem?_eq_none (by omega)] at this; simp at this
      rcases Nat.lt_trichotomy i s.faces.length with hi | hi | hi
      · rw [List.getElem?_append_left hi, ← cidx]
        by_cases hw : w = c
        · subst hw; simp [hm]; omega
        · simp [hw]
      · subst hi
        by_cases hw : w = c
        · simp [hw]
        · simp [hw, Ne.symm hw]
          intro hc; have := hlen _ _ hc; omega
      · rw [List.getElem?_eq_none (by simp; omega)]
        by_cases hw : w = c
        · simp [hw]; omega
        · simp [hw]; intro hc; have := hlen _ _ hc; omega
    · intro p hp
      rcases List.mem_append.1 hp with hp | hp
      · exact Or.inl hp
      · right; simp at hp; subst hp; simp

set_option maxHeartbeats 1600000 in
theorem visit_inv {d : Diagram} (ok : d.Ok) {D : Nat → Prop} {vs : List Nat} {s : BState} (I : BInv d D vs s) {e : Nat} (he : e ∈ d.edges) :
    BInv d (fun j => (D j ∨ j = e) ∨ j = d.twin e) (e :: vs) (s.visit d e) := by
  unfold BState.visit
  obtain ⟨I1, e1, -⟩ := getEdge_inv I he
  rcases hs1 : s.getEdge e with ⟨h, s1⟩
  rw [hs1] at I1 e1
  obtain ⟨I2, e2, m2⟩ := getEdge_inv I1 (ok.twin e he).1
  replace e1 := m2 _ _ e1
  clear m2 I1
  rcases hs2 : s1.getEdge (d.twin e) with ⟨t, s2⟩
  rw [hs2] at I2 e2 e1
  obtain ⟨a1, a2, a3, a4, a5, a6, a7, a8, a9, a10⟩ := getVertex_spec s2 (d.vtx e) h I2.vidx
  rcases hs3 : s2.getVertex (d.vtx e) h with ⟨v, s3⟩
  rw [hs3] at a1 a2 a3 a4 a5 a6 a7 a8 a9 a10
  simp only at a1 a2 a3 a4 a5 a6 a7 a8 a9 a10
  obtain ⟨b1, b2, b3, b4, b5, b6, b7, b8, b9, b10⟩ := getFace_spec s3 (d.cell e) h (by rw [a2, a5]; exact I2.cidx)
  rcases hs4 : s3.getFace (d.cell e) h with ⟨f, s4⟩
  rw [hs4] at b1 b2 b3 b4 b5 b6 b7 b8 b9 b10
  simp only at b1 b2 b3 b4 b5 b6 b7 b8 b9 b10
  simp only [hs1, hs2, hs3, hs4]
  clear hs1 hs2 hs3 hs4 I
  obtain ⟨c1, c2, c3, c4, c5, c6, c7⟩ := link_spec s4 d e h t v f
  generalize s4.link d e h t v f = s' at *
  have E : s'.emap = s2.emap := by rw [c1, b1, a1]
  have H : s4.he = s2.he := by rw [b3, a3]
  have E4 : s4.emap = s2.emap := by rw [b1, a1]
  simp only [H, E4] at c7
  have hV : s'.vmap = s3.vmap := by rw [c2, b2]
  have uniq : ∀ j k, s2.emap j = some k → (k = h ↔ j = e) := by
    intro j k hj
    constructor
    · rintro rfl; exact I2.inj _ _ _ hj e1
    · rintro rfl; rw [e1] at hj; injection hj with h1; exact h1.symm
  have nn : d.next e ∈ d.edges ∧ d.prev (d.next e) = e := ok.next e he
  have pp : d.prev e ∈ d.edges ∧ d.next (d.prev e) = e := ok.prev e he
  have inE : ∀ j k, s2.emap j = some k → j ∈ d.edges := fun j k hj => I2.domE j ((I2.dom j).1 (by rw [hj]; simp))
  refine ⟨?_, ?_, I2.domE, ?_, ?_, ?_, ?_, ?_, ?_, ?_, ?_, ?_, ?_, ?_, ?_, ?_, ?_, ?_, ?_⟩
  · intro j hj
    rcases List.mem_cons.1 hj with rfl | hj
    · exact he
    · exact I2.sub j hj
  · rw [E]; exact I2.dom
  · intro j hj
    rcases List.mem_cons.1 hj with rfl | hj
    · exact ⟨Or.inl (Or.inr rfl), Or.inr rfl⟩
    · exact I2.closed j hj
  · rw [E, c4, b4, a4]; exact I2.bnd
  · rw [E]; exact I2.inj
  · rw [E, c4, b4, a4]; exact I2.surj
  · intro j hj k hk
    rw [E] at hk ⊢
    rw [(c7 k).1]
    by_cases hkh : k = h
    · rw [if_pos hkh, (uniq j k hk).1 hkh, e2]
    · rw [if_neg hkh]
      have hje : j ≠ e := fun hc => hkh ((uniq j k hk).2 hc)
      exact I2.twin j ((List.mem_cons.1 hj).resolve_left hje) k hk
  · intro j hj k hk
    rw [E] at hk
    rw [(c7 k).2.1, hV]
    by_cases hkh : k = h
    · rw [if_pos hkh, (uniq j k hk).1 hkh, a6]
    · rw [if_neg hkh]
      have hje : j ≠ e := fun hc => hkh ((uniq j k hk).2 hc)
      have hj' := (List.mem_cons.1 hj).resolve_left hje
      rw [I2.target j hj' k hk]
      cases hv : d.vtx j with
      | none => rfl
      | some w =>
        cases hw : s2.vmap w with
        | none => exact absurd hw (I2.vdom j hj' w hv)
        | some i => simp [hw, a8 w i hw]
  · intro j hj w hw
    rw [hV]
    rcases List.mem_cons.1 hj with rfl | hj
    · exact a7 w hw
    · cases hx : s2.vmap w with
      | none => exact absurd hx (I2.vdom j hj w hw)
      | some i => rw [a8 w i hx]; simp
  · rw [hV, c5, b5]; exact a9
  · rw [c5, b5, E]
    intro p hp
    rcases a10 p hp with hp | ⟨h1, h2⟩
    · obtain ⟨j, k1, k2⟩ := I2.vhe p hp; exact ⟨j, List.mem_cons_of_mem _ k1, k2⟩
    · exact ⟨e, List.mem_cons_self, h1, by rw [h2]; exact e1⟩
  · intro j hj
    rw [c3]
    rcases List.mem_cons.1 hj with rfl | hj
    · exact b7
    · cases hx : s2.cmap (d.cell j) with
      | none => exact absurd hx (I2.cdom j hj)
      | some i => rw [b8 _ i (by rw [a2]; exact hx)]; simp
  · rw [c3, c6]; exact b9
  · rw [c6, E]
    intro p hp
    rcases b10 p hp with hp | ⟨h1, h2⟩
    · rw [a5] at hp; obtain ⟨j, k1, k2⟩ := I2.che p hp; exact ⟨j, List.mem_cons_of_mem _ k1, k2⟩
    · exact ⟨e, List.mem_cons_self, h1, by rw [h2]; exact e1⟩
  · intro j k g hk hg
    rw [E] at hk ⊢
    rw [(c7 k).2.2.2.1] at hg
    by_cases hp : s2.emap (d.prev e) = some k
    · rw [if_pos hp] at hg
      injection hg with hg
      rw [← hg, I2.inj _ _ _ hk hp, pp.2, e1]
    · rw [if_neg hp] at hg
      by_cases hkh : k = h
      · rw [if_pos hkh] at hg
        have hje := (uniq j k hk).1 hkh
        subst hje
        cases hn : s2.emap (d.next j) with
        | some g' => rw [hn] at hg; simpa using hg
        | none => rw [hn] at hg; rw [← hn]; exact I2.nextR j k g hk (by simpa using hg)
      · rw [if_neg hkh] at hg; exact I2.nextR j k g hk hg
  · intro j k g hk hg
    rw [E] at hk ⊢
    rw [(c7 k).2.2.2.2] at hg
    have aux : (if s2.emap (d.next e) = some k then some h else (s2.he k).last) = some g → s2.emap (d.prev j) = some g := by
      intro hg
      by_cases hn : s2.emap (d.next e) = some k
      · rw [if_pos hn] at hg; injection hg with hg
        rw [← hg, I2.inj _ _ _ hk hn, nn.2, e1]
      · rw [if_neg hn] at hg; exact I2.lastR j k g hk hg
    by_cases hkh : k = h
    · rw [if_pos hkh] at hg
      have hje := (uniq j k hk).1 hkh
      cases hn : s2.emap (d.prev e) with
      | some g' => rw [hn] at hg; rw [hje, hn]; simpa using hg
      | none => rw [hn] at hg; exact aux (by simpa using hg)
    · rw [if_neg hkh] at hg; exact aux hg
  · intro j hj hn k g hk hg
    rw [E] at hk hg
    rw [(c7 k).2.2.2.1, (c7 g).2.2.2.2]
    by_cases hje : j = e
    · subst hje
      have hkh := (uniq j k hk).2 rfl
      subst hkh
      refine ⟨?_, ?_⟩
      · by_cases hp : s2.emap (d.prev j) = some k
        · rw [if_pos hp]
          have : d.prev j = j := I2.inj _ _ _ hp hk
          have h2 := pp.2; rw [this] at h2; rw [h2] at hg; rw [← hk, hg]
        · rw [if_neg hp, if_pos rfl, hg]; rfl
      · rw [if_pos hg]
        by_cases hgk : g = k
        · rw [if_pos hgk]
          have : d.next j = j := I2.inj _ _ _ (hgk ▸ hg) hk
          have h2 := nn.2; rw [this] at h2; rw [h2, hk]; rfl
        · rw [if_neg hgk]
    · by_cases hne : d.next j = e
      · have hpj : d.prev e = j := by rw [← hne]; exact (ok.next j (inE j k hk)).2
        have hgh : g = h := (uniq _ g hg).2 hne
        rw [hpj, if_pos hk, if_pos hgh, hk, hgh]; exact ⟨rfl, rfl⟩
      · have hj' := (List.mem_cons.1 hj).resolve_left hje
        have hn' := (List.mem_cons.1 hn).resolve_left hne
        have hkh : k ≠ h := fun hc => hje ((uniq j k hk).1 hc)
        have hgh : g ≠ h := fun hc => hne ((uniq _ g hg).1 hc)
        have h1 : s2.emap (d.prev e) ≠ some k := by
          intro hc; have := I2.inj _ _ _ hk hc
          apply hne; rw [this]; exact pp.2
        have h2 : s2.emap (d.next e) ≠ some g := by
          intro hc; have := I2.inj _ _ _ hg hc
          apply hje
          rw [← (ok.next j (inE j k hk)).2, this, nn.2]
        rw [if_neg h1, if_neg hkh, if_neg hgh, if_neg h2]
        exact I2.lk j hj' hn' k g hk hg
  · intro j k hk hc
    rw [E] at hk
    rw [(c7 k).2.2.1]
    by_cases hkh : k = h
    · rw [if_pos hkh]
      have hje := (uniq j k hk).1 hkh
      subst hje
      rw [List.count_cons_self] at hc
      have : j ∈ vs := List.count_pos_iff.1 (by omega)
      exact b6 (by rw [a2]; exact I2.cdom j this)
    · rw [if_neg hkh]
      have hje : j ≠ e := fun hc => hkh ((uniq j k hk).2 hc)
      exact I2.null j k hk (by rwa [List.count_cons_of_ne (Ne.symm hje)] at hc)

theorem foldl_inv {d : Diagram} (ok : d.Ok) : ∀ (ws vs : List Nat) (D : Nat → Prop) (s : BState), BInv d D vs s → (∀ e ∈ ws, e ∈ d.edges) →
    ∃ D', BInv d D' (ws.reverse ++ vs) (ws.foldl (BState.visit d) s)
  | [], vs, D, s, I, _ => ⟨D, by simpa using I⟩
  | w :: ws, vs, D, s, I, h => by
    have := visit_inv ok I (h w List.mem_cons_self)
    obtain ⟨D', I'⟩ := foldl_inv ok ws (w :: vs) _ _ this (fun e he => h e (List.mem_cons_of_mem _ he))
    exact ⟨D', by simpa using I'⟩

theorem empty_inv (d : Diagram) : BInv d (fun _ => False) [] BState.empty := by
  constructor <;> simp [BState.empty]

theorem build_inv {d : Diagram} (ok : d.Ok) : ∃ D vs, BInv d D vs (BState.build d) ∧ ∀ e ∈ d.edges, 2 ≤ vs.count e := by
  obtain ⟨D, I⟩ := foldl_inv ok (d.edges.flatMap (fun e => [e, d.twin e])) [] _ _ (empty_inv d) (by
    intro e he
    obtain ⟨x, hx, hxe⟩ := List.mem_flatMap.1 he
    rcases List.mem_cons.1 hxe with rfl | h1
    · exact hx
    · rw [List.mem_singleton.1 h1]; exact (ok.twin x hx).1)
  refine ⟨D, _, I, ?_⟩
  intro e he
  rw [List.append_nil, List.count_reverse, List.count_flatMap]
  have key : ∀ (l : List Nat) (a b : Nat), a ≠ b → a ∈ l → b ∈ l → l.Nodup → (∀ f : Nat → Nat, 1 ≤ f a → 1 ≤ f b → 2 ≤ (l.map f).sum) := by
    intro l a b hab ha hb hn f fa fb
    have h1 := List.sum_map_erase f ha
    have h2 := List.sum_map_erase f (List.Nodup.mem_erase_iff hn |>.2 ⟨Ne.symm hab, hb⟩)
    omega
  refine key d.edges e (d.twin e) (Ne.symm (ok.twin e he).2.2) he (ok.twin e he).1 ok.nodup _ ?_ ?_
  · simp
  · simp [(ok.twin e he).2.1]

/-! ## The property -/

/-- **C96**: the copy has one half edge for each boost edge, one vertex for each boost vertex an edge ends at and one face for each cell an edge bounds, in that order of first meeting, and the half edges have the twins, targets, next and previous edges of the boost edges. -/
theorem C96_links_partial (d : Diagram) (ok : d.Ok) :
    (∀ e ∈ d.edges, ∃ h, (BState.build d).emap e = some h ∧ h < (BState.build d).nhe ∧
      ((BState.build d).he h).twin = (BState.build d).emap (d.twin e) ∧
      ((BState.build d).he h).next = (BState.build d).emap (d.next e) ∧
      ((BState.build d).he h).last = (BState.build d).emap (d.prev e) ∧
      ((BState.build d).he h).target = (d.vtx e).bind (BState.build d).vmap ∧
      (∀ v, d.vtx e = some v → ∃ i g, (BState.build d).vmap v = some i ∧ (BState.build d).verts[i]? = some (v, g)) ∧
      (∃ i g, (BState.build d).cmap (d.cell e) = some i ∧ (BState.build d).faces[i]? = some (d.cell e, g))) ∧
    (BState.build d).nhe = d.edges.length ∧
    (∀ e e' h, (BState.build d).emap e = some h → (BState.build d).emap e' = some h → e = e') ∧
    ((BState.build d).verts.map Prod.fst).Nodup ∧ ((BState.build d).faces.map Prod.fst).Nodup ∧
    (∀ p ∈ (BState.build d).verts, ∃ e ∈ d.edges, d.vtx e = some p.1 ∧ (BState.build d).emap e = some p.2) ∧
    (∀ p ∈ (BState.build d).faces, ∃ e ∈ d.edges, d.cell e = p.1 ∧ (BState.build d).emap e = some p.2) := by
  obtain ⟨D, vs, I, hv⟩ := build_inv ok
  generalize BState.build d = s at *
  have mem : ∀ e ∈ d.edges, e ∈ vs := fun e he => List.count_pos_iff.1 (by have := hv e he; omega)
  have tot : ∀ e ∈ d.edges, ∃ h, s.emap e = some h := by
    intro e he
    cases h : s.emap e with
    | none => exact absurd h ((I.dom e).2 (I.closed e (mem e he)).1)
    | some k => exact ⟨k, rfl⟩
  have nod : ∀ (l : List (Nat × Nat)) (m : Nat → Option Nat), (∀ c i, m c = some i ↔ (l[i]?).map Prod.fst = some c) → (l.map Prod.fst).Nodup := by
    intro l m hm
    rw [List.nodup_iff_getElem?_ne_getElem?]
    intro i j hij hj hc
    rw [List.getElem?_map, List.getElem?_map] at hc
    have hj' : j < l.length := by simpa using hj
    have h2 := (hm (l[j]).1 j).2 (by rw [List.getElem?_eq_getElem hj']; rfl)
    have h1 := (hm (l[j]).1 i).2 (by rw [hc, List.getElem?_eq_getElem hj']; rfl)
    rw [h1] at h2; injection h2 with h2; omega
  refine ⟨?_, ?_, I.inj, nod _ _ I.vidx, nod _ _ I.cidx, ?_, ?_⟩
  · intro e he
    obtain ⟨h, hh⟩ := tot e he
    obtain ⟨g, hg⟩ := tot _ (ok.next e he).1
    obtain ⟨p, hp⟩ := tot _ (ok.prev e he).1
    refine ⟨h, hh, I.bnd e h hh, I.twin e (mem e he) h hh, ?_, ?_, I.target e (mem e he) h hh, ?_, ?_⟩
    · rw [hg]; exact (I.lk e (mem e he) (mem _ (ok.next e he).1) h g hh hg).1
    · rw [hp]; exact (I.lk _ (mem _ (ok.prev e he).1) (by rw [(ok.prev e he).2]; exact mem e he) p h hp (by rw [(ok.prev e he).2]; exact hh)).2
    · intro v hvx
      cases hm : s.vmap v with
      | none => exact absurd hm (I.vdom e (mem e he) v hvx)
      | some i =>
        have := (I.vidx v i).1 hm
        obtain ⟨⟨a, b⟩, h1, h2⟩ := Option.map_eq_some_iff.1 this
        exact ⟨i, b, rfl, by rw [h1]; simp at h2; rw [h2]⟩
    · cases hm : s.cmap (d.cell e) with
      | none => exact absurd hm (I.cdom e (mem e he))
      | some i =>
        have := (I.cidx _ i).1 hm
        obtain ⟨⟨a, b⟩, h1, h2⟩ := Option.map_eq_some_iff.1 this
        exact ⟨i, b, rfl, by rw [h1]; simp at h2; rw [h2]⟩
  · have h1 : (d.edges.map s.emap).Perm ((List.range s.nhe).map some) := by
      rw [List.perm_ext_iff_of_nodup]
      · intro o
        simp only [List.mem_map, List.mem_range]
        constructor
        · rintro ⟨e, he, rfl⟩
          obtain ⟨h, hh⟩ := tot e he
          exact ⟨h, I.bnd e h hh, hh.symm⟩
        · rintro ⟨h, hh, rfl⟩
          obtain ⟨e, he⟩ := I.surj h hh
          exact ⟨e, I.domE e ((I.dom e).1 (by rw [he]; simp)), he⟩
      · refine (List.nodup_map_iff_inj_on ok.nodup).2 ?_
        intro a ha b hb hab
        obtain ⟨h, hh⟩ := tot a ha
        exact I.inj a b h hh (by rw [← hab]; exact hh)
      · exact (List.nodup_range).map (fun a b h => Option.some.inj h)
    have := h1.length_eq
    simpa using this.symm
  · intro p hp
    obtain ⟨e, h1, h2⟩ := I.vhe p hp
    exact ⟨e, I.sub e h1, h2⟩
  · intro p hp
    obtain ⟨e, h1, h2⟩ := I.che p hp
    exact ⟨e, I.sub e h1, h2⟩

/-- **C96**, refuted part: no half edge of the copy has a face. Every edge is translated twice, as an edge and as a twin, and the second time the cell is known and the pointer that is stored is null. -/
theorem C96_faces_refuted (d : Diagram) (ok : d.Ok) : ∀ h < (BState.build d).nhe, ((BState.build d).he h).face = none := by
  obtain ⟨D, vs, I, hv⟩ := build_inv ok
  intro h hh
  obtain ⟨e, he⟩ := I.surj h hh
  exact I.null e h he (hv e (I.domE e ((I.dom e).1 (by rw [he]; simp))))

/-- three sites: one vertex (7), three infinite edges 0/1, 2/3, 4/5 leaving it; edges 0, 2, 4 end at infinity, cells 0, 1, 2 -/
def sampleDiagram : Diagram where
  edges := [0, 1, 2, 3, 4, 5]
  twin e := if e % 2 = 0 then e + 1 else e - 1
  next e := [3, 4, 5, 0, 1, 2].getD e 0
  prev e := [3, 4, 5, 0, 1, 2].getD e 0
  vtx e := if e % 2 = 1 then some 7 else none
  cell e := [0, 1, 2, 0, 1, 2].getD e 0

example : sampleDiagram.Ok ∧ (BState.build sampleDiagram).nhe = 6 ∧ (BState.build sampleDiagram).faces.length = 3 ∧ (BState.build sampleDiagram).verts.length = 1 := by
  refine ⟨⟨by decide, by decide, by decide, by decide⟩, by decide +kernel, by decide +kernel, by decide +kernel⟩

end Verif.Voronoi

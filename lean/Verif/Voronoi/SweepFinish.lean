import Mathlib.Tactic.Ring
import Mathlib.Tactic.Linarith
import Verif.Voronoi.SweepProps

/-! C93, C94: what `buildVoronoiDiagram` does after the event loop, Voronoi.cxx:190-252 and 854-1006. -/
namespace Verif.Voronoi

namespace Sweep

/-- the nodes met when following the successor pointers, the loop `while (node)` of Voronoi.cxx:877-985 -/
def nodesFrom (h : Nat → Node) : Nat → Option Nat → List Nat
  | 0, _ => []
  | _ + 1, none => []
  | f + 1, some i => i :: nodesFrom h f (h i).succ

/-- one node of the loop, Voronoi.cxx:882-974: for a breakpoint whose half edge has a target, the twin gets a new vertex as its target.  `none` stands for
a null pointer that is dereferenced; coordinates and printing are left out. -/
def terminateNode (s : Sweep) (i : Nat) : Option Sweep :=
  if Beach.isLeaf (s.beach.heap i) = true then some s
  else
    match (s.beach.heap i).pred, (s.beach.heap i).succ, (s.beach.heap i).half with
    | some _, some _, some h =>
      match (s.he h).twin with
      | some g =>
        match (s.he h).target with
        | some _ => some (({ s with vtx := fun j => if j = s.nv then some h else s.vtx j, nv := s.nv + 1 }).modE g (fun e => { e with target := some s.nv }))
        | none => some s
      | none => none
    | _, _, _ => none

/-- the first loop of `terminateInfiniteEdges`, Voronoi.cxx:854-985 -/
def terminate (s : Sweep) : Option Sweep :=
  match s.beach.root with
  | none => some s
  | some r =>
    match Beach.leftmost s.beach.heap (s.beach.next + 1) r with
    | none => none
    | some l => (nodesFrom s.beach.heap (s.beach.next + 1) (some l)).foldlM terminateNode s

/-- the list of vertices after the second loop, Voronoi.cxx:980-995: those outside the hull are erased -/
def keptVertices (s : Sweep) (inside : Nat → Bool) : List Nat := (List.range s.nv).filter inside

/-- the vertices that `mergeDegenerateVertices` reads, Voronoi.cxx:1240-1268: both ends of every edge that has two -/
def Reads (s : Sweep) (v : Nat) : Prop :=
  ∃ h < s.nhe, ∃ g w, (s.he h).twin = some g ∧ (s.he h).target = some v ∧ (s.he g).target = some w

end Sweep

theorem nodesFrom_spec (h : Nat → Node) (xs : List Nat) : ∀ p f, Thread h p xs none → xs.length < f → Sweep.nodesFrom h f xs.head? = xs := by
  induction xs with
  | nil =>
    intro p f _ hf
    obtain ⟨f, rfl⟩ : ∃ g, f = g + 1 := ⟨f - 1, by simp at hf; omega⟩
    rfl
  | cons x xs ih =>
    intro p f ht hf
    obtain ⟨f, rfl⟩ : ∃ g, f = g + 1 := ⟨f - 1, by simp at hf; omega⟩
    obtain ⟨t1, t2, t3⟩ := ht
    simp only [List.head?_cons, Sweep.nodesFrom, t2, Option.or_none]
    rw [ih (some x) f t3 (by simp at hf; omega)]

theorem isLeaf_iff {h : Nat → Node} {t : T} : ∀ {p}, Rep h p t → t.ids.Nodup → ∀ i ∈ t.ids, (Beach.isLeaf (h i) = true ↔ i ∈ t.leaves) := by
  induction t with
  | leaf j =>
    intro p hr _ i hi
    simp only [Rep, tf, Prod.mk.injEq] at hr
    simp only [T.ids, List.mem_singleton] at hi
    subst hi
    simp [T.leaves, Beach.isLeaf, hr]
  | node j l r ihl ihr =>
    intro p hr hnd i hi
    obtain ⟨h1, h2, h3⟩ := hr
    simp only [tf, Prod.mk.injEq] at h1
    simp only [T.ids] at hi hnd
    rw [List.nodup_append] at hnd
    obtain ⟨n1, n2, n3⟩ := hnd
    rw [List.nodup_cons] at n2
    simp only [T.leaves, List.mem_append]
    rcases List.mem_append.1 hi with hl | hr'
    · rw [ihl h2 n1 i hl]
      refine ⟨Or.inl, fun h => h.resolve_right (fun h' => n3 i hl i (List.mem_cons_of_mem _ (leaves_sub r i h')) rfl)⟩
    · rcases List.mem_cons.1 hr' with rfl | hr'
      · have : Beach.isLeaf (h i) = false := by simp [Beach.isLeaf, h1]
        rw [this]
        simp only [Bool.false_eq_true, false_iff, not_or]
        exact ⟨fun h => n3 i (leaves_sub l i h) i (by simp) rfl, fun h => n2.1 (leaves_sub r i h)⟩
      · rw [ihr h3 n2.2 i hr']
        refine ⟨Or.inr, fun h => h.resolve_left (fun h' => n3 i (leaves_sub l i h') i (List.mem_cons_of_mem _ hr') rfl)⟩

/-- what the first loop has done after some of the nodes -/
structure Term (s s' : Sweep) (P : List Nat) : Prop where
  beach : s'.beach = s.beach
  nhe : s'.nhe = s.nhe
  nf : s'.nf = s.nf
  faceHE : s'.faceHE = s.faceHE
  nv : s.nv ≤ s'.nv
  rest : ∀ h, (s'.he h).twin = (s.he h).twin ∧ (s'.he h).next = (s.he h).next ∧ (s'.he h).last = (s.he h).last ∧ (s'.he h).face = (s.he h).face
  old : ∀ h v, (s.he h).target = some v → (s'.he h).target = some v
  only : ∀ h < s.nhe, (s'.he h).target ≠ none → (s.he h).target ≠ none ∨ ∃ g v, (s.he h).twin = some g ∧ (s.he g).target = some v
  bound : ∀ h < s.nhe, ∀ v, (s'.he h).target = some v → v < s'.nv
  done : ∀ b ∈ P, (s.beach.heap b).face = none → ∀ h g, (s.beach.heap b).half = some h → (s.he h).twin = some g → (s.he h).target ≠ none → (s'.he g).target ≠ none

theorem terminate_nodes {o : Oracle} {s : Sweep} {t : T} (hI : Inv o s t) : ∀ (Q P : List Nat) (s1 : Sweep), (∀ b ∈ Q, b ∈ t.ids) → Term s s1 P →
    ∃ s2, Q.foldlM Sweep.terminateNode s1 = some s2 ∧ Term s s2 (P ++ Q)
  | [], P, s1, _, hT => ⟨s1, rfl, by simpa using hT⟩
  | b :: Q, P, s1, hQ, hT => by
    have hb := hQ b (by simp)
    suffices h : ∃ s2, s1.terminateNode b = some s2 ∧ Term s s2 (P ++ [b]) by
      obtain ⟨s2, h1, h2⟩ := h
      obtain ⟨s3, h3, h4⟩ := terminate_nodes hI Q (P ++ [b]) s2 (fun c hc => hQ c (by simp [hc])) h2
      refine ⟨s3, ?_, by simpa using h4⟩
      rw [List.foldlM_cons, h1]
      exact h3
    unfold Sweep.terminateNode
    rw [hT.beach]
    have hlf := isLeaf_iff hI.wf.rep hI.wf.nodup b hb
    by_cases hl : Beach.isLeaf (s.beach.heap b) = true
    · rw [if_pos hl]
      refine ⟨s1, rfl, { hT with done := ?_ }⟩
      intro c hc hf
      rcases List.mem_append.1 hc with hc | hc
      · exact hT.done c hc hf
      · simp only [List.mem_singleton] at hc
        subst hc
        exact absurd hf ((hI.arc c hb).1 (hlf.1 hl))
    · rw [if_neg hl]
      have hf : (s.beach.heap b).face = none := by
        by_contra h
        exact hl (hlf.2 ((hI.arc b hb).2 h))
      obtain ⟨a, k, ⟨_, _, _, h, g, q1, q2, q3, q4, q5, q6, q7, q8, q9, q10⟩, _, _, hpr, hsu⟩ := hI.brk hb hf
      rw [hpr, hsu, q1]
      dsimp only
      rw [(hT.rest h).1, q4]
      dsimp only
      cases htg : (s1.he h).target with
      | none =>
        refine ⟨s1, rfl, { hT with done := ?_ }⟩
        intro c hc hf'
        rcases List.mem_append.1 hc with hc | hc
        · exact hT.done c hc hf'
        · simp only [List.mem_singleton] at hc
          subst hc
          intro h' g' e1 e2 e3
          rw [q1] at e1; simp only [Option.some.injEq] at e1; subst e1
          obtain ⟨v, hv⟩ := Option.ne_none_iff_exists'.1 e3
          rw [hT.old h v hv] at htg
          simp at htg
      | some v =>
        have hold : (s.he h).target ≠ none := by
          rcases hT.only h q2 (by rw [htg]; simp) with h1 | ⟨g', v', h1, h2⟩
          · exact h1
          · rw [q4] at h1; simp only [Option.some.injEq] at h1; subst h1; rw [q10] at h2; simp at h2
        refine ⟨_, rfl, ?_⟩
        have hhe : ∀ j, ((({ s1 with beach := s.beach, vtx := fun j => if j = s1.nv then some h else s1.vtx j, nv := s1.nv + 1 } : Sweep).modE g (fun e => { e with target := some s1.nv })).he j) =
            if j = g then { s1.he g with target := some s1.nv } else s1.he j := fun j => rfl
        refine
          { beach := rfl, nhe := hT.nhe, nf := hT.nf, faceHE := hT.faceHE, nv := Nat.le_succ_of_le hT.nv
            rest := ?_, old := ?_, only := ?_, bound := ?_, done := ?_ }
        · intro j
          rw [hhe]
          by_cases hj : j = g
          · subst hj; rw [if_pos rfl]; exact hT.rest j
          · rw [if_neg hj]; exact hT.rest j
        · intro j w hw
          rw [hhe]
          by_cases hj : j = g
          · subst hj; rw [q10] at hw; simp at hw
          · rw [if_neg hj]; exact hT.old j w hw
        · intro j hj hne
          rw [hhe] at hne
          by_cases hjg : j = g
          · subst hjg
            obtain ⟨w, hw⟩ := Option.ne_none_iff_exists'.1 hold
            exact Or.inr ⟨h, w, q5, hw⟩
          · rw [if_neg hjg] at hne; exact hT.only j hj hne
        · intro j hj w hw
          rw [hhe] at hw
          show w < s1.nv + 1
          by_cases hjg : j = g
          · rw [if_pos hjg] at hw
            simp only [Option.some.injEq] at hw
            omega
          · rw [if_neg hjg] at hw
            have := hT.bound j hj w hw
            omega
        · intro c hc hf' h' g' e1 e2 e3
          rw [hhe]
          by_cases hg' : g' = g
          · rw [if_pos hg']; simp
          · rw [if_neg hg']
            rcases List.mem_append.1 hc with hc | hc
            · exact hT.done c hc hf' h' g' e1 e2 e3
            · simp only [List.mem_singleton] at hc
              subst hc
              rw [q1] at e1; simp only [Option.some.injEq] at e1; subst e1
              rw [q4] at e2; simp only [Option.some.injEq] at e2; exact absurd e2.symm hg'

theorem terminate_inv {o : Oracle} {s : Sweep} {t : T} (hI : Inv o s t) : ∃ s', s.terminate = some s' ∧ Term s s' t.ids := by
  unfold Sweep.terminate
  rw [hI.wf.root]
  dsimp only
  rw [leftmost_spec s.beach.heap t _ _ hI.wf.rep (wf_fuel hI.wf)]
  obtain ⟨z, zs, hz⟩ : ∃ z zs, t.ids = z :: zs := by
    cases h : t.ids with
    | nil => exact absurd h (ids_ne _)
    | cons z zs => exact ⟨z, zs, rfl⟩
  have hhead : t.leaves.head? = some z := by rw [← ids_head, hz]; rfl
  rw [hhead]
  dsimp only
  have := nodesFrom_spec s.beach.heap t.ids none (s.beach.next + 1) hI.wf.thread (by have := length_bound hI.wf.nodup hI.wf.bound; omega)
  rw [hz, List.head?_cons] at this
  rw [this, ← hz]
  have h0 : Term s s [] :=
    { beach := rfl, nhe := rfl, nf := rfl, faceHE := rfl, nv := Nat.le_refl _, rest := fun _ => ⟨rfl, rfl, rfl, rfl⟩, old := fun _ _ h => h
      only := fun _ _ h => Or.inl h, bound := hI.edges.target, done := by simp }
  obtain ⟨s2, h1, h2⟩ := terminate_nodes hI t.ids [] s (fun _ h => h) h0
  exact ⟨s2, h1, by simpa using h2⟩

/-! ## C93 -/

/-- C93: the loop that ends the infinite edges dereferences no null pointer and keeps faces, twins and the order of the edges; every target stays what it was;
afterwards an edge has either two end points or none, and it has none only if it had none before -/
theorem C93_terminate_partial (o : Oracle) (ho : ∀ x, o.same x x = true) {k : Nat} {s : Sweep} (hr : Reach o k s) :
    ∃ s', s.terminate = some s' ∧ s'.nhe = s.nhe ∧ s'.nf = s.nf ∧ s.nv ≤ s'.nv ∧
      (∀ h, (s'.he h).twin = (s.he h).twin ∧ (s'.he h).next = (s.he h).next ∧ (s'.he h).last = (s.he h).last ∧ (s'.he h).face = (s.he h).face) ∧
      (∀ h v, (s.he h).target = some v → (s'.he h).target = some v) ∧
      (∀ h < s.nhe, ∀ v, (s'.he h).target = some v → v < s'.nv) ∧
      (∀ h < s.nhe, ∀ g, (s.he h).twin = some g → ((s'.he h).target = none ↔ (s.he h).target = none ∧ (s.he g).target = none)) ∧
      (∀ h < s.nhe, ∀ g, (s.he h).twin = some g → ((s'.he h).target = none ↔ (s'.he g).target = none)) ∧
      (∀ f, countFace s' f = countFace s f) := by
  rcases reach_inv ho hr with ⟨_, rfl⟩ | ⟨t, hI, _⟩
  · exact ⟨Sweep.start o.n, rfl, rfl, rfl, Nat.le_refl _, fun _ => ⟨rfl, rfl, rfl, rfl⟩, fun _ _ h => h, by simp [Sweep.start], by simp [Sweep.start], by simp [Sweep.start], fun _ => rfl⟩
  obtain ⟨s', h1, hT⟩ := terminate_inv hI
  have key : ∀ h < s.nhe, ∀ g, (s.he h).twin = some g → ((s'.he h).target = none ↔ (s.he h).target = none ∧ (s.he g).target = none) := by
    intro h hh g hg
    constructor
    · intro hn
      have hnone : (s.he h).target = none := by
        cases hc : (s.he h).target with
        | none => rfl
        | some v => rw [hT.old h v hc] at hn; simp at hn
      refine ⟨hnone, ?_⟩
      by_contra hgt
      have hnext : (s.he h).next = none := by
        cases hc : (s.he h).next with
        | none => rfl
        | some x =>
          obtain ⟨_, _, _, v, w, e1, _⟩ := hI.edges.next h hh x hc
          rw [hnone] at e1; simp at e1
      obtain ⟨b, b1, g', b2, b3, b4⟩ := hI.openN h hh hnext
      rw [hg] at b4; simp only [Option.some.injEq] at b4; subst b4
      obtain ⟨g2, _, e1, e2, _⟩ := hI.edges.twin h hh
      rw [hg] at e1; simp only [Option.some.injEq] at e1; subst e1
      exact hT.done b b1 b2 g h b3 e2 hgt hn
    · rintro ⟨n1, n2⟩
      by_contra hne
      rcases hT.only h hh hne with h' | ⟨g', v, e1, e2⟩
      · exact h' n1
      · rw [hg] at e1; simp only [Option.some.injEq] at e1; subst e1
        rw [n2] at e2; simp at e2
  refine ⟨s', h1, hT.nhe, hT.nf, hT.nv, hT.rest, hT.old, hT.bound, key, ?_, ?_⟩
  · intro h hh g hg
    obtain ⟨g2, hg2, e1, e2, _⟩ := hI.edges.twin h hh
    rw [hg] at e1; simp only [Option.some.injEq] at e1; subst e1
    rw [key h hh g hg, key g hg2 h e2]
    exact and_comm
  · intro f
    have w1 : ∀ st fuel x n, walkNext s' st fuel x n = walkNext s st fuel x n := by
      intro st fuel
      induction fuel with
      | zero => intros; rfl
      | succ fuel ih =>
        intro x n
        cases x with
        | none => rfl
        | some h => simp only [walkNext, (hT.rest h).2.1, ih]
    have w2 : ∀ st fuel x n, walkLast s' st fuel x n = walkLast s st fuel x n := by
      intro st fuel
      induction fuel with
      | zero => intros; rfl
      | succ fuel ih =>
        intro x n
        cases x with
        | none => rfl
        | some h => simp only [walkLast, (hT.rest h).2.2.1, ih]
    unfold countFace
    rw [hT.faceHE, hT.nhe]
    cases s.faceHE f with
    | none => rfl
    | some st =>
      dsimp only
      rw [(hT.rest st).2.1, w1]
      split
      · rfl
      · rfl
      · rw [(hT.rest st).2.2.1, w2]

/-- C93: but every vertex of the diagram that is judged outside the hull and erased is read again right after that: half edges still point at it, and
`mergeDegenerateVertices` dereferences both ends of their edges -/
theorem C93_dangling_refuted (o : Oracle) (ho : ∀ x, o.same x x = true) {k : Nat} {s : Sweep} (hr : Reach o k s) (inside : Nat → Bool) (v : Nat) (hv : v < s.nv) (hout : inside v = false) :
    ∃ s', s.terminate = some s' ∧ v ∉ s'.keptVertices inside ∧ s'.Reads v := by
  obtain ⟨s', h1, h2, _, _, h5, h6, _, _, h9, _⟩ := C93_terminate_partial o ho hr
  obtain ⟨d1, _, _, _, _, d6, _⟩ := C88_dcel o ho hr
  refine ⟨s', h1, by simp [Sweep.keptVertices, hout], ?_⟩
  obtain ⟨h, hh, g, e1, e2, e3⟩ := d6 v hv
  obtain ⟨g', hg', _, e4, e5⟩ := d1 h hh
  rw [e2] at e4; simp only [Option.some.injEq] at e4; subst e4
  have hgt := h6 g v e3
  have hne : (s'.he h).target ≠ none := by
    intro hn
    have := (h9 h hh g e2).1 hn
    rw [hgt] at this; simp at this
  obtain ⟨w, hw⟩ := Option.ne_none_iff_exists'.1 hne
  exact ⟨g, by rw [h2]; exact hg', h, w, by rw [(h5 g).1]; exact e5, hgt, hw⟩

/-- the terminated diagram of the example: three new vertices for the three breakpoints that are left -/
example : (exEnd.bind Sweep.terminate).map (fun s => (s.nv, s.nhe, (List.range s.nhe).countP (fun h => (s.he h).target.isNone))) = some (6, 12, 0) := by decide +kernel

/-! ## C94 -/

abbrev Pt := ℚ × ℚ

/-- `crossProduct`, Voronoi.cxx:89-100 -/
def cross (a b p : Pt) : ℚ := (b.1 - a.1) * (p.2 - a.2) - (b.2 - a.2) * (p.1 - a.1)

/-- the loop of `isInsideConvexHull`, Voronoi.cxx:1168-1180; `isLeft` is Voronoi.cxx:78-85 -/
def insideLoop (v : Pt) : Pt → List Pt → Bool
  | _, [] => true
  | a, b :: l => if !decide (cross a b v > 0) then false else insideLoop v b l

/-- `isInsideConvexHull`, Voronoi.cxx:1158-1183; `none` when the hull is empty (`*hullItr` on the end iterator) -/
def insideHull (hull : List Pt) (v : Pt) : Option Bool :=
  match hull with
  | [] => none
  | a :: l => some (insideLoop v a l)

/-- the points saved by `getConvexHull`, Voronoi.cxx:1025-1054: those of the arcs, from right to left, after the ones that are already in the list -/
def hullList (old : List Pt) (pos : Nat → Pt) (s : Sweep) (arcs : List Nat) : List Pt := old ++ (arcs.reverse.map (fun i => pos (s.beach.heap i).event))

theorem insideLoop_iff (v : Pt) : ∀ (l : List Pt) (a : Pt), insideLoop v a l = true ↔ (a :: l).IsChain (fun a b => 0 < cross a b v)
  | [], a => by simp [insideLoop]
  | b :: l, a => by
    rw [insideLoop, List.isChain_cons_cons, ← insideLoop_iff v l b]
    by_cases h : cross a b v > 0
    · simp [h]
    · simp [h]

/-- specification: `v` is strictly to the left of every edge of the closed polygon -/
def LeftOfAll (poly : List Pt) (v : Pt) : Prop := ∀ i (h : i < poly.length), 0 < cross poly[i] (poly[(i + 1) % poly.length]'(Nat.mod_lt _ (by omega))) v

theorem closed_chain {α : Type} (R : α → α → Prop) (poly : List α) (p : α) (hp : ∀ q l, poly = q :: l → q = p) :
    (poly ++ [p]).IsChain R ↔ ∀ i (h : i < poly.length), R poly[i] (poly[(i + 1) % poly.length]'(Nat.mod_lt _ (by omega))) := by
  rw [List.isChain_iff_getElem]
  have key : ∀ i (h : i < poly.length), (poly ++ [p])[i + 1]'(by simp; omega) = poly[(i + 1) % poly.length]'(Nat.mod_lt _ (by omega)) := by
    intro i h
    by_cases h1 : i + 1 < poly.length
    · rw [List.getElem_append_left h1]
      congr 1
      rw [Nat.mod_eq_of_lt h1]
    · have h2 : i + 1 = poly.length := by omega
      rw [List.getElem_append_right (by omega)]
      cases poly with
      | nil => simp at h
      | cons q l =>
        have := hp q l rfl
        subst this
        simp only [List.getElem_singleton]
        have : (i + 1) % (q :: l).length = 0 := by rw [h2, Nat.mod_self]
        have h3 : ∀ (j : Nat) (hj : j < (q :: l).length), j = 0 → q = (q :: l)[j] := by rintro j hj rfl; rfl
        exact h3 _ _ this
  constructor
  · intro h i hi
    have := h i (by simp; omega)
    rw [key i hi, List.getElem_append_left hi] at this
    exact this
  · intro h i hi
    have hi' : i < poly.length := by simp at hi; omega
    rw [key i hi', List.getElem_append_left hi']
    exact h i hi'

/-- C94: on a first build, the list of hull points begins and ends with the same point, so that the edges it checks are all the edges of the closed polygon: a vertex is kept exactly when it is
strictly to the left of each of them -/
theorem C94_inside_partial (o : Oracle) (ho : ∀ x, o.same x x = true) (hn : 0 < o.n) {k : Nat} {s : Sweep} (hr : Reach o k s) (hq : s.queue = []) (pos : Nat → Pt) (v : Pt) :
    ∃ arcs, Frontier s arcs ∧ ∃ p poly b, hullList [] pos s arcs = poly ++ [p] ∧ (∀ q l, poly = q :: l → q = p) ∧
      insideHull (hullList [] pos s arcs) v = some b ∧ (b = true ↔ LeftOfAll poly v) := by
  rcases reach_inv ho hr with ⟨_, rfl⟩ | ⟨t, hI, _, e, _, he⟩
  · have : (Sweep.start o.n).queue = List.range o.n := rfl
    rw [this, List.range_eq_nil] at hq
    omega
  refine ⟨t.leaves, ⟨⟨t, hI.wf, rfl⟩, ?_⟩, ?_⟩
  · intro i hi
    obtain ⟨f, hf⟩ := Option.ne_none_iff_exists'.1 ((hI.arc i (leaves_sub t i hi)).1 hi)
    exact ⟨f, (hI.face i (leaves_sub t i hi) f hf).1, hf, (hI.face i (leaves_sub t i hi) f hf).2⟩
  · have hl : hullList [] pos s t.leaves = (arcSites s t).reverse.map pos := by simp [hullList, arcSites, List.map_reverse]
    rw [hl]
    simp only [ends, Prod.mk.injEq] at he
    obtain ⟨h1, h2⟩ := he
    generalize arcSites s t = L at h1 h2
    obtain ⟨L', rfl⟩ : ∃ L', L = e :: L' := by
      cases L with
      | nil => simp at h1
      | cons a L => simp at h1; exact ⟨L, by rw [h1]⟩
    have hH : ((e :: L').reverse.map pos) = L'.reverse.map pos ++ [pos e] := by simp
    have hfirst : ∀ q l, L'.reverse.map pos = q :: l → q = pos e := by
      intro q l hql
      rcases List.eq_nil_or_concat L' with rfl | ⟨M, z, rfl⟩
      · simp at hql
      · simp [List.getLast?_cons] at h2
        simp [h2] at hql
        exact hql.1.symm
    rw [hH]
    refine ⟨pos e, L'.reverse.map pos, ?_⟩
    generalize L'.reverse.map pos = poly at hfirst
    have key : ∀ a l, poly ++ [pos e] = a :: l → (insideLoop v a l = true ↔ LeftOfAll poly v) := by
      intro a l hal
      rw [insideLoop_iff, ← hal]
      exact closed_chain _ poly (pos e) hfirst
    cases hpe : poly ++ [pos e] with
    | nil => simp at hpe
    | cons a l => exact ⟨insideLoop v a l, rfl, hfirst, rfl, key a l hpe⟩

/-- C94: an object that builds a second diagram keeps the hull points of the first one in front, and the vertices are checked against a line that joins the two
lists and goes around both: here the vertex (1, 1) of the second diagram lies inside the hull of the second diagram and is rejected -/
theorem C94_second_build_refuted : insideHull [(0, 0), (3, 0), (0, 3), (0, 0)] (1, 1) = some true ∧
    insideHull ([(10, 10), (13, 10), (10, 13), (10, 10)] ++ [(0, 0), (3, 0), (0, 3), (0, 0)]) (1, 1) = some false := by decide +kernel

/-- a point on an edge of the hull is outside -/
example : insideHull [(0, 0), (3, 0), (0, 3), (0, 0)] (1, 0) = some false := by decide +kernel

/-- the circumcentre of an obtuse triangle is outside, so that the hypotheses of `C93_dangling_refuted` are met by three points with an obtuse angle -/
example : insideHull [(0, 0), (4, 1), (8, 0), (0, 0)] (4, -15 / 2) = some false ∧ insideHull [(0, 0), (8, 0), (4, 1), (0, 0)] (4, -15 / 2) = some false := by decide +kernel

/-! ## C95: areas -/

/-- one term of the second loop of `ComputeFaceArea`, Voronoi.cxx:1326-1337: `p1` is the target, `p2` the target of the twin, i.e. the origin, of a half edge -/
def faceTerm (c p1 p2 : Pt) : ℚ := (p1.1 - c.1) * (p2.2 - c.2) - (p1.2 - c.2) * (p2.1 - c.1)

/-- `ComputeFaceArea` for a closed face, Voronoi.cxx:1287-1355: `vs` are the targets of its half edges in order; the origin of each half edge is the target of the one
before it (C88).  Both loops start from the half edge of the face. -/
def faceArea (vs : List Pt) : ℚ :=
  let c : Pt := ((vs.map Prod.fst).sum / vs.length, (vs.map Prod.snd).sum / vs.length)
  (List.zipWith (faceTerm c) vs (vs.getLast?.toList ++ vs.dropLast)).sum

/-- specification: the area enclosed by a polygon that runs clockwise, by the shoelace formula -/
def clockwiseArea (vs : List Pt) : ℚ := (List.zipWith (fun p1 p2 : Pt => p1.1 * p2.2 - p1.2 * p2.1) vs (vs.getLast?.toList ++ vs.dropLast)).sum / 2

theorem zip_sum (c : Pt) : ∀ (l m : List Pt), l.length = m.length → (List.zipWith (faceTerm c) l m).sum =
    (List.zipWith (fun p1 p2 : Pt => p1.1 * p2.2 - p1.2 * p2.1) l m).sum + c.2 * ((m.map Prod.fst).sum - (l.map Prod.fst).sum) - c.1 * ((m.map Prod.snd).sum - (l.map Prod.snd).sum)
  | [], [], _ => by simp
  | a :: l, b :: m, h => by
    have := zip_sum c l m (by simpa using h)
    simp only [List.zipWith_cons_cons, List.sum_cons, List.map_cons, this, faceTerm]
    ring
  | [], _ :: _, h => by simp at h
  | _ :: _, [], h => by simp at h

/-- C95: the number stored as the area of a closed face is twice the (clockwise) area of the polygon of its vertices, whatever the reference point is -/
theorem C95_face_area_partial (vs : List Pt) : faceArea vs = 2 * clockwiseArea vs := by
  unfold faceArea clockwiseArea
  dsimp only
  rcases List.eq_nil_or_concat vs with rfl | ⟨m, z, rfl⟩
  · simp
  · have hlen : (m.concat z).length = ((m.concat z).getLast?.toList ++ (m.concat z).dropLast).length := by simp
    rw [zip_sum _ _ _ hlen]
    have e1 : ((((m.concat z).getLast?.toList ++ (m.concat z).dropLast).map Prod.fst).sum) = ((m.concat z).map Prod.fst).sum := by simp; ring
    have e2 : ((((m.concat z).getLast?.toList ++ (m.concat z).dropLast).map Prod.snd).sum) = ((m.concat z).map Prod.snd).sum := by simp; ring
    rw [e1, e2]
    ring

/-- C95: a unit square is given the area 2 -/
theorem C95_area_refuted : clockwiseArea [(0, 0), (0, 1), (1, 1), (1, 0)] = 1 ∧ faceArea [(0, 0), (0, 1), (1, 1), (1, 0)] = 2 := by
  refine ⟨by decide +kernel, by decide +kernel⟩

/-- `Area`, Voronoi.cxx:104-124; `none` for `front()` of an empty list -/
def area (pts : List Pt) : Option ℚ :=
  match pts with
  | [] => none
  | p :: _ => some (pts.foldl (fun (acc : ℚ × Pt) q => (if q ≠ acc.2 then acc.1 + (1 / 2) * cross (0, 0) acc.2 q else acc.1, q)) (0, p)).1

/-- C95: the constructor (Voronoi.cxx:60-69) clears the list of points and then calls `Area`, which reads the front of the empty list, every time -/
theorem C95_constructor_refuted : area [] = none := rfl

/-- C95: `Area` leaves out the edge from the last to the first point: it is the area of the polygon only if the list is closed or that edge's triangle with the origin is flat -/
theorem C95_area_open (p : Pt) (l : List Pt) : area (p :: l) = some ((List.zipWith (fun a b : Pt => (1 / 2) * (a.1 * b.2 - a.2 * b.1)) (p :: l) l).sum) := by
  have key : ∀ (l : List Pt) (p : Pt) (x : ℚ), (l.foldl (fun (acc : ℚ × Pt) q => (if q ≠ acc.2 then acc.1 + (1 / 2) * cross (0, 0) acc.2 q else acc.1, q)) (x, p)).1 =
      x + (List.zipWith (fun a b : Pt => (1 / 2) * (a.1 * b.2 - a.2 * b.1)) (p :: l) l).sum := by
    intro l
    induction l with
    | nil => intro p x; simp
    | cons q l ih =>
      intro p x
      rw [List.foldl_cons, ih]
      simp only [List.zipWith_cons_cons, List.sum_cons]
      by_cases h : q = p
      · subst h
        simp
        ring
      · simp only [ne_eq, h, not_false_eq_true, if_true, cross]
        ring
  unfold area
  simp only [List.foldl_cons, ne_eq, not_true_eq_false, if_false]
  rw [key]
  simp

example : area [(0, 0), (1, 0), (1, 1), (0, 1)] = some 1 ∧ area [(1, 1), (2, 1), (2, 2), (1, 2)] = some (1 / 2 + 1 - 0) := by
  refine ⟨by decide +kernel, by decide +kernel⟩

end Verif.Voronoi

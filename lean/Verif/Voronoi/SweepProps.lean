import Mathlib.Data.Finset.Card
import Mathlib.Data.Finset.Range
import Mathlib.Data.Finset.Image
import Mathlib.Data.List.Chain
import Verif.Voronoi.SweepStep
import Verif.Voronoi.BeachProps

/-! C87-C89, C92: the event loop of the Voronoi diagram and the doubly connected edge list it leaves. -/
namespace Verif.Voronoi

/-! ## Specification -/

/-- `arcs` are the remaining arcs of the beach line, each of which has the face of its site -/
structure Frontier (s : Sweep) (arcs : List Nat) : Prop where
  beach : IsBeach s.beach arcs
  face : ∀ i ∈ arcs, ∃ f < s.nf, (s.beach.heap i).face = some f ∧ s.faceEv f = (s.beach.heap i).event

/-- `f` is a face of one of the arcs -/
def OnFrontier (s : Sweep) (arcs : List Nat) (f : Nat) : Prop := ∃ i ∈ arcs, (s.beach.heap i).face = some f

/-- consecutive half edges -/
def Follow (s : Sweep) (l : List Nat) : Prop := l.IsChain (fun a b => (s.he a).next = some b)

/-! ## C87 -/

/-- C87: whatever the coordinates are and whatever event comes first, no round of the loop dereferences a null pointer -/
theorem C87_safe (o : Oracle) (ho : ∀ x, o.same x x = true) {k : Nat} {s : Sweep} (hr : Reach o k s) (e : Nat) (he : e ∈ s.queue) :
    ∃ s', s.step o e = some s' := by
  rcases reach_inv ho hr with ⟨_, rfl⟩ | ⟨t, hI, _⟩
  · obtain ⟨s', _, h, _⟩ := handleSite_first (o := o) e (by simpa [Sweep.start] using he)
    exact ⟨s', h⟩
  · obtain ⟨s', _, h, _⟩ := step_inv ho hI e he
    exact ⟨s', h⟩

theorem Inv.bounds {o : Oracle} {s : Sweep} {t : T} (hI : Inv o s t) : s.nf ≤ o.n ∧ s.nv + 2 ≤ 2 * s.nf := by
  have h1 := hI.sites
  have h2 := hI.arcs
  have h3 : 0 < t.leaves.length := List.length_pos_iff.2 (leaves_ne t)
  omega

/-- C87: the loop ends: there are at most seven rounds for each point -/
theorem C87_ends (o : Oracle) (ho : ∀ x, o.same x x = true) {k : Nat} {s : Sweep} (hr : Reach o k s) : k ≤ 7 * o.n := by
  rcases reach_inv ho hr with ⟨rfl, _⟩ | ⟨t, hI, h, _⟩
  · omega
  · have := hI.bounds
    omega

/-- C87: from every state the loop can be in, it runs to an empty queue -/
theorem C87_completes (o : Oracle) (ho : ∀ x, o.same x x = true) {k : Nat} {s : Sweep} (hr : Reach o k s) :
    ∃ k' s', Reach o k' s' ∧ s'.queue = [] := by
  generalize hm : 7 * o.n - k = m
  induction m generalizing k s with
  | zero =>
    cases hq : s.queue with
    | nil => exact ⟨k, s, hr, hq⟩
    | cons e q =>
      obtain ⟨s', h⟩ := C87_safe o ho hr e (by rw [hq]; simp)
      have := C87_ends o ho (Reach.step e hr (by rw [hq]; simp) h)
      omega
  | succ m ih =>
    cases hq : s.queue with
    | nil => exact ⟨k, s, hr, hq⟩
    | cons e q =>
      obtain ⟨s', h⟩ := C87_safe o ho hr e (by rw [hq]; simp)
      exact ih (Reach.step e hr (by rw [hq]; simp) h) (by omega)

/-- C87: at the end there is exactly one face for each point, the numbers of remaining arcs and of half edges follow from the numbers of
points and vertices, every remaining arc has the face of its site, and no "Face mismatch" has been printed -/
theorem C87_final (o : Oracle) (ho : ∀ x, o.same x x = true) (hn : 0 < o.n) {k : Nat} {s : Sweep} (hr : Reach o k s) (hq : s.queue = []) :
    s.nf = o.n ∧ (∀ x < o.n, ∃! f, f < s.nf ∧ s.faceEv f = x) ∧ s.nhe + 2 = 2 * o.n + 2 * s.nv ∧ s.mismatch = 0 ∧
    ∃ arcs, Frontier s arcs ∧ arcs.length + 1 + s.nv = 2 * o.n := by
  rcases reach_inv ho hr with ⟨_, rfl⟩ | ⟨t, hI, _⟩
  · have : (Sweep.start o.n).queue = List.range o.n := rfl
    rw [this, List.range_eq_nil] at hq
    omega
  · have hnf : s.nf = o.n := by have := hI.sites; rw [hq] at this; simpa using this
    refine ⟨hnf, ?_, by have := hI.edgeN; omega, hI.mismatch, t.leaves, ⟨⟨t, hI.wf, rfl⟩, ?_⟩, by have := hI.arcs; omega⟩
    · intro x hx
      have hinj : Set.InjOn s.faceEv (Finset.range s.nf : Set Nat) := by
        intro f hf g hg h
        exact hI.siteInj f (by simpa using hf) g (by simpa using hg) h
      have hsub : (Finset.range s.nf).image s.faceEv = Finset.range o.n := by
        refine Finset.eq_of_subset_of_card_le ?_ ?_
        · intro y hy
          obtain ⟨f, hf, rfl⟩ := Finset.mem_image.1 hy
          exact Finset.mem_range.2 (hI.site f (by simpa using hf)).1
        · rw [Finset.card_image_of_injOn hinj]; simp [hnf]
      have : x ∈ (Finset.range s.nf).image s.faceEv := by rw [hsub]; simpa using hx
      obtain ⟨f, hf, rfl⟩ := Finset.mem_image.1 this
      exact ⟨f, ⟨by simpa using hf, rfl⟩, fun g hg => hI.siteInj g hg.1 f (by simpa using hf) hg.2⟩
    · intro i hi
      obtain ⟨f, hf⟩ := Option.ne_none_iff_exists'.1 ((hI.arc i (leaves_sub t i hi)).1 hi)
      exact ⟨f, (hI.face i (leaves_sub t i hi) f hf).1, hf, (hI.face i (leaves_sub t i hi) f hf).2⟩

/-! ## C88 -/

/-- C88: at every moment of the loop the edge list is consistent -/
theorem C88_dcel (o : Oracle) (ho : ∀ x, o.same x x = true) {k : Nat} {s : Sweep} (hr : Reach o k s) :
    -- twins
    (∀ h < s.nhe, ∃ g < s.nhe, g ≠ h ∧ (s.he h).twin = some g ∧ (s.he g).twin = some h) ∧
    -- `next` and `last` are inverse
    (∀ h < s.nhe, ∀ g < s.nhe, (s.he h).next = some g ↔ (s.he g).last = some h) ∧
    (∀ h < s.nhe, ∀ g, (s.he h).next = some g ∨ (s.he h).last = some g → g < s.nhe) ∧
    -- consecutive half edges are on the same face and meet in a vertex
    (∀ h < s.nhe, ∀ g, (s.he h).next = some g → (s.he g).face = (s.he h).face ∧
      ∃ v < s.nv, ∃ w, (s.he h).target = some v ∧ (s.he g).twin = some w ∧ (s.he w).target = some v) ∧
    -- every half edge has a face
    (∀ h < s.nhe, ∃ f < s.nf, (s.he h).face = some f) ∧
    -- vertices and faces know one of their half edges
    (∀ v < s.nv, ∃ h < s.nhe, ∃ g, s.vtx v = some h ∧ (s.he h).twin = some g ∧ (s.he g).target = some v) ∧
    (∀ f < s.nf, ∀ h, s.faceHE f = some h → h < s.nhe ∧ (s.he h).face = some f) ∧
    (2 ≤ s.nf → ∀ f < s.nf, s.faceHE f ≠ none) := by
  have key : Edges s := by
    rcases reach_inv ho hr with ⟨_, rfl⟩ | ⟨t, hI, _⟩
    · constructor <;> simp [Sweep.start]
    · exact hI.edges
  refine ⟨?_, ?_, ?_, ?_, key.face, ?_, key.faceHE, key.faceSet⟩
  · intro h hh
    obtain ⟨g, h1, h2, h3, h4⟩ := key.twin h hh
    exact ⟨g, h1, h4, h2, h3⟩
  · intro h hh g hg
    exact ⟨fun hx => (key.next h hh g hx).2.1, fun hx => (key.last g hg h hx).2⟩
  · intro h hh g hg
    rcases hg with hg | hg
    · exact (key.next h hh g hg).1
    · exact (key.last h hh g hg).1
  · intro h hh g hg
    obtain ⟨_, _, h3, v, w, h4, h5, h6⟩ := key.next h hh g hg
    exact ⟨h3, v, key.target h hh v h4, w, h4, h5, h6⟩
  · intro v hv
    obtain ⟨h, g, h1, h2, h3, h4⟩ := key.vtx v hv
    exact ⟨h, h2, g, h1, h3, h4⟩

/-! ## C89 -/

/-- the loop "Count forwards", Voronoi.cxx:217-229: the number of edges and whether the face is closed; the face mismatch message
is dealt with separately, `none` stands for a loop that has not ended after `fuel` rounds -/
def walkNext (s : Sweep) (start : Nat) : Nat → Option Nat → Nat → Option (Nat × Bool)
  | 0, _, _ => none
  | _ + 1, none, n => some (n, false)
  | fuel + 1, some h, n => if h = start then some (n, true) else walkNext s start fuel (s.he h).next (n + 1)

/-- the loop "Count backwards", Voronoi.cxx:232-246 -/
def walkLast (s : Sweep) (start : Nat) : Nat → Option Nat → Nat → Option (Nat × Bool)
  | 0, _, _ => none
  | _ + 1, none, n => some (n, false)
  | fuel + 1, some h, n => if h = start then some (n, true) else walkLast s start fuel (s.he h).last (n + 1)

/-- the edges of a face, Voronoi.cxx:208-246; `none` also stands for a null half edge -/
def countFace (s : Sweep) (f : Nat) : Option (Nat × Bool) :=
  match s.faceHE f with
  | none => none
  | some start =>
    match walkNext s start (s.nhe + 1) (s.he start).next 1 with
    | none => none
    | some (n, true) => some (n, true)
    | some (n, false) => walkLast s start (s.nhe + 1) (s.he start).last n

theorem walkNext_spec {s : Sweep} (hE : Edges s) (f start : Nat) : ∀ (fuel : Nat) (l : List Nat) (x : Nat), l.head? = some start → l.getLast? = some x →
    Follow s l → l.Nodup → (∀ h ∈ l, h < s.nhe ∧ (s.he h).face = some f) → s.nhe < l.length + fuel →
    ∃ l' y c, walkNext s start fuel (s.he x).next l.length = some (l'.length, c) ∧ l'.head? = some start ∧ l'.getLast? = some y ∧ Follow s l' ∧ l'.Nodup ∧
      (∀ h ∈ l', h < s.nhe ∧ (s.he h).face = some f) ∧ (s.he y).next = if c = true then some start else none := by
  intro fuel
  induction fuel with
  | zero =>
    intro l x _ _ _ hnd hb hlen
    exfalso
    have : l.length ≤ s.nhe := by
      have := (List.subperm_of_subset hnd (l₂ := List.range s.nhe) (fun h hh => by simpa using (hb h hh).1)).length_le
      simpa using this
    omega
  | succ fuel ih =>
    intro l x hhd hlast hfol hnd hb hlen
    have hx := hb x (List.mem_of_getLast? hlast)
    cases hnx : (s.he x).next with
    | none => exact ⟨l, x, false, by simp [walkNext], hhd, hlast, hfol, hnd, hb, by simp [hnx]⟩
    | some g =>
      obtain ⟨g1, g2, g3, _⟩ := hE.next x hx.1 g hnx
      by_cases hg : g = start
      · exact ⟨l, x, true, by simp [walkNext, hg], hhd, hlast, hfol, hnd, hb, by simp [hnx, hg]⟩
      · have hnot : g ∉ l := by
          intro hm
          obtain ⟨P, Q, rfl⟩ := List.append_of_mem hm
          rcases List.eq_nil_or_concat P with rfl | ⟨P', z, rfl⟩
          · simp at hhd; exact hg hhd
          · have hz : (s.he z).next = some g := by
              have := List.isChain_append.1 (by simpa [Follow] using hfol : List.IsChain _ ((P' ++ [z]) ++ g :: Q))
              exact this.2.2 z (by simp) g (by simp)
            have hzb := hb z (by simp)
            have h1 := (hE.next z hzb.1 g hz).2.1
            rw [g2] at h1
            simp only [Option.some.injEq] at h1
            subst h1
            -- `x` occurs before `g`, but it is the last element
            have : x ∈ g :: Q := by
              have h2 : ((P'.concat x) ++ g :: Q).getLast? = (g :: Q).getLast? := by
                rw [List.getLast?_append_of_ne_nil]; simp
              rw [h2] at hlast
              exact List.mem_of_getLast? hlast
            rw [List.nodup_append] at hnd
            exact hnd.2.2 x (by simp) x this rfl
        have := ih (l ++ [g]) g (by
            cases l with
            | nil => simp at hhd
            | cons a l => simpa using hhd) (by simp)
          (by
            refine List.isChain_append.2 ⟨hfol, by simp, ?_⟩
            intro a ha b hb'
            rw [hlast] at ha
            simp at ha hb'
            subst ha; subst hb'
            exact hnx)
          (by
            rw [List.nodup_append]
            refine ⟨hnd, by simp, ?_⟩
            intro a ha b hb' hab
            simp at hb'
            exact hnot (by rw [← hb', ← hab]; exact ha))
          (by
            intro h hh
            rcases List.mem_append.1 hh with h' | h'
            · exact hb h h'
            · simp at h'; subst h'; exact ⟨g1, by rw [g3]; exact hx.2⟩)
          (by simp; omega)
        obtain ⟨l', y, c, r1, r2⟩ := this
        refine ⟨l', y, c, ?_, r2⟩
        rw [walkNext, if_neg hg]
        simpa using r1

theorem walkLast_spec {s : Sweep} (hE : Edges s) (f start : Nat) : ∀ (fuel : Nat) (l : List Nat) (x y : Nat), start ∈ l → l.head? = some x → l.getLast? = some y →
    (s.he y).next = none → Follow s l → l.Nodup → (∀ h ∈ l, h < s.nhe ∧ (s.he h).face = some f) → s.nhe < l.length + fuel →
    ∃ l' z, walkLast s start fuel (s.he x).last l.length = some (l'.length, false) ∧ start ∈ l' ∧ l'.head? = some z ∧ (s.he z).last = none ∧ l'.getLast? = some y ∧
      Follow s l' ∧ l'.Nodup ∧ (∀ h ∈ l', h < s.nhe ∧ (s.he h).face = some f) := by
  intro fuel
  induction fuel with
  | zero =>
    intro l x y _ _ _ _ _ hnd hb hlen
    exfalso
    have : l.length ≤ s.nhe := by
      have := (List.subperm_of_subset hnd (l₂ := List.range s.nhe) (fun h hh => by simpa using (hb h hh).1)).length_le
      simpa using this
    omega
  | succ fuel ih =>
    intro l x y hst hhd hlast hy hfol hnd hb hlen
    have hx := hb x (List.mem_of_head? hhd)
    cases hnx : (s.he x).last with
    | none => exact ⟨l, x, by simp [walkLast], hst, hhd, hnx, hlast, hfol, hnd, hb⟩
    | some g =>
      obtain ⟨g1, g2⟩ := hE.last x hx.1 g hnx
      obtain ⟨_, _, g3, _⟩ := hE.next g g1 x g2
      have hnot : g ∉ l := by
        intro hm
        obtain ⟨P, Q, rfl⟩ := List.append_of_mem hm
        cases Q with
        | nil =>
          simp at hlast
          subst hlast
          rw [hy] at g2
          simp at g2
        | cons z Q =>
          have hz : (s.he g).next = some z := by
            have := (List.isChain_append.1 hfol).2.1
            simp only [List.isChain_cons_cons] at this
            exact this.1
          rw [g2] at hz
          simp only [Option.some.injEq] at hz
          subst hz
          cases P with
          | nil => simp at hhd; subst hhd; simp at hnd
          | cons p P => simp at hhd; subst hhd; simp at hnd
      have hgs : g ≠ start := fun h => hnot (h ▸ hst)
      cases l with
      | nil => simp at hhd
      | cons a l =>
        simp at hhd
        subst hhd
        obtain ⟨l', z, r1, r2⟩ := ih (g :: a :: l) g y (by simp [hst]) rfl (by simpa using hlast) hy
          (by
            unfold Follow
            rw [List.isChain_cons_cons]
            exact ⟨g2, hfol⟩) (List.nodup_cons.2 ⟨hnot, hnd⟩)
          (by
            intro h hh
            rcases List.mem_cons.1 hh with rfl | h'
            · exact ⟨g1, by rw [← g3]; exact hx.2⟩
            · exact hb h h')
          (by simp at hlen ⊢; omega)
        refine ⟨l', z, ?_, r2⟩
        rw [walkLast, if_neg hgs]
        exact r1

/-- C89: with at least two points, the walk around a face ends, starts from a half edge of the face, never leaves the face, counts every half
edge of a run exactly once, and reports the face as closed exactly when the run is a cycle; the run is a cycle unless one of the remaining
arcs belongs to the face -/
theorem C89_walk (o : Oracle) (ho : ∀ x, o.same x x = true) {k : Nat} {s : Sweep} (hr : Reach o k s) (hf2 : 2 ≤ s.nf) (f : Nat) (hf : f < s.nf) :
    ∃ (l : List Nat) (x y : Nat) (closed : Bool), countFace s f = some (l.length, closed) ∧ l.head? = some x ∧ l.getLast? = some y ∧ l.Nodup ∧ Follow s l ∧
      (∀ h ∈ l, h < s.nhe ∧ (s.he h).face = some f) ∧ (∃ h ∈ l, s.faceHE f = some h) ∧
      (closed = true → (s.he y).next = some x) ∧ (closed = false → (s.he y).next = none ∧ (s.he x).last = none) ∧
      ∃ arcs, Frontier s arcs ∧ (closed = false → OnFrontier s arcs f) := by
  rcases reach_inv ho hr with ⟨_, rfl⟩ | ⟨t, hI, _⟩
  · simp [Sweep.start] at hf2
  have hE := hI.edges
  obtain ⟨start, hst⟩ := Option.ne_none_iff_exists'.1 (hE.faceSet hf2 f hf)
  obtain ⟨s1, s2⟩ := hE.faceHE f hf start hst
  have hfr : Frontier s t.leaves := by
    refine ⟨⟨t, hI.wf, rfl⟩, ?_⟩
    intro i hi
    obtain ⟨f, hf⟩ := Option.ne_none_iff_exists'.1 ((hI.arc i (leaves_sub t i hi)).1 hi)
    exact ⟨f, (hI.face i (leaves_sub t i hi) f hf).1, hf, (hI.face i (leaves_sub t i hi) f hf).2⟩
  obtain ⟨l, y, c, w1, w2, w3, w4, w5, w6, w7⟩ := walkNext_spec hE f start (s.nhe + 1) [start] start rfl rfl (by simp [Follow]) (by simp)
    (by simp [s1, s2]) (by simp; omega)
  have hml : start ∈ l := List.mem_of_head? w2
  unfold countFace
  simp only [hst]
  rw [List.length_singleton] at w1
  rw [w1]
  cases c with
  | true =>
    exact ⟨l, start, y, true, rfl, w2, w3, w5, w4, w6, ⟨start, hml, rfl⟩, fun _ => by simpa using w7, by simp, t.leaves, hfr, by simp⟩
  | false =>
    simp only [Bool.false_eq_true, if_false] at w7
    obtain ⟨l', z, v1, v2, v3, v4, v5, v6, v7, v8⟩ := walkLast_spec hE f start (s.nhe + 1) l start y hml w2 w3 w7 w4 w5 w6 (by
      have := List.length_pos_of_mem hml; omega)
    refine ⟨l', z, y, false, v1, v3, v5, v7, v6, v8, ⟨start, v2, rfl⟩, by simp, fun _ => ⟨w7, v4⟩, t.leaves, hfr, fun _ => ?_⟩
    have hy := v8 y (List.mem_of_getLast? v5)
    obtain ⟨b, b1, g, b2, b3, b4⟩ := hI.openN y hy.1 w7
    obtain ⟨a, k', ⟨_, _, _, h', g', q1, q2, q3, q4, q5, q6, q7, _⟩, m1, m2, _⟩ := hI.brk b1 b2
    rw [b3] at q1
    simp only [Option.some.injEq] at q1
    subst q1
    obtain ⟨g2, _, j1, j2, _⟩ := hE.twin y hy.1
    rw [b4] at j1
    simp only [Option.some.injEq] at j1
    subst j1
    rw [j2] at q4
    simp only [Option.some.injEq] at q4
    subst q4
    exact ⟨k', m2, by rw [← q7]; exact hy.2⟩

/-! ## Examples -/

/-- the rounds of the loop in a given order of events -/
def runs (o : Oracle) : List Nat → Sweep → Option Sweep
  | [], s => some s
  | e :: es, s => if e ∈ s.queue then (s.step o e).bind (runs o es) else none

theorem runs_reach {o : Oracle} : ∀ (es : List Nat) {k : Nat} {s s' : Sweep}, Reach o k s → runs o es s = some s' → Reach o (k + es.length) s'
  | [], _, _, _, hr, h => by simp only [runs, Option.some.injEq] at h; subst h; exact hr
  | e :: es, k, s, s', hr, h => by
    unfold runs at h
    by_cases he : e ∈ s.queue
    · rw [if_pos he] at h
      cases hs : s.step o e with
      | none => rw [hs] at h; simp at h
      | some s1 =>
        rw [hs] at h
        have := runs_reach es (Reach.step e hr he hs) h
        rw [List.length_cons, show k + (es.length + 1) = k + 1 + es.length by omega]
        exact this
    · rw [if_neg he] at h; simp at h

/-- four sites; a new site splits an arc at the right end, later ones further to the left, and every new triple of arcs makes a circle event until the sixth round -/
def exOracle : Oracle where
  n := 4
  toLeft e _ r := if e = 2 then decide (r = 1) else decide (r = 0)
  same x y := decide (x = y)
  circle e _ _ _ := decide (e ≤ 5)

def exEnd : Option Sweep := runs exOracle [0, 1, 2, 3, 4, 5, 8, 6, 7, 9] (Sweep.start 4)

/-- a run of ten rounds, six of them circle events, of which three are still valid when their turn comes -/
example : exEnd.map (fun s => (s.queue, s.nf, s.nv, s.nhe, s.mismatch)) = some ([], 4, 3, 12, 0) := by decide +kernel

/-- in this run the second face is closed with three edges, the others are open -/
example : exEnd.map (fun s => [countFace s 0, countFace s 1, countFace s 2, countFace s 3]) =
    some [some (3, false), some (3, true), some (3, false), some (3, false)] := by decide +kernel

/-- the hypotheses of C87, C88 and C89 are met by this run -/
example : ∃ s, Reach exOracle 10 s ∧ (∀ x, exOracle.same x x = true) ∧ s.queue = [] ∧ 2 ≤ s.nf ∧ 0 < s.nv := by
  have h : exEnd.isSome = true := by decide +kernel
  obtain ⟨s, hs⟩ := Option.isSome_iff_exists.1 h
  have hr : Reach exOracle (0 + 10) s := runs_reach _ Reach.start hs
  have e1 : exEnd.map (fun s => (s.queue, s.nf, s.nv)) = some ([], 4, 3) := by decide +kernel
  rw [hs] at e1
  simp only [Option.map_some, Option.some.injEq, Prod.mk.injEq] at e1
  exact ⟨s, by simpa using hr, fun x => by simp [exOracle], e1.1, by omega, by omega⟩

/-- and so are those of a state in the middle, with circle events waiting -/
example : ∃ s e, Reach exOracle 5 s ∧ e ∈ s.queue ∧ exOracle.n ≤ e ∧ s.beach.valid e = true := by
  have h : (runs exOracle [0, 1, 2, 3, 4] (Sweep.start 4)).isSome = true := by decide +kernel
  obtain ⟨s, hs⟩ := Option.isSome_iff_exists.1 h
  have e1 : (runs exOracle [0, 1, 2, 3, 4] (Sweep.start 4)).map (fun s => (s.queue, s.beach.valid 5)) = some ([8, 7, 6, 5], true) := by decide +kernel
  rw [hs] at e1
  simp only [Option.map_some, Option.some.injEq, Prod.mk.injEq] at e1
  exact ⟨s, 5, by simpa using runs_reach _ Reach.start hs, by rw [e1.1]; simp, by decide, e1.2⟩

/-! ## C92: small inputs -/

/-- C92: with a single point the face has no half edge, and counting its edges dereferences a null pointer, Voronoi.cxx:211-214 -/
theorem C92_single (o : Oracle) (ho : ∀ x, o.same x x = true) (hn : o.n = 1) {k : Nat} {s : Sweep} (hr : Reach o k s) (hq : s.queue = []) :
    s.nf = 1 ∧ s.faceHE 0 = none ∧ countFace s 0 = none := by
  obtain ⟨h1, _, h3, _, _⟩ := C87_final o ho (by omega) hr hq
  rcases reach_inv ho hr with ⟨_, rfl⟩ | ⟨t, hI, _⟩
  · simp [Sweep.start, hn] at h1
  · have := hI.bounds
    have hnone : s.faceHE 0 = none := by
      cases hf : s.faceHE 0 with
      | none => rfl
      | some h => have := (hI.edges.faceHE 0 (by omega) h hf).1; omega
    exact ⟨by omega, hnone, by simp [countFace, hnone]⟩

/-- `findBoundingBox`, Voronoi.cxx:1404-1432: the smallest and the largest coordinate; `none` for an end iterator that is dereferenced -/
def boundingBox (l : List (ℚ × ℚ)) : Option ((ℚ × ℚ) × (ℚ × ℚ)) :=
  match l with
  | [] => none
  | v :: l => some ((l.foldl (fun m p => min m p.1) v.1, l.foldl (fun m p => max m p.1) v.1), (l.foldl (fun m p => min m p.2) v.2, l.foldl (fun m p => max m p.2) v.2))

/-- the bounding box of at least one vertex contains every vertex -/
theorem C92_box_partial (l : List (ℚ × ℚ)) (h : l ≠ []) : ∃ x0 x1 y0 y1, boundingBox l = some ((x0, x1), (y0, y1)) ∧
    ∀ p ∈ l, x0 ≤ p.1 ∧ p.1 ≤ x1 ∧ y0 ≤ p.2 ∧ p.2 ≤ y1 := by
  cases l with
  | nil => exact absurd rfl h
  | cons v l =>
    have hmin : ∀ (g : ℚ × ℚ → ℚ) (l : List (ℚ × ℚ)) (m : ℚ), l.foldl (fun m p => min m (g p)) m ≤ m ∧ ∀ p ∈ l, l.foldl (fun m p => min m (g p)) m ≤ g p := by
      intro g l
      induction l with
      | nil => simp
      | cons a l ih =>
        intro m
        rw [List.foldl_cons]
        obtain ⟨i1, i2⟩ := ih (min m (g a))
        refine ⟨le_trans i1 (min_le_left _ _), fun p hp => ?_⟩
        rcases List.mem_cons.1 hp with rfl | hp
        · exact le_trans i1 (min_le_right _ _)
        · exact i2 p hp
    have hmax : ∀ (g : ℚ × ℚ → ℚ) (l : List (ℚ × ℚ)) (m : ℚ), m ≤ l.foldl (fun m p => max m (g p)) m ∧ ∀ p ∈ l, g p ≤ l.foldl (fun m p => max m (g p)) m := by
      intro g l
      induction l with
      | nil => simp
      | cons a l ih =>
        intro m
        rw [List.foldl_cons]
        obtain ⟨i1, i2⟩ := ih (max m (g a))
        refine ⟨le_trans (le_max_left _ _) i1, fun p hp => ?_⟩
        rcases List.mem_cons.1 hp with rfl | hp
        · exact le_trans (le_max_right _ _) i1
        · exact i2 p hp
    refine ⟨_, _, _, _, rfl, fun p hp => ?_⟩
    rcases List.mem_cons.1 hp with rfl | hp
    · exact ⟨(hmin _ l _).1, (hmax _ l _).1, (hmin _ l _).1, (hmax _ l _).1⟩
    · exact ⟨(hmin _ l _).2 p hp, (hmax _ l _).2 p hp, (hmin _ l _).2 p hp, (hmax _ l _).2 p hp⟩

/-- C92: two points never make a vertex, so that the bounding box dereferences the end iterator -/
theorem C92_two (o : Oracle) (hn : o.n = 2) {k : Nat} {s : Sweep} (hr : Reach o k s) (pos : Nat → ℚ × ℚ) :
    s.nv = 0 ∧ boundingBox ((List.range s.nv).map pos) = none := by
  suffices h : s.nv = 0 by simp [h, boundingBox]
  have key : (s.queue = [0, 1] ∧ s = Sweep.start 2) ∨ (∃ e, e < 2 ∧ (Sweep.start 2).step o e = some s) ∨ (s.nv = 0 ∧ s.queue = []) := by
    induction hr with
    | start => left; rw [hn]; exact ⟨rfl, rfl⟩
    | step e hr he hs ih =>
      right
      rcases ih with ⟨h1, rfl⟩ | ⟨e0, h1, h2⟩ | ⟨_, h2⟩
      · left
        rw [h1] at he
        exact ⟨e, by simp at he; omega, hs⟩
      · right
        obtain ⟨n, tl, sm, ci⟩ := o
        simp only at hn
        subst hn
        have : e0 = 0 ∨ e0 = 1 := by omega
        rcases this with rfl | rfl
        · cases h2
          have he : e ∈ [1] := he
          have : e = 1 := by simpa using he
          subst this
          cases hs
          exact ⟨rfl, rfl⟩
        · cases h2
          have he : e ∈ [0] := he
          have : e = 0 := by simpa using he
          subst this
          cases hs
          exact ⟨rfl, rfl⟩
      · rw [h2] at he; simp at he
  rcases key with ⟨_, rfl⟩ | ⟨e, he, h⟩ | ⟨h, _⟩
  · rfl
  · have : e = 0 ∨ e = 1 := by omega
    obtain ⟨n, tl, sm, ci⟩ := o
    simp only at hn
    subst hn
    rcases this with rfl | rfl <;> · cases h; rfl
  · exact h

end Verif.Voronoi

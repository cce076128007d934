import Mathlib.Logic.Relation
import Mathlib.Data.List.Nodup
import Mathlib.Data.List.Chain

/-!
Model of the density based clustering with a queue, as it is in `larreco/RecoAlg/Cluster3DAlgs/DBScanAlg_tool.cc` (three dimensional hits) and in
`run_FN_cluster` and `run_FN_naive_cluster` of `larreco/RecoAlg/DBScanAlg.cxx`, and C102.

A hit is a number; the neighbourhood search is an arbitrary function (`FindNearestNeighbors`, `RegionQuery_vector`, `findNeighbors`).  Not modelled: timing, messages, `BuildClusterInfo` (see C104).
-/
namespace Verif.DBQueue

/-- the status bits CLUSTERVISITED, CLUSTERATTACHED and CLUSTERNOISE of the hits (in DBScanAlg.cxx: `fvisited`, whether `fpointId_to_clusterId` is not `kNO_CLUSTER`, `fnoise`), the complete clusters and the current one -/
structure DState where
  visited : Nat → Bool := fun _ => false
  attached : Nat → Bool := fun _ => false
  noise : Nat → Bool := fun _ => false
  done : List (List Nat) := []
  cur : List Nat := []

def set (f : Nat → Bool) (h : Nat) : Nat → Bool := fun x => f x || x == h

section
variable (nb : Nat → List Nat) (minPts : Nat)

/-- first part of a round, DBScanAlg_tool.cc:285-302, DBScanAlg.cxx:681-696 and 755-770: the hit is marked and its neighbours queued -/
def visit (s : DState) (h : Nat) (t : List Nat) : DState × List Nat :=
  if s.visited h = true then (s, t)
  else ({ s with visited := set s.visited h }, if (nb h).length ≥ minPts then t ++ nb h else t)

/-- second part of a round, DBScanAlg_tool.cc:304-308, DBScanAlg.cxx:698-702 and 772-776 -/
def attach (s : DState) (h : Nat) : DState :=
  if s.attached h = true then s else { s with attached := set s.attached h, cur := s.cur ++ [h] }

/-- `expandCluster`, DBScanAlg_tool.cc:270-313, and the loops DBScanAlg.cxx:677-703, 751-777; the list is what is still in the queue -/
def expand : Nat → List Nat → DState → Option DState
  | _, [], s => some s
  | 0, _ :: _, _ => none
  | fuel + 1, h :: t, s =>
    let r := visit nb minPts s h t
    expand fuel r.2 (attach r.1 h)

/-- the loop over the hits, DBScanAlg_tool.cc:142-171 and 219-248, DBScanAlg.cxx:656-709 and 730-783 -/
def scan (fuel : Nat) : List Nat → DState → Option DState
  | [], s => some s
  | h :: hs, s =>
    if s.visited h = true then scan fuel hs s
    else if (nb h).length < minPts then scan fuel hs { s with visited := set s.visited h, noise := set s.noise h }
    else
      match expand nb minPts fuel (nb h) { s with visited := set s.visited h, attached := set s.attached h, cur := [h] } with
      | none => none
      | some s => scan fuel hs { s with done := s.done ++ [s.cur], cur := [] }

/-- the whole of `Cluster3DHits`, DBScanAlg_tool.cc:119-192, or of `run_FN_cluster`, DBScanAlg.cxx:651-724, on hits without status bits; at most one step for each entry of the neighbour lists in each expansion -/
def dbscan (hits : List Nat) : Option DState := scan nb minPts (hits.map (fun h => (nb h).length)).sum hits {}

end

/-! ## Specification -/

/-- a core hit has at least `k` neighbours -/
def Core (nb : Nat → List Nat) (k : Nat) (x : Nat) : Prop := k ≤ (nb x).length

/-- from a core hit of the set to one of its neighbours in the set -/
def Step (nb : Nat → List Nat) (k : Nat) (c : List Nat) (a b : Nat) : Prop := Core nb k a ∧ b ∈ nb a ∧ b ∈ c

/-- a chain of core hits -/
def Linked (nb : Nat → List Nat) (k : Nat) : Nat → Nat → Prop := Relation.ReflTransGen (fun a b => Core nb k a ∧ Core nb k b ∧ b ∈ nb a)

/-! ## Invariants -/

variable {nb : Nat → List Nat} {k : Nat}

theorem set_iff {f : Nat → Bool} {h x : Nat} : set f h x = true ↔ f x = true ∨ x = h := by simp [set]

structure Base (nb : Nat → List Nat) (k : Nat) (hits : List Nat) (s : DState) : Prop where
  att : ∀ x, s.attached x = true ↔ x ∈ s.done.flatten ∨ x ∈ s.cur
  nodup : (s.done.flatten ++ s.cur).Nodup
  vis : ∀ x, s.attached x = true → s.visited x = true
  left : ∀ x, s.visited x = true → s.attached x = true ∨ s.noise x = true
  noise : ∀ x, s.noise x = true → ¬ Core nb k x ∧ s.visited x = true
  mem : ∀ x, s.attached x = true → x ∈ hits
  closed : ∀ p c q, s.done = p ++ c :: q → ∀ x ∈ c, Core nb k x → ∀ b ∈ nb x, b ∈ p.flatten ∨ b ∈ c
  seeds : ∀ c ∈ s.done, ∃ h t, c = h :: t ∧ Core nb k h ∧ ∀ x ∈ c, Relation.ReflTransGen (Step nb k c) h x

structure Grow (nb : Nat → List Nat) (k : Nat) (hits : List Nat) (queue : List Nat) (s : DState) : Prop where
  base : Base nb k hits s
  seed : ∃ h t, s.cur = h :: t ∧ Core nb k h ∧ ∀ x ∈ s.cur, Relation.ReflTransGen (Step nb k s.cur) h x
  pend : ∀ x ∈ queue, ∃ y ∈ s.cur, Core nb k y ∧ x ∈ nb y
  open_ : ∀ x ∈ s.cur, Core nb k x → ∀ b ∈ nb x, b ∈ s.done.flatten ∨ b ∈ s.cur ∨ b ∈ queue

theorem step_mono {c c' : List Nat} (h : ∀ x ∈ c, x ∈ c') {a b : Nat} (hr : Relation.ReflTransGen (Step nb k c) a b) : Relation.ReflTransGen (Step nb k c') a b := by
  induction hr with
  | refl => exact .refl
  | tail _ hbc ih => exact .tail ih ⟨hbc.1, hbc.2.1, h _ hbc.2.2⟩

/-- what is still to be queued -/
def rest (nb : Nat → List Nat) (hits : List Nat) (visited : Nat → Bool) : Nat := (hits.map (fun x => if visited x = true then 0 else (nb x).length)).sum

theorem rest_le (hits : List Nat) (f : Nat → Bool) : rest nb hits f ≤ (hits.map (fun h => (nb h).length)).sum := by
  unfold rest
  induction hits with
  | nil => simp
  | cons a l ih => simp only [List.map_cons, List.sum_cons]; split <;> omega

theorem rest_mono (hits : List Nat) {f g : Nat → Bool} (h : ∀ x, f x = true → g x = true) : rest nb hits g ≤ rest nb hits f := by
  unfold rest
  induction hits with
  | nil => simp
  | cons a l ih =>
    simp only [List.map_cons, List.sum_cons]
    by_cases hf : f a = true
    · rw [if_pos hf, if_pos (h a hf)]; omega
    · rw [if_neg hf]; split <;> omega

theorem rest_set {hits : List Nat} {f : Nat → Bool} {h : Nat} (hm : h ∈ hits) (hf : f h = false) : rest nb hits (set f h) + (nb h).length ≤ rest nb hits f := by
  induction hits with
  | nil => simp at hm
  | cons a l ih =>
    by_cases ha : h = a
    · subst ha
      have := rest_mono (nb := nb) l (f := f) (g := set f h) (fun x hx => set_iff.2 (Or.inl hx))
      unfold rest at this ⊢
      simp only [List.map_cons, List.sum_cons]
      rw [if_pos (set_iff.2 (Or.inr rfl)), hf]
      simp only [Bool.false_eq_true, if_false]
      omega
    · have := ih (by simpa [ha] using hm)
      unfold rest at this ⊢
      simp only [List.map_cons, List.sum_cons]
      by_cases hfa : f a = true
      · rw [if_pos hfa, if_pos (set_iff.2 (Or.inl hfa))]; omega
      · have : ¬ set f h a = true := by rw [set_iff]; push Not; exact ⟨hfa, fun h' => ha h'.symm⟩
        rw [if_neg hfa, if_neg this]; omega

theorem round_grow {hits : List Nat} (hn : ∀ a ∈ hits, ∀ b ∈ nb a, b ∈ hits) {h : Nat} {t : List Nat} {s : DState} (hg : Grow nb k hits (h :: t) s) :
    Grow nb k hits (visit nb k s h t).2 (attach (visit nb k s h t).1 h) ∧
    (visit nb k s h t).2.length + rest nb hits (attach (visit nb k s h t).1 h).visited < (h :: t).length + rest nb hits s.visited := by
  obtain ⟨hb, ⟨s0, st, hcur, hcore, hreach⟩, hpend, hopen⟩ := hg
  obtain ⟨y, hy, hyc, hyn⟩ := hpend h (by simp)
  have hmemh : h ∈ hits := hn y (hb.mem y ((hb.att y).2 (Or.inr hy))) h hyn
  -- the state after the first part
  have hv : ∃ s1 q1, visit nb k s h t = (s1, q1) ∧ s1.attached = s.attached ∧ s1.noise = s.noise ∧ s1.done = s.done ∧ s1.cur = s.cur ∧
      (∀ x, s1.visited x = true ↔ s.visited x = true ∨ x = h) ∧ (∀ x ∈ t, x ∈ q1) ∧ (∀ x ∈ q1, x ∈ t ∨ (Core nb k h ∧ x ∈ nb h ∧ s.visited h = false)) ∧
      (s.visited h = false → Core nb k h → ∀ x ∈ nb h, x ∈ q1) ∧ q1.length + rest nb hits s1.visited < (h :: t).length + rest nb hits s.visited := by
    unfold visit
    by_cases hvis : s.visited h = true
    · rw [if_pos hvis]
      refine ⟨s, t, rfl, rfl, rfl, rfl, rfl, ?_, fun x hx => hx, fun x hx => Or.inl hx, ?_, by simp⟩
      · intro x; constructor
        · exact Or.inl
        · rintro (h1 | rfl)
          · exact h1
          · exact hvis
      · intro h1; simp [hvis] at h1
    · have hvis' : s.visited h = false := by simpa using hvis
      rw [if_neg hvis]
      have hr := rest_set (nb := nb) hmemh hvis'
      by_cases hc : (nb h).length ≥ k
      · rw [if_pos hc]
        refine ⟨_, _, rfl, rfl, rfl, rfl, rfl, fun x => set_iff, fun x hx => List.mem_append_left _ hx, ?_, fun _ _ x hx => List.mem_append_right _ hx, ?_⟩
        · intro x hx
          rcases List.mem_append.1 hx with hx | hx
          · exact Or.inl hx
          · exact Or.inr ⟨hc, hx, hvis'⟩
        · simp; omega
      · rw [if_neg hc]
        refine ⟨_, _, rfl, rfl, rfl, rfl, rfl, fun x => set_iff, fun x hx => hx, fun x hx => Or.inl hx, fun _ h1 => absurd h1 hc, ?_⟩
        simp; omega
  obtain ⟨s1, q1, hveq, e1, e2, e3, e4, hvis, hq1, hq2, hq3, hlen⟩ := hv
  rw [hveq]
  simp only
  by_cases hatt : s.attached h = true
  · -- already in a cluster
    have ha : attach s1 h = s1 := by unfold attach; rw [if_pos (by rw [e1]; exact hatt)]
    rw [ha]
    refine ⟨⟨?_, ?_, ?_, ?_⟩, hlen⟩
    · constructor
      · intro x; rw [e1, e3, e4]; exact hb.att x
      · rw [e3, e4]; exact hb.nodup
      · intro x hx; rw [e1] at hx; exact (hvis x).2 (Or.inl (hb.vis x hx))
      · intro x hx
        rw [e1, e2]
        rcases (hvis x).1 hx with h1 | rfl
        · exact hb.left x h1
        · exact Or.inl hatt
      · intro x hx; rw [e2] at hx; exact ⟨(hb.noise x hx).1, (hvis x).2 (Or.inl (hb.noise x hx).2)⟩
      · intro x hx; rw [e1] at hx; exact hb.mem x hx
      · rw [e3]; exact hb.closed
      · rw [e3]; exact hb.seeds
    · rw [e4]; exact ⟨s0, st, hcur, hcore, hreach⟩
    · intro x hx
      rw [e4]
      rcases hq2 x hx with h1 | ⟨h1, h2, h3⟩
      · exact hpend x (List.mem_cons_of_mem _ h1)
      · exact absurd (hb.vis h hatt) (by simp [h3])
    · rw [e3, e4]
      intro x hx hc b hbx
      rcases hopen x hx hc b hbx with h1 | h1 | h1
      · exact Or.inl h1
      · exact Or.inr (Or.inl h1)
      · rcases List.mem_cons.1 h1 with rfl | h1
        · rcases (hb.att b).1 hatt with h2 | h2
          · exact Or.inl h2
          · exact Or.inr (Or.inl h2)
        · exact Or.inr (Or.inr (hq1 b h1))
  · -- a new hit of the cluster
    have hatt' : s.attached h = false := by simpa using hatt
    have ha : attach s1 h = { s1 with attached := set s1.attached h, cur := s1.cur ++ [h] } := by
      unfold attach; rw [if_neg (by rw [e1, hatt']; simp)]
    rw [ha]
    have hnot : h ∉ s.done.flatten ++ s.cur := by
      intro hh; exact hatt ((hb.att h).2 (List.mem_append.1 hh))
    refine ⟨⟨?_, ?_, ?_, ?_⟩, hlen⟩
    · constructor
      · intro x
        show set s1.attached h x = true ↔ x ∈ s1.done.flatten ∨ x ∈ s1.cur ++ [h]
        rw [set_iff, e1, e3, e4, hb.att x, List.mem_append, List.mem_singleton]; tauto
      · show (s1.done.flatten ++ (s1.cur ++ [h])).Nodup
        rw [e3, e4, ← List.append_assoc, List.nodup_append]
        exact ⟨hb.nodup, by simp, by intro a ha' b hb'; simp at hb'; subst hb'; exact fun hh => hnot (hh ▸ ha')⟩
      · intro x hx
        have hx' : set s1.attached h x = true := hx
        rw [set_iff, e1] at hx'
        rcases hx' with h1 | rfl
        · exact (hvis x).2 (Or.inl (hb.vis x h1))
        · exact (hvis x).2 (Or.inr rfl)
      · intro x hx
        show set s1.attached h x = true ∨ s1.noise x = true
        rw [set_iff, e1, e2]
        rcases (hvis x).1 hx with h1 | rfl
        · rcases hb.left x h1 with h2 | h2
          · exact Or.inl (Or.inl h2)
          · exact Or.inr h2
        · exact Or.inl (Or.inr rfl)
      · intro x hx
        have hx' : s1.noise x = true := hx
        rw [e2] at hx'; exact ⟨(hb.noise x hx').1, (hvis x).2 (Or.inl (hb.noise x hx').2)⟩
      · intro x hx
        have hx' : set s1.attached h x = true := hx
        rw [set_iff, e1] at hx'
        rcases hx' with h1 | rfl
        · exact hb.mem x h1
        · exact hmemh
      · show ∀ p c q, s1.done = p ++ c :: q → _
        rw [e3]; exact hb.closed
      · show ∀ c ∈ s1.done, _
        rw [e3]; exact hb.seeds
    · refine ⟨s0, st ++ [h], ?_, hcore, ?_⟩
      · show s1.cur ++ [h] = _
        rw [e4, hcur]; rfl
      · show ∀ x ∈ s1.cur ++ [h], Relation.ReflTransGen (Step nb k (s1.cur ++ [h])) s0 x
        rw [e4]
        have hm : ∀ x ∈ s.cur, x ∈ s.cur ++ [h] := fun x hx => List.mem_append_left _ hx
        intro x hx
        rcases List.mem_append.1 hx with hx | hx
        · exact step_mono hm (hreach x hx)
        · rw [List.mem_singleton.1 hx]
          exact .tail (step_mono hm (hreach y hy)) ⟨hyc, hyn, by simp⟩
    · intro x hx
      show ∃ y ∈ s1.cur ++ [h], _
      rw [e4]
      rcases hq2 x hx with h1 | ⟨h1, h2, h3⟩
      · obtain ⟨z, hz1, hz2⟩ := hpend x (List.mem_cons_of_mem _ h1)
        exact ⟨z, List.mem_append_left _ hz1, hz2⟩
      · exact ⟨h, by simp, h1, h2⟩
    · show ∀ x ∈ s1.cur ++ [h], Core nb k x → ∀ b ∈ nb x, b ∈ s1.done.flatten ∨ b ∈ s1.cur ++ [h] ∨ b ∈ q1
      rw [e3, e4]
      intro x hx hc b hbx
      rcases List.mem_append.1 hx with hx | hx
      · rcases hopen x hx hc b hbx with h1 | h1 | h1
        · exact Or.inl h1
        · exact Or.inr (Or.inl (List.mem_append_left _ h1))
        · rcases List.mem_cons.1 h1 with rfl | h1
          · exact Or.inr (Or.inl (by simp))
          · exact Or.inr (Or.inr (hq1 b h1))
      · rw [List.mem_singleton.1 hx] at hc hbx
        by_cases hvh : s.visited h = true
        · rcases hb.left h hvh with h2 | h2
          · exact absurd h2 hatt
          · exact absurd hc (hb.noise h h2).1
        · exact Or.inr (Or.inr (hq3 (by simpa using hvh) hc b hbx))

theorem visited_round {s : DState} {h : Nat} {t : List Nat} {x : Nat} (hx : s.visited x = true) : (attach (visit nb k s h t).1 h).visited x = true := by
  have h1 : (visit nb k s h t).1.visited x = true := by
    unfold visit; split
    · exact hx
    · exact set_iff.2 (Or.inl hx)
  unfold attach; split <;> exact h1

theorem done_round {s : DState} {h : Nat} {t : List Nat} : (attach (visit nb k s h t).1 h).done = s.done := by
  have h1 : (visit nb k s h t).1.done = s.done := by
    unfold visit; split <;> rfl
  unfold attach; split <;> exact h1

theorem expand_grow {hits : List Nat} (hn : ∀ a ∈ hits, ∀ b ∈ nb a, b ∈ hits) : ∀ fuel queue s, Grow nb k hits queue s → queue.length + rest nb hits s.visited ≤ fuel →
    ∃ s', expand nb k fuel queue s = some s' ∧ Grow nb k hits [] s' ∧ s'.done = s.done ∧ ∀ x, s.visited x = true → s'.visited x = true := by
  intro fuel
  induction fuel with
  | zero =>
    intro queue s hg hf
    cases queue with
    | nil => exact ⟨s, rfl, hg, rfl, fun _ h => h⟩
    | cons h t => simp at hf
  | succ fuel ih =>
    intro queue s hg hf
    cases queue with
    | nil => exact ⟨s, rfl, hg, rfl, fun _ h => h⟩
    | cons h t =>
      obtain ⟨g1, g2⟩ := round_grow hn hg
      obtain ⟨s', h1, h2, h3, h4⟩ := ih _ _ g1 (by omega)
      refine ⟨s', ?_, h2, by rw [h3, done_round], fun x hx => h4 x (visited_round hx)⟩
      rw [expand]; exact h1

theorem scan_base {hits : List Nat} (hn : ∀ a ∈ hits, ∀ b ∈ nb a, b ∈ hits) : ∀ hs s, (∀ h ∈ hs, h ∈ hits) → Base nb k hits s → s.cur = [] →
    ∃ s', scan nb k (hits.map (fun h => (nb h).length)).sum hs s = some s' ∧ Base nb k hits s' ∧ s'.cur = [] ∧ (∀ h ∈ hs, s'.visited h = true) ∧ (∀ x, s.visited x = true → s'.visited x = true) ∧ ∃ new, s'.done = s.done ++ new := by
  intro hs
  induction hs with
  | nil => intro s _ hb hc; exact ⟨s, rfl, hb, hc, by simp, fun _ h => h, [], by simp⟩
  | cons h hs ih =>
    intro s hm hb hc
    have hmem := hm h (by simp)
    have hm' : ∀ x ∈ hs, x ∈ hits := fun x hx => hm x (List.mem_cons_of_mem _ hx)
    rw [scan]
    by_cases hv : s.visited h = true
    · rw [if_pos hv]
      obtain ⟨s', h1, h2, h3, h4, h5, h6⟩ := ih s hm' hb hc
      refine ⟨s', h1, h2, h3, ?_, h5, h6⟩
      intro x hx
      rcases List.mem_cons.1 hx with rfl | hx
      · exact h5 _ hv
      · exact h4 x hx
    · rw [if_neg hv]
      have hna : s.attached h ≠ true := fun h1 => hv (hb.vis h h1)
      by_cases hcore : (nb h).length < k
      · rw [if_pos hcore]
        obtain ⟨s', h1, h2, h3, h4, h5, h6⟩ := ih { s with visited := set s.visited h, noise := set s.noise h } hm' (by
          constructor
          · exact hb.att
          · exact hb.nodup
          · intro x hx; exact set_iff.2 (Or.inl (hb.vis x hx))
          · intro x hx
            rcases set_iff.1 hx with h1 | rfl
            · rcases hb.left x h1 with h2 | h2
              · exact Or.inl h2
              · exact Or.inr (set_iff.2 (Or.inl h2))
            · exact Or.inr (set_iff.2 (Or.inr rfl))
          · intro x hx
            rcases set_iff.1 hx with h1 | rfl
            · exact ⟨(hb.noise x h1).1, set_iff.2 (Or.inl (hb.noise x h1).2)⟩
            · exact ⟨by unfold Core; omega, set_iff.2 (Or.inr rfl)⟩
          · exact hb.mem
          · exact hb.closed
          · exact hb.seeds) hc
        refine ⟨s', h1, h2, h3, ?_, fun x hx => h5 x (set_iff.2 (Or.inl hx)), h6⟩
        intro x hx
        rcases List.mem_cons.1 hx with rfl | hx
        · exact h5 _ (set_iff.2 (Or.inr rfl))
        · exact h4 x hx
      · rw [if_neg hcore]
        have hcore' : Core nb k h := by unfold Core; omega
        have hvf : s.visited h = false := by simpa using hv
        have hg : Grow nb k hits (nb h) { s with visited := set s.visited h, attached := set s.attached h, cur := [h] } := by
          refine ⟨?_, ⟨h, [], rfl, hcore', ?_⟩, ?_, ?_⟩
          · constructor
            · intro x
              show set s.attached h x = true ↔ x ∈ s.done.flatten ∨ x ∈ [h]
              rw [set_iff, hb.att x, hc]; simp
            · show (s.done.flatten ++ [h]).Nodup
              have := hb.nodup
              rw [hc, List.append_nil] at this
              rw [List.nodup_append]
              refine ⟨this, by simp, ?_⟩
              intro a ha b hb'
              simp at hb'; subst hb'
              rintro rfl
              exact hna ((hb.att a).2 (Or.inl ha))
            · intro x hx
              rcases set_iff.1 hx with h1 | rfl
              · exact set_iff.2 (Or.inl (hb.vis x h1))
              · exact set_iff.2 (Or.inr rfl)
            · intro x hx
              rcases set_iff.1 hx with h1 | rfl
              · rcases hb.left x h1 with h2 | h2
                · exact Or.inl (set_iff.2 (Or.inl h2))
                · exact Or.inr h2
              · exact Or.inl (set_iff.2 (Or.inr rfl))
            · intro x hx; exact ⟨(hb.noise x hx).1, set_iff.2 (Or.inl (hb.noise x hx).2)⟩
            · intro x hx
              rcases set_iff.1 hx with h1 | rfl
              · exact hb.mem x h1
              · exact hmem
            · exact hb.closed
            · exact hb.seeds
          · intro x hx; simp at hx; subst hx; exact .refl
          · intro x hx; exact ⟨h, by simp, hcore', hx⟩
          · intro x hx _ b hbx
            simp at hx; subst hx
            exact Or.inr (Or.inr hbx)
        obtain ⟨s1, g1, g2, g3, g4⟩ := expand_grow hn (hits.map (fun h => (nb h).length)).sum _ _ hg (by
          have h1 := rest_set (nb := nb) hmem hvf
          have h2 := rest_le (nb := nb) hits s.visited
          show (nb h).length + rest nb hits (set s.visited h) ≤ _
          omega)
        rw [g1]
        simp only
        obtain ⟨s', h1, h2, h3, h4, h5, new, h6⟩ := ih { s1 with done := s1.done ++ [s1.cur], cur := [] } hm' (by
          have b := g2.base
          constructor
          · intro x
            show s1.attached x = true ↔ x ∈ (s1.done ++ [s1.cur]).flatten ∨ x ∈ []
            rw [b.att x]; simp
          · show ((s1.done ++ [s1.cur]).flatten ++ []).Nodup
            simpa using b.nodup
          · exact b.vis
          · exact b.left
          · exact b.noise
          · exact b.mem
          · intro p c q hpq x hx hxc b' hb'
            have hpq' : s1.done ++ [s1.cur] = p ++ c :: q := hpq
            rcases List.eq_nil_or_concat q with rfl | ⟨q', y, rfl⟩
            · have := List.append_inj' hpq' rfl
              simp at this
              obtain ⟨rfl, rfl⟩ := this
              rcases g2.open_ x hx hxc b' hb' with h1 | h1 | h1
              · exact Or.inl h1
              · exact Or.inr h1
              · simp at h1
            · rw [List.concat_eq_append, ← List.cons_append, ← List.append_assoc] at hpq'
              have := List.append_inj' hpq' rfl
              exact b.closed p c q' this.1 x hx hxc b' hb'
          · intro c hcm
            have hcm' : c ∈ s1.done ++ [s1.cur] := hcm
            rcases List.mem_append.1 hcm' with h1 | h1
            · exact b.seeds c h1
            · rw [List.mem_singleton.1 h1]; exact g2.seed) rfl
        refine ⟨s', h1, h2, h3, ?_, fun x hx => h5 x (g4 x (set_iff.2 (Or.inl hx))), s1.cur :: new, ?_⟩
        · intro x hx
          rcases List.mem_cons.1 hx with rfl | hx
          · exact h5 _ (g4 _ (set_iff.2 (Or.inr rfl)))
          · exact h4 x hx
        · rw [h6]
          show s1.done ++ [s1.cur] ++ new = s.done ++ s1.cur :: new
          rw [g3]; simp

/-- **C102**: for every neighbourhood search that stays within the hits, the clustering ends; no hit is in two clusters; every cluster starts with a core hit and all its hits are reached from that by going from core hits of the cluster to neighbours;
the neighbours of a core hit are in the cluster of that hit or in an earlier one; a hit is in no cluster exactly when it is neither a core hit nor a neighbour of one, and is then marked as noise -/
theorem C102_clusters (nb : Nat → List Nat) (k : Nat) (hits : List Nat) (hn : ∀ a ∈ hits, ∀ b ∈ nb a, b ∈ hits) :
    ∃ s, dbscan nb k hits = some s ∧ s.done.flatten.Nodup ∧ (∀ x ∈ s.done.flatten, x ∈ hits) ∧
      (∀ c ∈ s.done, ∃ h t, c = h :: t ∧ Core nb k h ∧ ∀ x ∈ c, Relation.ReflTransGen (Step nb k c) h x) ∧
      (∀ p c q, s.done = p ++ c :: q → ∀ x ∈ c, Core nb k x → ∀ b ∈ nb x, b ∈ p.flatten ∨ b ∈ c) ∧
      (∀ x ∈ hits, x ∉ s.done.flatten ↔ ¬ Core nb k x ∧ ∀ y ∈ hits, Core nb k y → x ∉ nb y) ∧
      (∀ x ∈ hits, x ∉ s.done.flatten → s.noise x = true) ∧ (∀ x, s.noise x = true → ¬ Core nb k x) ∧ (∀ x, s.attached x = true ↔ x ∈ s.done.flatten) := by
  obtain ⟨s, h1, h2, h3, h4, -, -⟩ := scan_base (k := k) hn hits {} (fun _ h => h) (by
    constructor <;> simp) rfl
  have hatt : ∀ x, s.attached x = true ↔ x ∈ s.done.flatten := by intro x; rw [h2.att, h3]; simp
  have hcore : ∀ x ∈ hits, Core nb k x → x ∈ s.done.flatten := by
    intro x hx hc
    rcases h2.left x (h4 x hx) with h | h
    · exact (hatt x).1 h
    · exact absurd hc (h2.noise x h).1
  refine ⟨s, h1, ?_, fun x hx => h2.mem x ((hatt x).2 hx), h2.seeds, h2.closed, ?_, ?_, fun x hx => (h2.noise x hx).1, hatt⟩
  · have := h2.nodup; rw [h3, List.append_nil] at this; exact this
  · intro x hx
    constructor
    · intro hno
      refine ⟨fun hc => hno (hcore x hx hc), ?_⟩
      intro y hy hyc hxy
      obtain ⟨c, hc, hyc'⟩ := List.mem_flatten.1 (hcore y hy hyc)
      obtain ⟨p, q, hpq⟩ := List.append_of_mem hc
      rcases h2.closed p c q hpq y hyc' hyc x hxy with h | h
      · obtain ⟨c2, hc2, hx2⟩ := List.mem_flatten.1 h
        exact hno (List.mem_flatten.2 ⟨c2, by rw [hpq]; simp [hc2], hx2⟩)
      · exact hno (List.mem_flatten.2 ⟨c, hc, h⟩)
    · rintro ⟨h5, h6⟩ hin
      obtain ⟨c, hc, hxc⟩ := List.mem_flatten.1 hin
      obtain ⟨h, t, rfl, hh, hr⟩ := h2.seeds c hc
      have := hr x hxc
      rcases Relation.ReflTransGen.cases_tail this with h7 | ⟨y, hry, hy⟩
      · exact h5 (h7 ▸ hh)
      · -- the hit before
        have hyh : y ∈ hits := by
          have hy2 : y ∈ h :: t := by
            by_contra hny
            rcases Relation.ReflTransGen.cases_tail hry with h8 | ⟨z, -, hz⟩
            · exact hny (by rw [← h8]; simp)
            · exact hny hz.2.2
          exact h2.mem y ((hatt y).2 (List.mem_flatten.2 ⟨_, hc, hy2⟩))
        exact h6 y hyh hy.1 hy.2.1
  · intro x hx hno
    rcases h2.left x (h4 x hx) with h | h
    · exact absurd ((hatt x).1 h) hno
    · exact h

/-- **C102**: when being neighbours is symmetric, two core hits are in the same cluster exactly if a chain of core hits links them -/
theorem C102_linked (nb : Nat → List Nat) (k : Nat) (hits : List Nat) (hn : ∀ a ∈ hits, ∀ b ∈ nb a, b ∈ hits) (hs : ∀ a b, b ∈ nb a → a ∈ nb b) :
    ∃ s, dbscan nb k hits = some s ∧ ∀ x ∈ hits, ∀ y ∈ hits, Core nb k x → Core nb k y → ((∃ c ∈ s.done, x ∈ c ∧ y ∈ c) ↔ Linked nb k x y) := by
  obtain ⟨s, h1, h2, h3, h4, h5, h6, -, -, -⟩ := C102_clusters nb k hits hn
  refine ⟨s, h1, ?_⟩
  have hin : ∀ x ∈ hits, Core nb k x → ∃ c ∈ s.done, x ∈ c := by
    intro x hx hc
    by_contra hno
    have := (h6 x hx).1 (fun h => hno (List.mem_flatten.1 h))
    exact this.1 hc
  -- the clusters of two neighbouring core hits
  have huniq : ∀ p c q, s.done = p ++ c :: q → ∀ x ∈ c, x ∉ p.flatten := by
    intro p c q hpq x hx hxp
    rw [hpq] at h2
    simp only [List.flatten_append, List.flatten_cons, List.nodup_append] at h2
    exact h2.2.2 x hxp x (List.mem_append_left _ hx) rfl
  have hsame1 : ∀ c ∈ s.done, ∀ x ∈ c, Core nb k x → ∀ y ∈ nb x, Core nb k y → y ∈ c := by
    intro c hc x hx hxc y hy hyc
    obtain ⟨p, q, hpq⟩ := List.append_of_mem hc
    rcases h5 p c q hpq x hx hxc y hy with h | h
    · exfalso
      obtain ⟨c2, hc2, hy2⟩ := List.mem_flatten.1 h
      obtain ⟨p2, q2, hpq2⟩ := List.append_of_mem hc2
      have hpq3 : s.done = p2 ++ c2 :: (q2 ++ c :: q) := by rw [hpq, hpq2]; simp
      rcases h5 p2 c2 _ hpq3 y hy2 hyc x (hs x y hy) with h7 | h7
      · exact huniq p c q hpq x hx (by rw [hpq2]; simp only [List.flatten_append]; exact List.mem_append_left _ h7)
      · exact huniq p c q hpq x hx (List.mem_flatten.2 ⟨c2, hc2, h7⟩)
    · exact h
  intro x hx y hy hxc hyc
  constructor
  · rintro ⟨c, hc, hx1, hy1⟩
    obtain ⟨h, t, rfl, hh, hr⟩ := h4 c hc
    have key : ∀ z, Relation.ReflTransGen (Step nb k (h :: t)) h z → Core nb k z → Linked nb k h z := by
      intro z hz
      induction hz with
      | refl => intro _; exact .refl
      | tail _ hbc ih => intro hz; exact .tail (ih hbc.1) ⟨hbc.1, hz, hbc.2.1⟩
    have hsym : ∀ {a b}, Linked nb k a b → Linked nb k b a := by
      intro a b hab
      induction hab with
      | refl => exact .refl
      | tail _ hbc ih => exact .head ⟨hbc.2.1, hbc.1, hs _ _ hbc.2.2⟩ ih
    exact Relation.ReflTransGen.trans (hsym (key x (hr x hx1) hxc)) (key y (hr y hy1) hyc)
  · intro hl
    obtain ⟨c, hc, hxm⟩ := hin x hx hxc
    refine ⟨c, hc, hxm, ?_⟩
    have : ∀ z, Linked nb k x z → z ∈ c := by
      intro z hz
      induction hz with
      | refl => exact hxm
      | tail _ hbc ih => exact hsame1 c hc _ ih hbc.1 _ hbc.2.2 hbc.2.1
    exact this y hl

/-- a chain of hits 0–1–2–3, a border hit 4 at 3, a hit 5 on its own; at least two neighbours make a core hit -/
def sampleNb (a : Nat) : List Nat := [[1], [0, 2], [1, 3], [2, 4], [3], []].getD a []

example : (∀ a ∈ [0, 1, 2, 3, 4, 5], ∀ b ∈ sampleNb a, b ∈ [0, 1, 2, 3, 4, 5] ∧ a ∈ sampleNb b) ∧
    (dbscan sampleNb 2 [0, 1, 2, 3, 4, 5]).map (fun s => s.done) = some [[1, 0, 2, 3, 4]] := by decide +kernel

/-- the noise mark is not taken off: the border hit 0 was looked at first, so it is in a cluster and marked as noise -/
theorem C102_noise_refuted : ∃ nb k hits s x, dbscan nb k hits = some s ∧ (∀ a ∈ hits, ∀ b ∈ nb a, b ∈ hits ∧ a ∈ nb b) ∧ x ∈ s.done.flatten ∧ s.noise x = true := by
  cases hd : dbscan sampleNb 2 [0, 1, 2, 3, 4, 5] with
  | none =>
    have : (dbscan sampleNb 2 [0, 1, 2, 3, 4, 5]).isSome = true := by decide +kernel
    rw [hd] at this; simp at this
  | some s =>
    have h1 : (dbscan sampleNb 2 [0, 1, 2, 3, 4, 5]).map (fun s => (s.done, s.noise 0)) = some ([[1, 0, 2, 3, 4]], true) := by decide +kernel
    rw [hd] at h1
    simp at h1
    exact ⟨sampleNb, 2, _, s, 0, hd, by decide +kernel, by rw [h1.1]; simp, h1.2⟩

end Verif.DBQueue

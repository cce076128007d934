import Verif.ShwFinder.Model
import Mathlib.Tactic.Linarith
import Mathlib.Tactic.NormNum
import Mathlib.Tactic.Ring
import Mathlib.Tactic.FieldSimp
import Mathlib.Data.List.Induction
import Mathlib.Algebra.Order.Field.Basic

namespace Verif.ShwFinder

/-- Specification: at least half of the hits of a cluster, which has some, pass the test for the cone. -/
def Half (v : Vtx) (s : Scan) (hs : List Hit) : Prop :=
  hs ≠ [] ∧ hs.length ≤ 2 * (hs.filter (fun h => inCone v s h)).length

instance (v : Vtx) (s : Scan) (hs : List Hit) : Decidable (Half v s hs) := by unfold Half; infer_instance

theorem count_fold (v : Vtx) (s : Scan) (hs : List Hit) (n : ℕ) :
    hs.foldl (fun n h => if inCone v s h then n + 1 else n) n = n + (hs.filter (fun h => inCone v s h)).length := by
  induction hs generalizing n with
  | nil => simp
  | cons h hs ih =>
    rw [List.foldl_cons, ih]
    by_cases hc : inCone v s h = true
    · rw [if_pos hc, List.filter_cons_of_pos (by simpa using hc), List.length_cons]; omega
    · rw [if_neg hc, List.filter_cons_of_neg (by simpa using hc)]

theorem proto_fold (v : Vtx) (s : Scan) (l : List (List Hit × ℕ)) (a : List ℕ) :
    l.foldl (fun (a : List ℕ × ℕ) c =>
      if c.1.length = 0 then a
      else
        let n : ℕ := c.1.foldl (fun n h => if inCone v s h then n + 1 else n) a.2
        if (n : ℚ) / (c.1.length : ℚ) ≥ 1 / 2 then (a.1 ++ [c.2], 0) else (a.1, 0)) (a, 0) =
      (a ++ l.filterMap (fun c => if Half v s c.1 then some c.2 else none), 0) := by
  induction l generalizing a with
  | nil => simp
  | cons c l ih =>
    rw [List.foldl_cons, List.filterMap_cons]
    by_cases h0 : c.1.length = 0
    · have : ¬ Half v s c.1 := fun h => h.1 (List.length_eq_zero_iff.1 h0)
      rw [if_pos h0, ih, if_neg this]
    · rw [if_neg h0]
      dsimp only
      rw [count_fold, Nat.zero_add]
      have hpos : (0 : ℚ) < c.1.length := by exact_mod_cast Nat.pos_of_ne_zero h0
      have hiff : ((c.1.filter (fun h => inCone v s h)).length : ℚ) / (c.1.length : ℚ) ≥ 1 / 2 ↔ Half v s c.1 := by
        rw [ge_iff_le, le_div_iff₀ hpos]
        unfold Half
        constructor
        · intro h
          refine ⟨fun he => h0 (by rw [he]; rfl), ?_⟩
          have : (c.1.length : ℚ) ≤ 2 * (c.1.filter (fun h => inCone v s h)).length := by linarith
          exact_mod_cast this
        · rintro ⟨_, h⟩
          have : (c.1.length : ℚ) ≤ 2 * (c.1.filter (fun h => inCone v s h)).length := by exact_mod_cast h
          linarith
      by_cases hh : Half v s c.1
      · rw [if_pos (hiff.2 hh), ih, if_pos hh]; simp
      · rw [if_neg (fun h => hh (hiff.1 h)), ih, if_neg hh]

/-- **C450**: the clusters found in a scan are exactly those with at least half of their hits in the cone,
in order. -/
theorem C450_clusters (v : Vtx) (s : Scan) (cs : List (List Hit)) :
    (∀ i, i ∈ proto v s cs ↔ ∃ hs, cs[i]? = some hs ∧ Half v s hs) ∧ (proto v s cs).Pairwise (· < ·) := by
  have e : proto v s cs = cs.zipIdx.filterMap (fun c => if Half v s c.1 then some c.2 else none) := by
    unfold proto
    rw [proto_fold]; simp
  rw [e]
  constructor
  · intro i
    rw [List.mem_filterMap]
    constructor
    · rintro ⟨c, hc, h⟩
      rw [List.mem_zipIdx_iff_getElem?] at hc
      by_cases hh : Half v s c.1
      · rw [if_pos hh] at h
        simp only [Option.some.injEq] at h
        subst h; exact ⟨c.1, hc, hh⟩
      · rw [if_neg hh] at h; simp at h
    · rintro ⟨hs, hi, hh⟩
      exact ⟨(hs, i), by rw [List.mem_zipIdx_iff_getElem?]; exact hi, by simp [hh]⟩
  · rw [List.pairwise_filterMap, List.pairwise_iff_getElem]
    intro i j hi hj hij b hb b' hb'
    simp only [List.getElem_zipIdx, Nat.zero_add] at hb hb'
    split at hb <;> split at hb' <;> simp at hb hb'
    omega

/-- The clusters of the showers: for each vertex that is used, with `ID` 1 or strength 3, and each scan, the
clusters found, if there are any. -/
def showers (vs : List Vtx) (scans : List Scan) (cs : List (List Hit)) : List (List ℕ) :=
  ((vs.filter (fun v => v.id = 1 ∨ v.strength = 3)).flatMap (fun v => scans.map (fun s => proto v s cs))).filter
    (fun l => l ≠ [])

theorem add_fold (cs : List (List Hit)) (l : List (List ℕ)) (o : Out) :
    let r := l.foldl (addShower cs) o
    let k := l.filter (fun l => l ≠ [])
    r.n = o.n + k.length ∧
    r.ca = o.ca ++ (k.zipIdx o.n).flatMap (fun x => x.1.map (fun i => (x.2, i))) ∧
    r.ha = o.ha ++ (k.zipIdx o.n).flatMap
      (fun x => x.1.flatMap (fun i => (cs.getD i []).map (fun h => (x.2, h.key)))) := by
  induction l generalizing o with
  | nil => simp
  | cons p l ih =>
    dsimp only at ih ⊢
    rw [List.foldl_cons]
    obtain ⟨h1, h2, h3⟩ := ih (addShower cs o p)
    rw [h1, h2, h3]
    by_cases hp : p = []
    · rw [List.filter_cons_of_neg (by simp [hp])]
      simp [addShower, hp]
    · rw [List.filter_cons_of_pos (by simp [hp])]
      have hf : ∀ (p : List ℕ) (a : List (ℕ × ℕ)),
          p.foldl (fun l i => l ++ (cs.getD i []).map (fun h => (o.n, h.key))) a =
            a ++ p.flatMap (fun i => (cs.getD i []).map (fun h => (o.n, h.key))) := by
        intro p
        induction p with
        | nil => intro a; simp
        | cons i p ih => intro a; rw [List.foldl_cons, ih]; simp
      simp only [addShower, hp, if_false, List.zipIdx_cons, List.flatMap_cons, List.length_cons, hf]
      refine ⟨by omega, by simp, by simp⟩

/-- **C451**: there is one shower for each vertex with `ID` 1 or strength 3 and each scan in which a cluster
is found, in this order; it is associated with exactly these clusters and their hits. -/
theorem C451_showers (vs : List Vtx) (scans : List Scan) (cs : List (List Hit)) :
    let r := produce vs scans cs
    let l := showers vs scans cs
    r.n = l.length ∧
    (∀ k i, (k, i) ∈ r.ca ↔ ∃ p, l[k]? = some p ∧ i ∈ p) ∧
    (∀ k j, (k, j) ∈ r.ha ↔ ∃ p i hs h, l[k]? = some p ∧ i ∈ p ∧ cs[i]? = some hs ∧ h ∈ hs ∧ h.key = j) := by
  dsimp only
  have e : produce vs scans cs =
      ((select vs).flatMap (fun v => scans.map (fun s => proto v s cs))).foldl (addShower cs) {} := by
    unfold produce
    rw [List.foldl_flatMap]
    congr 1
    funext o v
    rw [List.foldl_map]
  obtain ⟨h1, h2, h3⟩ := add_fold cs ((select vs).flatMap (fun v => scans.map (fun s => proto v s cs))) {}
  have hs : ((select vs).flatMap (fun v => scans.map (fun s => proto v s cs))).filter (fun l => l ≠ []) =
      showers vs scans cs := rfl
  rw [← e, hs] at h1 h2 h3
  rw [h1, h2, h3]
  generalize showers vs scans cs = l
  refine ⟨by simp, fun k i => ?_, fun k j => ?_⟩
  · simp only [List.nil_append, List.mem_flatMap, List.mem_map, Prod.mk.injEq]
    constructor
    · rintro ⟨x, hx, i', hi, rfl, rfl⟩
      rw [List.mem_zipIdx_iff_getElem?] at hx
      exact ⟨x.1, hx, hi⟩
    · rintro ⟨p, hp, hi⟩
      exact ⟨(p, k), by rw [List.mem_zipIdx_iff_getElem?]; exact hp, i, hi, rfl, rfl⟩
  · simp only [List.nil_append, List.mem_flatMap, List.mem_map, Prod.mk.injEq]
    constructor
    · rintro ⟨x, hx, i, hi, h, hh, rfl, rfl⟩
      rw [List.mem_zipIdx_iff_getElem?] at hx
      cases hc : cs[i]? with
      | none => rw [List.getD_eq_getElem?_getD, hc] at hh; simp at hh
      | some hs =>
        rw [List.getD_eq_getElem?_getD, hc] at hh
        exact ⟨x.1, i, hs, h, hx, hi, hc, hh, rfl⟩
    · rintro ⟨p, i, hs, h, hp, hi, hc, hh, rfl⟩
      refine ⟨(p, k), by rw [List.mem_zipIdx_iff_getElem?]; exact hp, i, hi, h, ?_, rfl, rfl⟩
      rw [List.getD_eq_getElem?_getD, hc]; exact hh

/-- **C452**: for a vertex at wire 0 and a cone to the right, the test is the one for the two sides of the
cone. -/
theorem C452_cone_partial (v : Vtx) (s : Scan) (h : Hit) (hv : v.x = 0) (h1 : 0 < s.x1) (h2 : 0 < s.x2) :
    inCone v s h = true ↔
      (h.y - v.y) * s.x2 ≤ s.y2 * (h.x - v.x) ∧ s.y1 * (h.x - v.x) ≤ (h.y - v.y) * s.x1 := by
  unfold inCone
  dsimp only
  rw [hv, Bool.and_eq_true, decide_eq_true_iff, decide_eq_true_iff]
  simp only [add_sub_cancel_left, sub_zero, zero_add, ge_iff_le]
  rw [← sub_le_iff_le_add, ← le_sub_iff_add_le]
  rw [div_mul_eq_mul_div, div_mul_eq_mul_div, le_div_iff₀ h2, div_le_iff₀ h1]

/-- **C452**, counterexamples: a hit between the sides of the cone is not found, and one behind the apex is
found, since the distance to wire 0 is used in place of that to the apex. -/
theorem C452_refuted :
    inCone ⟨1, 0, 100, 50⟩ ⟨10, 5, 10, 10⟩ ⟨0, 105, 54⟩ = false ∧
    inCone ⟨1, 0, 100, 50⟩ ⟨10, -1, 10, 1⟩ ⟨0, 95, 50⟩ = true := by
  constructor <;> decide +kernel

/-- **C453**, counterexample: a cluster in two showers of one vertex, in neighbouring scans. -/
theorem C453_refuted : ∃ (vs : List Vtx) (scans : List Scan) (cs : List (List Hit)),
    vs.length = 1 ∧ cs.length = 1 ∧ (produce vs scans cs).ca = [(0, 0), (1, 0)] :=
  ⟨[⟨1, 0, 0, 0⟩], [⟨10, 0, 10, 10⟩, ⟨10, -10, 10, 0⟩], [[⟨0, 5, 3⟩, ⟨1, 5, -3⟩]], rfl, rfl,
    by decide +kernel⟩

/-- Two vertices, one not used; the second cluster is not in the cone. -/
example : produce [⟨1, 0, 0, 0⟩, ⟨2, 1, 0, 0⟩] [⟨10, 0, 10, 10⟩] [[⟨0, 5, 3⟩, ⟨1, 5, 4⟩], [⟨2, 5, 8⟩], []] =
    ⟨1, [(0, 0)], [(0, 0), (0, 1)]⟩ := by decide +kernel

end Verif.ShwFinder

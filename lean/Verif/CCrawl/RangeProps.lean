import Verif.CCrawl.RangeModel
import Mathlib.Tactic.Linarith
import Mathlib.Tactic.FieldSimp
import Mathlib.Tactic.NormNum
import Mathlib.Data.List.Nodup
import Mathlib.Algebra.BigOperators.Group.List.Basic

/-! Properties of the hit ranges, of the ghosts and of the merging of hits in ClusterCrawler: C275 - C278. -/

namespace Verif.CCrawl

/-! ### C275 ranges -/

/-- hit `i` is on wire `w` of the plane -/
def On (H : Nat → Hit) (plane w i : Nat) : Prop := (H i).plane = plane ∧ (H i).wire = w

theorem range_inv (H : Nat → Hit) (plane k : Nat) :
    let r := (List.range k).foldl (rangeStep H plane) ⟨fun _ => (-2, -2), 0, 0, false⟩
    (∀ w, ((∀ i < k, ¬ On H plane w i) ∧ r.range w = (-2, -2)) ∨
      ∃ a b : Nat, a ≤ b ∧ b < k ∧ On H plane w a ∧ On H plane w b ∧ r.range w = ((a : Int), (b : Int) + 1) ∧
        ∀ i < k, On H plane w i → a ≤ i ∧ i ≤ b) ∧
    ((r.seen = false ∧ r.lastWire = 0 ∧ ∀ i < k, (H i).plane ≠ plane) ∨
      (r.seen = true ∧ ∃ a b : Nat, a ≤ b ∧ b < k ∧ (H a).plane = plane ∧ (H b).plane = plane ∧ r.firstWire = (H a).wire ∧
        r.lastWire = (H b).wire + 1 ∧ ∀ i < k, (H i).plane = plane → a ≤ i ∧ i ≤ b)) := by
  induction k with
  | zero =>
    refine ⟨fun w => Or.inl ⟨by intro i hi; omega, rfl⟩, Or.inl ⟨rfl, rfl, by intro i hi; omega⟩⟩
  | succ k ih =>
    rw [List.range_succ, List.foldl_append]
    generalize (List.range k).foldl (rangeStep H plane) ⟨fun _ => (-2, -2), 0, 0, false⟩ = r at *
    obtain ⟨h1, h2⟩ := ih
    show _ ∧ _
    simp only [List.foldl_cons, List.foldl_nil]
    unfold rangeStep
    by_cases hp : (H k).plane ≠ plane
    · rw [if_pos hp]
      refine ⟨?_, ?_⟩
      · intro w
        rcases h1 w with ⟨e1, e2⟩ | ⟨a, b, ab, bk, oa, ob, e, hh⟩
        · left
          refine ⟨?_, e2⟩
          intro i hi ho
          rcases Nat.lt_or_ge i k with hl | hl
          · exact e1 i hl ho
          · have : i = k := by omega
            subst this
            exact hp ho.1
        · right
          refine ⟨a, b, ab, by omega, oa, ob, e, ?_⟩
          intro i hi ho
          rcases Nat.lt_or_ge i k with hl | hl
          · exact hh i hl ho
          · have : i = k := by omega
            subst this
            exact absurd ho.1 hp
      · rcases h2 with ⟨e1, e0, e2⟩ | ⟨e1, a, b, ab, bk, oa, ob, ef, el, hh⟩
        · left
          refine ⟨e1, e0, ?_⟩
          intro i hi
          rcases Nat.lt_or_ge i k with hl | hl
          · exact e2 i hl
          · have : i = k := by omega
            subst this
            exact hp
        · right
          refine ⟨e1, a, b, ab, by omega, oa, ob, ef, el, ?_⟩
          intro i hi ho
          rcases Nat.lt_or_ge i k with hl | hl
          · exact hh i hl ho
          · have : i = k := by omega
            subst this
            exact absurd ho hp
    · rw [if_neg hp]
      push Not at hp
      dsimp only
      refine ⟨?_, ?_⟩
      · intro w
        by_cases hw : w = (H k).wire
        · subst hw
          right
          rw [Function.update_self]
          rcases h1 (H k).wire with ⟨e1, e2⟩ | ⟨a, b, ab, bk, oa, ob, e, hh⟩
          · refine ⟨k, k, le_rfl, by omega, ⟨hp, rfl⟩, ⟨hp, rfl⟩, by rw [if_pos e2], ?_⟩
            intro i hi ho
            rcases Nat.lt_or_ge i k with hl | hl
            · exact absurd ho (e1 i hl)
            · omega
          · refine ⟨a, k, by omega, by omega, oa, ⟨hp, rfl⟩, ?_, ?_⟩
            · rw [e, if_neg (by intro hc; have := congrArg Prod.fst hc; dsimp only at this; omega)]
            · intro i hi ho
              rcases Nat.lt_or_ge i k with hl | hl
              · have := hh i hl ho; omega
              · omega
        · rw [Function.update_of_ne hw]
          have hno : ¬ On H plane w k := fun ho => hw ho.2.symm
          rcases h1 w with ⟨e1, e2⟩ | ⟨a, b, ab, bk, oa, ob, e, hh⟩
          · left
            refine ⟨?_, e2⟩
            intro i hi ho
            rcases Nat.lt_or_ge i k with hl | hl
            · exact e1 i hl ho
            · have : i = k := by omega
              subst this
              exact hno ho
          · right
            refine ⟨a, b, ab, by omega, oa, ob, e, ?_⟩
            intro i hi ho
            rcases Nat.lt_or_ge i k with hl | hl
            · exact hh i hl ho
            · have : i = k := by omega
              subst this
              exact absurd ho hno
      · right
        refine ⟨rfl, ?_⟩
        rcases h2 with ⟨e1, e0, e2⟩ | ⟨e1, a, b, ab, bk, oa, ob, ef, el, hh⟩
        · refine ⟨k, k, le_rfl, by omega, hp, hp, by rw [e1]; rfl, rfl, ?_⟩
          intro i hi ho
          rcases Nat.lt_or_ge i k with hl | hl
          · exact absurd ho (e2 i hl)
          · omega
        · refine ⟨a, k, by omega, by omega, oa, hp, by rw [e1]; exact ef, rfl, ?_⟩
          intro i hi ho
          rcases Nat.lt_or_ge i k with hl | hl
          · have := hh i hl ho; omega
          · omega

/-- the hits are sorted by plane and wire -/
def Sorted (H : Nat → Hit) (n : Nat) : Prop :=
  ∀ i j, i < j → j < n → (H i).plane < (H j).plane ∨ ((H i).plane = (H j).plane ∧ (H i).wire ≤ (H j).wire)

/-- C275: for sorted hits the range of a good wire with hits is exactly the range of the positions of its hits; a good wire
without hits is marked -2, a bad one -1, whether it has hits or not. -/
theorem C275_ranges (H : Nat → Hit) (n plane nwires : Nat) (good : Nat → Bool) (hs : Sorted H n) (w : Nat)
    (hw : w < nwires) :
    let r := getHitRange H n plane nwires good
    (good w = false → r.range w = (-1, -1)) ∧
    (good w = true → (∀ i < n, ¬ On H plane w i) → r.range w = (-2, -2)) ∧
    (good w = true → (∃ i < n, On H plane w i) →
      ∀ i : Nat, ((r.range w).1 ≤ (i : Int) ∧ (i : Int) < (r.range w).2) ↔ i < n ∧ On H plane w i) := by
  intro r
  obtain ⟨h1, _⟩ := range_inv H plane n
  have hr : r.range w = if w < nwires ∧ good w = false then (-1, -1) else
    ((List.range n).foldl (rangeStep H plane) ⟨fun _ => (-2, -2), 0, 0, false⟩).range w := rfl
  generalize (List.range n).foldl (rangeStep H plane) ⟨fun _ => (-2, -2), 0, 0, false⟩ = q at *
  refine ⟨?_, ?_, ?_⟩
  · intro hg
    rw [hr, if_pos ⟨hw, hg⟩]
  · intro hg hno
    rw [hr, if_neg (by simp [hg])]
    rcases h1 w with ⟨_, e⟩ | ⟨a, b, ab, bn, oa, _⟩
    · exact e
    · exact absurd oa (hno a (by omega))
  · intro hg ⟨j, hj, oj⟩ i
    rw [hr, if_neg (by simp [hg])]
    rcases h1 w with ⟨e, _⟩ | ⟨a, b, ab, bn, oa, ob, e, hh⟩
    · exact absurd oj (e j hj)
    · rw [e]
      dsimp only
      constructor
      · rintro ⟨k1, k2⟩
        have hia : a ≤ i := by omega
        have hib : i ≤ b := by omega
        refine ⟨by omega, ?_⟩
        rcases Nat.eq_or_lt_of_le hia with e1 | e1
        · rw [← e1]; exact oa
        · rcases Nat.eq_or_lt_of_le hib with e2 | e2
          · rw [e2]; exact ob
          · have s1 := hs a i e1 (by omega)
            have s2 := hs i b e2 bn
            unfold On at *
            omega
      · rintro ⟨hi, ho⟩
        have := hh i hi ho
        omega

/-- C275: with hits in the plane, all of them are on wires from the first to before the last wire, and both of these wires
have hits. -/
theorem C275_first_last (H : Nat → Hit) (n plane nwires : Nat) (good : Nat → Bool) (hs : Sorted H n)
    (hx : ∃ i < n, (H i).plane = plane) :
    let r := getHitRange H n plane nwires good
    (∀ i < n, (H i).plane = plane → r.firstWire ≤ (H i).wire ∧ (H i).wire < r.lastWire) ∧
    (∃ i < n, On H plane r.firstWire i) ∧ ∃ i < n, On H plane (r.lastWire - 1) i := by
  intro r
  obtain ⟨_, h2⟩ := range_inv H plane n
  have hr : r.firstWire = ((List.range n).foldl (rangeStep H plane) ⟨fun _ => (-2, -2), 0, 0, false⟩).firstWire ∧
    r.lastWire = ((List.range n).foldl (rangeStep H plane) ⟨fun _ => (-2, -2), 0, 0, false⟩).lastWire := ⟨rfl, rfl⟩
  generalize (List.range n).foldl (rangeStep H plane) ⟨fun _ => (-2, -2), 0, 0, false⟩ = q at *
  obtain ⟨j, hj, oj⟩ := hx
  rcases h2 with ⟨_, _, e⟩ | ⟨_, a, b, ab, bn, oa, ob, ef, el, hh⟩
  · exact absurd oj (e j hj)
  · rw [hr.1, hr.2, ef, el]
    refine ⟨?_, ⟨a, by omega, oa, rfl⟩, ⟨b, bn, ob, by omega⟩⟩
    intro i hi ho
    have hab := hh i hi ho
    refine ⟨?_, ?_⟩
    · rcases Nat.eq_or_lt_of_le hab.1 with e1 | e1
      · rw [e1]
      · have := hs a i e1 hi; omega
    · rcases Nat.eq_or_lt_of_le hab.2 with e1 | e1
      · rw [e1]; omega
      · have := hs i b e1 bn; omega

/-- five hits on wires 3, 3, 5 of plane 0 and 1, 2 of plane 1 -/
def exRangeHit : Nat → Hit := fun i => (([⟨0, 3, 0⟩, ⟨0, 3, 0⟩, ⟨0, 5, 0⟩, ⟨1, 1, 0⟩, ⟨1, 2, 0⟩] : List Hit)[i]?).getD ⟨2, 0, 0⟩

example : (List.range 7).map (getHitRange exRangeHit 5 0 7 (fun w => w != 6)).range =
    [(-2, -2), (-2, -2), (-2, -2), (0, 2), (-2, -2), (2, 3), (-1, -1)] := by decide +kernel
example : Sorted exRangeHit 5 := by
  have : ∀ j < 5, ∀ i < j, (exRangeHit i).plane < (exRangeHit j).plane ∨ ((exRangeHit i).plane = (exRangeHit j).plane ∧
      (exRangeHit i).wire ≤ (exRangeHit j).wire) := by decide +kernel
  intro i j h1 h2
  exact this j h2 i h1

/-! ### C276 dead wires -/

/-- C276: the number of dead wires between two wires counts the bad channels on the wires between them, both included, in
either order. -/
theorem C276_dead (H : Nat → Hit) (n plane nwires : Nat) (good : Nat → Bool) (w1 w2 : Nat) :
    let r := (getHitRange H n plane nwires good).range
    deadWires r w1 w2 = deadWires r w2 w1 ∧
    deadWires r w1 w2 = ((List.range (max w1 w2 + 1)).filter fun w => decide (min w1 w2 ≤ w ∧ w < nwires ∧ good w = false)).length := by
  intro r
  have hbad : ∀ w, ((r w).1 == -1) = decide (w < nwires ∧ good w = false) := by
    intro w
    obtain ⟨h1, _⟩ := range_inv H plane n
    have hr : r w = if w < nwires ∧ good w = false then (-1, -1) else
      ((List.range n).foldl (rangeStep H plane) ⟨fun _ => (-2, -2), 0, 0, false⟩).range w := rfl
    generalize (List.range n).foldl (rangeStep H plane) ⟨fun _ => (-2, -2), 0, 0, false⟩ = q at *
    rw [hr]
    by_cases hc : w < nwires ∧ good w = false
    · rw [if_pos hc]; simp [hc]
    · rw [if_neg hc, decide_eq_false hc]
      rcases h1 w with ⟨_, e⟩ | ⟨a, b, _, _, _, _, e, _⟩
      · rw [e]; rfl
      · rw [e]
        simp only [beq_eq_false_iff_ne, ne_eq]
        omega
  have hcount : ∀ a b, deadWires r a b =
      ((List.range (max a b + 1)).filter fun w => decide (min a b ≤ w ∧ w < nwires ∧ good w = false)).length := by
    intro a b
    unfold deadWires
    dsimp only
    have e1 : (if a > b then b else a) = min a b := by split <;> omega
    have e2 : (if a > b then a else b) = max a b := by split <;> omega
    rw [e1, e2]
    have hsplit : List.range (max a b + 1) = List.range (min a b) ++ List.range' (min a b) (max a b + 1 - min a b) := by
      rw [List.range_eq_range', List.range_eq_range']
      have := List.range'_append_1 (s := 0) (m := min a b) (n := max a b + 1 - min a b)
      rw [Nat.zero_add] at this
      rw [this]
      congr 1
      omega
    rw [hsplit, List.filter_append]
    have hz : (List.range (min a b)).filter (fun w => decide (min a b ≤ w ∧ w < nwires ∧ good w = false)) = [] := by
      rw [List.filter_eq_nil_iff]
      intro x hx
      have := List.mem_range.mp hx
      simp only [decide_eq_true_eq]
      omega
    rw [hz, List.nil_append]
    congr 1
    apply List.filter_congr
    intro x hx
    rw [hbad x]
    have := List.mem_range'_1.mp hx
    simp [this.1]
  refine ⟨?_, hcount w1 w2⟩
  rw [hcount w1 w2, hcount w2 w1, max_comm w1 w2, min_comm w1 w2]

example : deadWires (getHitRange exRangeHit 5 0 7 (fun w => w != 6 && w != 2)).range 6 1 = 2 := by decide +kernel

/-! ### C277 ghosts -/

/-- C277: a cluster is only removed as a ghost of an earlier live cluster of the plane that overlaps it in wires, has a
similar angle, spans more wires and has more charge. -/
theorem C277_killed_partial {tcl : List GCl} {plane : Nat} {cut sepcut : ℚ} {j : Nat} (h : j ∈ killMe tcl plane cut sepcut) :
    ∃ i < j, ∃ ci cj, tcl[i]? = some ci ∧ tcl[j]? = some cj ∧ ci.live = true ∧ cj.live = true ∧ ci.plane = plane ∧
      cj.plane = plane ∧ cj.endWir ≤ ci.beginWir ∧ ci.endWir ≤ cj.beginWir ∧ |ci.angle - cj.angle| ≤ cut ∧
      width cj < width ci ∧ chargeOf cj < chargeOf ci := by
  unfold killMe at h
  rw [List.mem_filter, List.any_eq_true] at h
  obtain ⟨_, i, hi, hm⟩ := h
  refine ⟨i, List.mem_range.mp hi, ?_⟩
  cases hci : tcl[i]? with
  | none => rw [hci] at hm; cases hm
  | some ci =>
    cases hcj : tcl[j]? with
    | none => rw [hci, hcj] at hm; cases hm
    | some cj =>
      rw [hci, hcj] at hm
      unfold ghost at hm
      simp only [Bool.and_eq_true, decide_eq_true_eq, Bool.not_eq_true', decide_eq_false_iff_not] at hm
      obtain ⟨⟨l1, p1⟩, ⟨⟨⟨⟨l2, p2⟩, o1⟩, o2⟩, an⟩, _, fr, ch⟩ := hm
      refine ⟨ci, cj, rfl, rfl, l1, l2, p1, p2, by omega, by omega, by linarith, ?_, ch⟩
      have w1 : (0 : ℚ) < (width ci : ℚ) := by unfold width; positivity
      have w2 : (0 : ℚ) < (width cj : ℚ) := by unfold width; positivity
      rw [div_lt_div_iff₀ w1 w2] at fr
      by_contra hc
      push Not at hc
      have hc' : (width ci : ℚ) ≤ (width cj : ℚ) := by exact_mod_cast hc
      have hn : (0 : ℚ) ≤ (nClose ci cj sepcut : ℚ) := by positivity
      nlinarith [mul_le_mul_of_nonneg_left hc' hn]

/-- C277: the first live cluster of the plane always stays. -/
theorem C277_first_stays {tcl : List GCl} {plane : Nat} {cut sepcut : ℚ} {j : Nat}
    (hf : ∀ i < j, ∀ c, tcl[i]? = some c → c.live = false ∨ c.plane ≠ plane) : j ∉ killMe tcl plane cut sepcut := by
  intro h
  obtain ⟨i, hi, ci, cj, hci, _, l1, _, p1, _⟩ := C277_killed_partial h
  rcases hf i hi ci hci with e | e
  · rw [l1] at e; cases e
  · exact e p1

/-- a cluster on wires `lo` to `hi` (all of them), at time `t + slope * wire`, with charge `q` on every wire -/
def lineCl (lo hi : Nat) (t slope q : ℚ) : GCl :=
  ⟨true, 0, hi, lo, 0, ((List.range' lo (hi + 1 - lo)).reverse).map fun w => (w, t + slope * w, q)⟩

/-- on how many wires both have hits closer than `sepcut` -/
def commonClose (i j : GCl) (sepcut : ℚ) : Nat :=
  (i.hits.filter fun h => j.hits.any fun g => decide (h.1 = g.1 ∧ |h.2.1 - g.2.1| < sepcut)).length

/-- C277 (refuted): where the earlier cluster ends at the higher wire, times of different wires are compared: a ghost on all of
whose common wires the hits coincide stays, and a cluster that is nowhere close to the other is removed. -/
theorem C277_refuted :
    (∃ i j : GCl, commonClose i j 5 = 8 ∧ j.hits.length = 10 ∧ i.hits.length = 20 ∧ killMe [i, j] 0 1 5 = []) ∧
    (∃ i j : GCl, commonClose i j 5 = 0 ∧ killMe [i, j] 0 1 5 = [1]) := by
  refine ⟨⟨lineCl 12 31 0 10 2, lineCl 10 19 0 10 1, ?_, ?_, ?_, ?_⟩, ⟨lineCl 12 31 (-20) 10 2, lineCl 10 19 0 10 1, ?_, ?_⟩⟩ <;>
    decide +kernel

example : killMe [lineCl 10 29 0 10 2, lineCl 12 21 1 10 1] 0 1 5 = [1] := by decide +kernel

-- a distance of exactly the cut is not close
example : killMe [lineCl 10 29 0 10 2, lineCl 12 21 5 10 1] 0 1 5 = [] := by decide +kernel
-- wires without hits are not close
example : killMe [⟨true, 0, 29, 10, 0, [(29, 0, 5), (10, 0, 5)]⟩, ⟨true, 0, 21, 12, 0, [(21, 3, 1), (12, 3, 1)]⟩] 0 1 5 = [] := by
  decide +kernel

/-- exactly the wires from the end to the begin wire have hits -/
def Full (c : GCl) : Prop := ∀ w, (∃ h ∈ c.hits, h.1 = w) ↔ c.endWir ≤ w ∧ w < c.endWir + width c

theorem timesOf_mem (c : GCl) (hf : Full c) (d : ℚ) (k : Nat) (hk : k < width c) :
    ∃ h ∈ c.hits, h.1 = c.endWir + k ∧ timesOf c d k = h.2.1 := by
  have go : ∀ (l : List (Nat × ℚ × ℚ)) (f : Nat → ℚ),
      (∃ h ∈ l, h.1 = c.endWir + k ∧ (l.foldl (fun f h => if c.endWir ≤ h.1 ∧ h.1 - c.endWir < c.beginWir - c.endWir + 1 then Function.update f (h.1 - c.endWir) h.2.1 else f) f) k = h.2.1) ∨
      ((∀ h ∈ l, h.1 ≠ c.endWir + k) ∧ (l.foldl (fun f h => if c.endWir ≤ h.1 ∧ h.1 - c.endWir < c.beginWir - c.endWir + 1 then Function.update f (h.1 - c.endWir) h.2.1 else f) f) k = f k) := by
    intro l
    induction l with
    | nil => intro f; right; exact ⟨by simp, rfl⟩
    | cons a t ih =>
      intro f
      rw [List.foldl_cons]
      rcases ih (if c.endWir ≤ a.1 ∧ a.1 - c.endWir < c.beginWir - c.endWir + 1 then Function.update f (a.1 - c.endWir) a.2.1 else f) with
        ⟨h, h1, h2, h3⟩ | ⟨h1, h2⟩
      · exact Or.inl ⟨h, by simp [h1], h2, h3⟩
      · by_cases ha : a.1 = c.endWir + k
        · left
          refine ⟨a, by simp, ha, ?_⟩
          rw [h2]
          unfold width at hk
          rw [if_pos ⟨by omega, by omega⟩, show a.1 - c.endWir = k by omega, Function.update_self]
        · right
          refine ⟨?_, ?_⟩
          · intro h hh
            rcases List.mem_cons.1 hh with rfl | hh
            · exact ha
            · exact h1 h hh
          · rw [h2]
            split
            · rw [Function.update_of_ne]
              omega
            · rfl
  rcases go c.hits (fun _ => d) with h | h
  · exact h
  · obtain ⟨x, hx, hw⟩ := (hf (c.endWir + k)).2 ⟨by omega, by omega⟩
    exact absurd hw (h.1 x hx)

theorem nClose_le (i j : GCl) (hi : Full i) (hj : Full j) (sepcut : ℚ) (he : i.endWir ≤ j.endWir) :
    nClose i j sepcut ≤ commonClose i j sepcut := by
  have ho : i.endWir + (overlapRegion i j).1 = j.endWir + (overlapRegion i j).2.1 := by
    unfold overlapRegion
    split
    · simp only; omega
    · simp only; omega
  unfold nClose commonClose
  simp only
  generalize overlapRegion i j = o at ho ⊢
  rw [← List.length_map (f := fun h : Nat × ℚ × ℚ => h.1),
    ← List.length_map (f := fun k : Nat => i.endWir + o.1 + k) (as := (List.range o.2.2).filter _)]
  apply List.Subperm.length_le
  apply List.subperm_of_subset
  · exact (List.Nodup.filter _ List.nodup_range).map (fun a b hab => by simpa using hab)
  · intro w hw
    obtain ⟨k, hk, rfl⟩ := List.mem_map.1 hw
    have hk2 := (List.mem_filter.1 hk).2
    simp only [decide_eq_true_eq] at hk2
    obtain ⟨a1, a2, a3⟩ := timesOf_mem i hi 1000 (o.1 + k) hk2.1
    obtain ⟨b1, b2, b3⟩ := timesOf_mem j hj (-1000) (o.2.1 + k) hk2.2.1
    rw [List.mem_map]
    refine ⟨a1, List.mem_filter.2 ⟨a2, ?_⟩, by omega⟩
    rw [List.any_eq_true]
    refine ⟨b1, b2, ?_⟩
    rw [decide_eq_true_eq]
    refine ⟨by omega, ?_⟩
    rw [← a3.2, ← b3.2]
    exact hk2.2.2

/-- C277: for clusters with hits on all of their wires: a cluster is only removed because of one that reaches as far down if
at least half of its wires have a hit close to one of the other on the same wire, and the other has more charge. -/
theorem C277_close_partial {tcl : List GCl} {plane : Nat} {cut sepcut : ℚ} {j : Nat} (hF : ∀ c ∈ tcl, Full c)
    (h : j ∈ killMe tcl plane cut sepcut) :
    ∃ i < j, ∃ ci cj, tcl[i]? = some ci ∧ tcl[j]? = some cj ∧
      (cj.hits.map fun h => h.2.2).sum < (ci.hits.map fun h => h.2.2).sum ∧
      (ci.endWir ≤ cj.endWir → cj.beginWir - cj.endWir + 1 ≤ 2 * commonClose ci cj sepcut) := by
  unfold killMe at h
  rw [List.mem_filter, List.any_eq_true] at h
  obtain ⟨_, i, hi, hm⟩ := h
  refine ⟨i, List.mem_range.mp hi, ?_⟩
  cases hci : tcl[i]? with
  | none => rw [hci] at hm; cases hm
  | some ci =>
    cases hcj : tcl[j]? with
    | none => rw [hci, hcj] at hm; cases hm
    | some cj =>
      rw [hci, hcj] at hm
      unfold ghost at hm
      simp only [Bool.and_eq_true, decide_eq_true_eq, Bool.not_eq_true', decide_eq_false_iff_not] at hm
      obtain ⟨_, _, hh, fr, ch⟩ := hm
      have Fi := hF ci (List.mem_of_getElem? hci)
      have Fj := hF cj (List.mem_of_getElem? hcj)
      have hq : ∀ c : GCl, Full c → chargeOf c = (c.hits.map fun h => h.2.2).sum := by
        intro c hc
        unfold chargeOf
        rw [List.filter_eq_self.2]
        intro x hx
        have := (hc x.1).1 ⟨x, hx, rfl⟩
        rw [decide_eq_true_eq]
        omega
      refine ⟨ci, cj, rfl, rfl, ?_, fun he => ?_⟩
      · rw [← hq ci Fi, ← hq cj Fj]; exact ch
      · have hn := nClose_le ci cj Fi Fj sepcut he
        have w2 : (0 : ℚ) < (width cj : ℚ) := by unfold width; positivity
        have : 1 / 2 ≤ (nClose ci cj sepcut : ℚ) / (width cj : ℚ) := by
          by_contra hc
          exact hh ⟨by linarith, by linarith⟩
        rw [le_div_iff₀ w2] at this
        have h2 : (width cj : ℚ) ≤ 2 * (nClose ci cj sepcut : ℚ) := by linarith
        have h3 : width cj ≤ 2 * nClose ci cj sepcut := by exact_mod_cast h2
        unfold width at h3
        omega

example : Full ⟨true, 0, 2, 1, 0, [(2, 5, 1), (1, 3, 1)]⟩ := by
  intro w
  simp [width]
  omega

/-! ### C278 merging of hits -/

theorem multiplet_nodup (H : Nat → MHit) (i : Nat) : (multiplet H i).Nodup := List.nodup_range'

/-- numbering of the hits that are left -/
theorem fix_go (m : Nat → Int) (k : Nat) (l : List Nat) (hn : l.Nodup) : ∀ (c : Nat) (G : Nat → MHit) (x : Nat),
    (x ∉ l ∨ m x < 0 → (l.foldl (fun (r : Nat × (Nat → MHit)) h =>
      if m h < 0 then r else (r.1 + 1, Function.update r.2 h { r.2 h with mult := k, idx := r.1 })) (c, G)).2 x = G x) ∧
    (x ∈ l → 0 ≤ m x → (l.foldl (fun (r : Nat × (Nat → MHit)) h =>
      if m h < 0 then r else (r.1 + 1, Function.update r.2 h { r.2 h with mult := k, idx := r.1 })) (c, G)).2 x =
        { G x with mult := k, idx := c + ((l.takeWhile (· ≠ x)).filter fun h => decide (0 ≤ m h)).length }) := by
  induction l with
  | nil => intro c G x; simp
  | cons a t ih =>
    intro c G x
    have hn' := List.nodup_cons.mp hn
    rw [List.foldl_cons]
    by_cases ha : m a < 0
    · rw [if_pos ha]
      obtain ⟨i1, i2⟩ := ih hn'.2 c G x
      refine ⟨?_, ?_⟩
      · intro h
        apply i1
        rcases h with h | h
        · left; simp at h; tauto
        · right; exact h
      · intro hx h0
        have hxa : x ≠ a := by rintro rfl; omega
        have hxt : x ∈ t := by
          rcases List.mem_cons.mp hx with e | e
          · exact absurd e hxa
          · exact e
        rw [i2 hxt h0, List.takeWhile_cons, if_pos (by simp; exact fun e => hxa e.symm), List.filter_cons,
          if_neg (by simp; exact ha)]
    · rw [if_neg ha]
      obtain ⟨i1, i2⟩ := ih hn'.2 (c + 1) (Function.update G a { G a with mult := k, idx := c }) x
      refine ⟨?_, ?_⟩
      · intro h
        have hxa : x ≠ a := by
          rcases h with h | h
          · rintro rfl; simp at h
          · rintro rfl; exact ha h
        rw [i1 ?_, Function.update_of_ne hxa]
        rcases h with h | h
        · left; simp at h; tauto
        · right; exact h
      · intro hx h0
        by_cases hxa : x = a
        · subst hxa
          rw [i1 (Or.inl hn'.1), Function.update_self]
          simp
        · have hxt : x ∈ t := by
            rcases List.mem_cons.mp hx with e | e
            · exact absurd e hxa
            · exact e
          rw [i2 hxt h0, Function.update_of_ne hxa, List.takeWhile_cons, if_pos (by simp; exact fun e => hxa e.symm),
            List.filter_cons, if_pos (by simp; omega)]
          simp only [List.length_cons]
          congr 1
          omega

/-- C278: merging a hit that is not obsolete into one with its multiplet, none of which was merged before: all other hits of
the multiplet become obsolete and were free; the hit has the sum of the charges and is alone in its multiplet; no hit outside
changes. -/
theorem C278_merged_partial (H : Nat → MHit) (n : Nat) (m : Nat → Int) (avail : Nat → Bool) (the : Nat) (z : Bool)
    (hidx : (H the).idx ≤ the ∧ (H the).idx < (H the).mult) (h0 : 0 ≤ m the)
    (hnm : ∀ j ∈ multiplet H the, (H j).merged = false)
    (h : (mergeHits H n m avail the z).1 = true) :
    let H' := (mergeHits H n m avail the z).2.1
    let m' := (mergeHits H n m avail the z).2.2
    (∀ j ∈ multiplet H the, j ≠ the → m j = 0 ∧ m' j = -1) ∧
    (∀ j, j ∉ multiplet H the → H' j = H j ∧ m' j = m j) ∧ m' the = m the ∧
    H' the = { H the with integral := ((multiplet H the).map fun j => (H j).integral).sum, mult := 1, idx := 0, merged := true } ∧
    (∀ j ∈ multiplet H the, (H j).wire = (H the).wire ∧ (H j).plane = (H the).plane ∧ (H j).start = (H the).start) ∧
    multiplet H' the = [the] := by
  have hmem : the ∈ multiplet H the := by
    unfold multiplet
    rw [List.mem_range'_1]
    omega
  have hnd := multiplet_nodup H the
  unfold mergeHits at h ⊢
  split at h
  · cases h
  · rename_i c1
    rw [if_neg c1]
    split at h
    · cases h
    · rename_i c2
      rw [if_neg c2]
      split at h
      · cases h
      · rename_i c3
        rw [if_neg c3]
        split at h
        · cases h
        · rename_i c4
          rw [if_neg c4]
          dsimp only at h ⊢
          split at h
          · cases h
          · rename_i c5
            rw [if_neg c5]
            split at h
            · cases h
            · rename_i c6
              rw [if_neg c6]
              split at h
              · cases h
              · rename_i c7
                rw [if_neg c7]
                split at h
                · cases h
                · rename_i c8
                  rw [if_neg c8]
                  dsimp only
                  generalize hrg : multiplet H the = rg at *
                  have hfree : ∀ j ∈ rg, j ≠ the → m j = 0 := by
                    intro j hj hne
                    by_contra hc
                    apply c6
                    apply List.length_pos_of_mem (a := j)
                    simp [hj, hne, hnm j hj, hc]
                  have hm' : ∀ j ∈ rg, j ≠ the → (if j ∈ rg ∧ j ≠ the ∧ m j = 0 then (-1 : Int) else m j) = -1 := by
                    intro j hj hne
                    rw [if_pos ⟨hj, hne, hfree j hj hne⟩]
                  have hall : rg.filter (fun j => decide (j = the ∨ m j = 0)) = rg := by
                    rw [List.filter_eq_self]
                    intro j hj
                    by_cases hjt : j = the
                    · simp [hjt]
                    · simp [hfree j hj hjt]
                  have hlen : (rg.filter fun h => decide (0 ≤ (if h ∈ rg ∧ h ≠ the ∧ m h = 0 then (-1 : Int) else m h))) = [the] := by
                    have : (rg.filter fun h => decide (0 ≤ (if h ∈ rg ∧ h ≠ the ∧ m h = 0 then (-1 : Int) else m h))) =
                        rg.filter (· == the) := by
                      apply List.filter_congr
                      intro j hj
                      by_cases hjt : j = the
                      · subst hjt; simp [h0]
                      · rw [hm' j hj hjt]; simp [hjt]
                    rw [this, List.filter_beq, List.count_eq_one_of_mem hnd hmem]
                    rfl
                  have hthe : (if the ∈ rg ∧ the ≠ the ∧ m the = 0 then (-1 : Int) else m the) = m the := if_neg (by simp)
                  have hH : fixIndices (fun j => if j ∈ rg ∧ j ≠ the ∧ m j = 0 then -1 else m j) rg
                      (Function.update H the { H the with integral := (List.map (fun j => (H j).integral)
                        (rg.filter (fun j => decide (j = the ∨ m j = 0)))).sum, mult := (H the).mult -
                        (rg.filter fun j => decide (j ≠ the ∧ m j = 0)).length, idx := 0, merged := true }) the =
                      { H the with integral := (rg.map fun j => (H j).integral).sum, mult := 1, idx := 0, merged := true } := by
                    unfold fixIndices
                    dsimp only
                    rw [hlen]
                    rw [(fix_go _ _ rg hnd 0 _ the).2 hmem (by rw [hthe]; exact h0), Function.update_self, hall]
                    have htw : ((rg.takeWhile (· ≠ the)).filter fun h => decide (0 ≤ (if h ∈ rg ∧ h ≠ the ∧ m h = 0 then (-1 : Int) else m h))) = [] := by
                      rw [List.filter_eq_nil_iff]
                      intro j hj
                      have hjr : j ∈ rg := (List.takeWhile_sublist _).subset hj
                      have hne : j ≠ the := by
                        have hsat := List.all_takeWhile (p := fun x => decide (x ≠ the)) (l := rg)
                        simpa using List.all_eq_true.mp hsat j hj
                      rw [hm' j hjr hne]
                      simp
                    rw [htw]
                    rfl
                  refine ⟨fun j hj hne => ⟨hfree j hj hne, hm' j hj hne⟩, ?_, hthe, hH, ?_, ?_⟩
                  · intro j hj
                    refine ⟨?_, if_neg (by tauto)⟩
                    unfold fixIndices
                    dsimp only
                    rw [(fix_go _ _ rg hnd 0 _ j).1 (Or.inl hj), Function.update_of_ne (by rintro rfl; exact hj hmem)]
                  · intro j hj
                    by_cases hjt : j = the
                    · subst hjt; exact ⟨rfl, rfl, rfl⟩
                    · have hj0 := hfree j hj hjt
                      simp at c7
                      have := c7 j hj (by omega)
                      exact ⟨this.2.1.2, this.2.1.1, this.1⟩
                  · unfold multiplet
                    rw [hH]
                    rfl

/-- C278: only hits that exist are merged. -/
theorem C278_exists (H : Nat → MHit) (n : Nat) (m : Nat → Int) (avail : Nat → Bool) (the : Nat) (z : Bool) (hn : 0 < n)
    (h : (mergeHits H n m avail the z).1 = true) : the < n := by
  by_contra hc
  unfold mergeHits at h
  rw [if_pos (by omega)] at h
  cases h

/-- C278 (refuted): if the summed signal is zero, the other hits of the multiplet are declared obsolete although nothing is
merged: their charge is lost. -/
theorem C278_refuted : ¬ ∀ (H : Nat → MHit) (n : Nat) (m : Nat → Int) (avail : Nat → Bool) (the : Nat) (z : Bool),
    (mergeHits H n m avail the z).1 = false → (mergeHits H n m avail the z).2.2 = m := by
  intro h
  have h1 := h (fun i => ⟨0, 5, 10, 2, i, 3, false⟩) 2 (fun _ => 0) (fun _ => true) 0 true (by decide +kernel)
  have h2 := congrFun h1 1
  revert h2
  decide +kernel

example : let r := mergeHits (fun i => ⟨0, 5, 10, 3, i, 3 + i, false⟩) 3 (fun _ => 0) (fun _ => true) 1 false
    r.1 = true ∧ r.2.1 1 = ⟨0, 5, 10, 1, 0, 12, true⟩ ∧ (List.range 3).map r.2.2 = [-1, 0, -1] := by decide +kernel

end Verif.CCrawl

import Verif.PrimVtx.Model
import Mathlib.Tactic.Ring
import Mathlib.Tactic.Linarith
import Mathlib.Tactic.LinearCombination
import Mathlib.Tactic.Push
import Mathlib.Data.List.GetD
import Mathlib.Tactic.FieldSimp
import Mathlib.Tactic.NormNum
import Mathlib.Algebra.BigOperators.Group.List.Basic

/-! # The vertices of tracks that come close: theorems -/

namespace Verif.PrimVtx

/-! ### C391: the points of closest approach -/

/-- Specification: square of the distance. -/
def dist2 (a b : V3) : ℚ := (a.x - b.x) ^ 2 + (a.y - b.y) ^ 2 + (a.z - b.z) ^ 2

/-- Specification: the point at a parameter of the straight line of a track. -/
def onLine (a : Track) (t : ℚ) : V3 := ⟨a.start.x + t * a.dir.x, a.start.y + t * a.dir.y, a.start.z + t * a.dir.z⟩

/-- Specification: the direction has length 1. -/
def Unit1 (a : Track) : Prop := a.dir.x ^ 2 + a.dir.y ^ 2 + a.dir.z ^ 2 = 1

theorem near_eq (w : ℚ) (a b : Track) (g : ℚ) (hg : gammavalue a.start b.start a.dir b.dir = some g) :
    near w a b = if 0 < w ∧ dist2 (onLine a (alphavalue g a.start b.start a.dir b.dir)) (onLine b g) < w ^ 2 ∧
        dist2 (onLine a (alphavalue g a.start b.start a.dir b.dir)) a.start < w ^ 2 then
      some (onLine a (alphavalue g a.start b.start a.dir b.dir), onLine b g) else none := by
  unfold near
  rw [hg]
  dsimp only
  have e1 : ∀ t, minDist2 t g a.start b.start a.dir b.dir = dist2 (onLine a t) (onLine b g) := by
    intro t; simp only [minDist2, dist2, onLine, dot, sub, add, smul]; ring
  have e2 : ∀ t, pointOn t a.start a.dir = onLine a t := fun t => rfl
  have e3 : pointOn g b.start b.dir = onLine b g := rfl
  have e4 : ∀ q : V3, dot (sub q a.start) (sub q a.start) = dist2 q a.start := by
    intro q; simp only [dist2, dot, sub]; ring
  rw [e1, e2, e3, e4]
  unfold lessThan
  have e5 : ∀ p q : ℚ, ((decide (0 < w ∧ p < w * w) && decide (0 < w ∧ q < w * w)) = true) ↔ (0 < w ∧ p < w ^ 2 ∧ q < w ^ 2) := by
    intro p q
    rw [sq]
    simp only [Bool.and_eq_true, decide_eq_true_eq]
    constructor
    · rintro ⟨⟨h, h1⟩, _, h2⟩; exact ⟨h, h1, h2⟩
    · rintro ⟨h, h1, h2⟩; exact ⟨⟨h, h1⟩, h, h2⟩
  by_cases h : 0 < w ∧ dist2 (onLine a (alphavalue g a.start b.start a.dir b.dir)) (onLine b g) < w ^ 2 ∧
        dist2 (onLine a (alphavalue g a.start b.start a.dir b.dir)) a.start < w ^ 2
  · rw [if_pos h, if_pos ((e5 _ _).mpr h)]
  · rw [if_neg h, if_neg (fun hh => h ((e5 _ _).mp hh))]

/-- Specification: `s` and `t` are parameters of a closest pair of points of the two lines. -/
def Closest (a b : Track) (s t : ℚ) : Prop := ∀ s' t', dist2 (onLine a s) (onLine b t) ≤ dist2 (onLine a s') (onLine b t')

theorem closest_of (a b : Track) (ha : Unit1 a) (hb : Unit1 b) (g : ℚ) (hg : gammavalue a.start b.start a.dir b.dir = some g) :
    Closest a b (alphavalue g a.start b.start a.dir b.dir) g := by
  intro s' t'
  unfold gammavalue at hg
  split at hg
  · exact absurd hg (by simp)
  · next hne =>
    have hg' := (Option.some.inj hg).symm
    rw [eq_div_iff hne] at hg'
    generalize hal : alphavalue g a.start b.start a.dir b.dir = al
    unfold alphavalue at hal
    unfold Unit1 at ha hb
    simp only [dot] at hg' hal
    simp only [dist2, onLine]
    have h1 : (a.start.x + al * a.dir.x - (b.start.x + g * b.dir.x)) * a.dir.x + (a.start.y + al * a.dir.y - (b.start.y + g * b.dir.y)) * a.dir.y +
        (a.start.z + al * a.dir.z - (b.start.z + g * b.dir.z)) * a.dir.z = 0 := by
      linear_combination al * ha - hal
    have h2 : (a.start.x + al * a.dir.x - (b.start.x + g * b.dir.x)) * b.dir.x + (a.start.y + al * a.dir.y - (b.start.y + g * b.dir.y)) * b.dir.y +
        (a.start.z + al * a.dir.z - (b.start.z + g * b.dir.z)) * b.dir.z = 0 := by
      linear_combination -hg' - g * hb - (a.dir.x * b.dir.x + a.dir.y * b.dir.y + a.dir.z * b.dir.z) * hal
    have key : (a.start.x + s' * a.dir.x - (b.start.x + t' * b.dir.x)) ^ 2 + (a.start.y + s' * a.dir.y - (b.start.y + t' * b.dir.y)) ^ 2 +
        (a.start.z + s' * a.dir.z - (b.start.z + t' * b.dir.z)) ^ 2 =
        (a.start.x + al * a.dir.x - (b.start.x + g * b.dir.x)) ^ 2 + (a.start.y + al * a.dir.y - (b.start.y + g * b.dir.y)) ^ 2 +
        (a.start.z + al * a.dir.z - (b.start.z + g * b.dir.z)) ^ 2 +
        (((s' - al) * a.dir.x - (t' - g) * b.dir.x) ^ 2 + ((s' - al) * a.dir.y - (t' - g) * b.dir.y) ^ 2 + ((s' - al) * a.dir.z - (t' - g) * b.dir.z) ^ 2) := by
      linear_combination 2 * (s' - al) * h1 - 2 * (t' - g) * h2
    rw [key]
    nlinarith [sq_nonneg ((s' - al) * a.dir.x - (t' - g) * b.dir.x), sq_nonneg ((s' - al) * a.dir.y - (t' - g) * b.dir.y), sq_nonneg ((s' - al) * a.dir.z - (t' - g) * b.dir.z)]

/-- C391: two tracks with unit directions that are not parallel are close exactly if the closest points of their lines are nearer than the window and the one on the first line is nearer than the window to
the start of the first track; the points returned are these closest points.  Parallel tracks are never close. -/
theorem C391_close (w : ℚ) (a b : Track) (ha : Unit1 a) (hb : Unit1 b) :
    (dot a.dir b.dir ^ 2 ≠ 1 → ∃ s t, Closest a b s t ∧
      near w a b = if 0 < w ∧ dist2 (onLine a s) (onLine b t) < w ^ 2 ∧ dist2 (onLine a s) a.start < w ^ 2 then some (onLine a s, onLine b t) else none) ∧
    (dot a.dir b.dir ^ 2 = 1 → near w a b = none) := by
  constructor
  · intro h
    have hne : ¬ 1 - dot a.dir b.dir * dot a.dir b.dir = 0 := fun hh => h (by rw [sq]; linarith)
    have hg := show gammavalue a.start b.start a.dir b.dir = some _ from if_neg hne
    exact ⟨_, _, closest_of a b ha hb _ hg, near_eq w a b _ hg⟩
  · intro h
    have : gammavalue a.start b.start a.dir b.dir = none := if_pos (by rw [← sq, h]; norm_num)
    unfold near
    rw [this]

/-- Tracks along the axes, for examples. -/
def tX (x y z : ℚ) : Track := ⟨⟨x, y, z⟩, ⟨1, 0, 0⟩⟩
def tY (x y z : ℚ) : Track := ⟨⟨x, y, z⟩, ⟨0, 1, 0⟩⟩
def tZ (x y z : ℚ) : Track := ⟨⟨x, y, z⟩, ⟨0, 0, 1⟩⟩

example : near 2 (tX 0 0 0) (tY 1 5 1) = some (⟨1, 0, 0⟩, ⟨1, 0, 1⟩) ∧ near 2 (tX 0 0 0) (tX 0 1 0) = none := by decide +kernel

/-- C390: if two tracks are close and the point on the second is nearer than the window to its start as well, they are close in the other order, with the same points. -/
theorem C390_sym_partial (w : ℚ) (a b : Track) (p q : V3) (h : near w a b = some (p, q)) (hq : dist2 q b.start < w ^ 2) : near w b a = some (q, p) := by
  cases hg : gammavalue a.start b.start a.dir b.dir with
  | none => unfold near at h; rw [hg] at h; simp at h
  | some g =>
    rw [near_eq w a b g hg] at h
    have hne : ¬ 1 - dot a.dir b.dir * dot a.dir b.dir = 0 := by
      intro hh
      unfold gammavalue at hg
      rw [if_pos hh] at hg
      simp at hg
    have hgv : g = (dot a.start b.dir - dot b.start b.dir + dot a.dir b.dir * dot b.start a.dir - dot a.dir b.dir * dot a.start a.dir) / (1 - dot a.dir b.dir * dot a.dir b.dir) := by
      unfold gammavalue at hg
      rw [if_neg hne] at hg
      exact (Option.some.inj hg).symm
    have hc : dot b.dir a.dir = dot a.dir b.dir := by unfold dot; ring
    generalize hal : alphavalue g a.start b.start a.dir b.dir = al at h
    have hal' : al = g * dot a.dir b.dir + dot b.start a.dir - dot a.start a.dir := hal.symm
    have hgb : gammavalue b.start a.start b.dir a.dir = some al := by
      unfold gammavalue
      rw [eq_div_iff hne] at hgv
      rw [hc, if_neg hne, hal']
      congr 1
      rw [div_eq_iff hne]
      linear_combination (-dot a.dir b.dir) * hgv
    have halb : alphavalue al b.start a.start b.dir a.dir = g := by
      unfold alphavalue
      rw [hc, hal']
      rw [eq_div_iff hne] at hgv
      linear_combination -hgv
    rw [near_eq w b a al hgb, halb]
    by_cases hcond : 0 < w ∧ dist2 (onLine a al) (onLine b g) < w ^ 2 ∧ dist2 (onLine a al) a.start < w ^ 2
    · rw [if_pos hcond] at h
      obtain ⟨rfl, rfl⟩ := Prod.mk.inj (Option.some.inj h)
      have hs : dist2 (onLine b g) (onLine a al) = dist2 (onLine a al) (onLine b g) := by unfold dist2; ring
      rw [if_pos ⟨hcond.1, by rw [hs]; exact hcond.2.1, hq⟩]
    · rw [if_neg hcond] at h; simp at h

example : near 2 (tX 0 0 0) (tY 1 1 1) = some (⟨1, 0, 0⟩, ⟨1, 0, 1⟩) ∧ dist2 ⟨1, 0, 1⟩ (tY 1 1 1).start < 2 ^ 2 := by decide +kernel

/-- C390: whether two tracks are close depends on their order: the start of the second track may be any distance away from the vertex. -/
theorem C390_sym_refuted : (near 2 (tX 0 0 0) (tY 1 500 1)).isSome = true ∧ (near 2 (tY 1 500 1) (tX 0 0 0)).isSome = false := by decide +kernel

/-! ### Vertices as lists of tracks with their points -/

abbrev C := List (List (Nat × V3))

/-- The state for a list of vertices. -/
def toSt (c : C) : St := ⟨c.map fun v => v.map Prod.fst, c.map fun v => v.map Prod.snd⟩

/-- The tracks of a vertex. -/
def trs (v : List (Nat × V3)) : List Nat := v.map Prod.fst

theorem isIn_iff (a : Nat) (c : C) : isIn a (toSt c).ids = true ↔ ∃ v ∈ c, a ∈ trs v := by
  simp [isIn, toSt, trs]

theorem getD_ids (c : C) (k : Nat) : (toSt c).ids.getD k [] = trs (c.getD k []) := by
  simp only [toSt, trs, List.getD_eq_getElem?_getD, List.getElem?_map]
  cases c[k]? <;> rfl

theorem indexIn_some (a b : Nat) (c : C) (k : Nat) (h : indexIn a b (toSt c).ids = some k) : ∃ hk : k < c.length, a ∈ trs c[k] ∨ b ∈ trs c[k] := by
  have hlen : (toSt c).ids.length = c.length := by simp [toSt]
  have key : ∀ n, n ≤ c.length → ∀ k, (List.range n).foldl (fun index i => if ((toSt c).ids.getD i []).contains a || ((toSt c).ids.getD i []).contains b then some i else index) none = some k →
      ∃ hk : k < c.length, a ∈ trs c[k] ∨ b ∈ trs c[k] := by
    intro n
    induction n with
    | zero => intro _ k h; simp at h
    | succ n ih =>
      intro hn k h
      rw [List.range_succ, List.foldl_append] at h
      simp only [List.foldl_cons, List.foldl_nil] at h
      split at h
      · next hc =>
        obtain rfl := Option.some.inj h
        refine ⟨by omega, ?_⟩
        rw [getD_ids, List.getD_eq_getElem _ _ (by omega)] at hc
        simpa using hc
      · exact ih (by omega) k h
  unfold indexIn at h
  rw [hlen] at h
  exact key _ (le_refl _) k h

theorem indexIn_none (a b : Nat) (c : C) (h : indexIn a b (toSt c).ids = none) : ∀ v ∈ c, ¬ (a ∈ trs v ∨ b ∈ trs v) := by
  have hlen : (toSt c).ids.length = c.length := by simp [toSt]
  have key : ∀ n, n ≤ c.length → (List.range n).foldl (fun index i => if ((toSt c).ids.getD i []).contains a || ((toSt c).ids.getD i []).contains b then some i else index) none = none →
      ∀ k, (hk : k < n) → (hk' : k < c.length) → ¬ (a ∈ trs c[k] ∨ b ∈ trs c[k]) := by
    intro n
    induction n with
    | zero => intro _ _ k hk; omega
    | succ n ih =>
      intro hn h k hk hk'
      rw [List.range_succ, List.foldl_append] at h
      simp only [List.foldl_cons, List.foldl_nil] at h
      split at h
      · exact absurd h (by simp)
      · next hc =>
        rcases Nat.lt_or_ge k n with hlt | hge
        · exact ih (by omega) h k hlt hk'
        · obtain rfl : k = n := by omega
          rw [getD_ids, List.getD_eq_getElem _ _ hk'] at hc
          simpa using hc
  unfold indexIn at h
  rw [hlen] at h
  intro v hv
  obtain ⟨k, hk, rfl⟩ := List.getElem_of_mem hv
  exact key _ (le_refl _) h k hk hk

/-- Adding to a vertex. -/
def cadd (c : C) (k : Nat) (m : Nat × V3) : C := if m.1 ∈ trs (c.getD k []) then c else c.modify k (· ++ [m])

theorem map_modify {α β : Type} (f : α → β) (g : α → α) (g' : β → β) (h : ∀ x, f (g x) = g' (f x)) (l : List α) : ∀ k, (l.modify k g).map f = (l.map f).modify k g' := by
  induction l with
  | nil => intro k; cases k <;> simp
  | cons a l ih =>
    intro k
    cases k with
    | zero => simp [h]
    | succ k => simp [ih]

theorem addTo_toSt (c : C) (k a : Nat) (p : V3) : addTo (toSt c) k a p = toSt (cadd c k (a, p)) := by
  unfold addTo cadd
  rw [getD_ids]
  by_cases h : a ∈ trs (c.getD k [])
  · rw [if_pos (by simpa using h), if_pos h]
  · rw [if_neg (by simpa using h), if_neg h]
    show St.mk _ _ = St.mk _ _
    rw [map_modify (fun v => v.map Prod.fst) (· ++ [(a, p)]) (· ++ [a]) (by intro x; simp), map_modify (fun v => v.map Prod.snd) (· ++ [(a, p)]) (· ++ [p]) (by intro x; simp)]
    rfl

theorem cadd_length (c : C) (k : Nat) (m : Nat × V3) : (cadd c k m).length = c.length := by unfold cadd; split <;> simp

/-- The vertices after adding: those before, with the new member at the end of the given one. -/
theorem cadd_get (c : C) (k : Nat) (m : Nat × V3) (i : Nat) (hi : i < (cadd c k m).length) (hi' : i < c.length) :
    (cadd c k m)[i] = if i = k ∧ m.1 ∉ trs c[i] then c[i] ++ [m] else c[i] := by
  unfold cadd
  by_cases hik : i = k
  · subst hik
    by_cases h : m.1 ∈ trs c[i]
    · simp [hi', h]
    · simp [hi', h]
  · by_cases h : m.1 ∈ trs (c.getD k [])
    · simp only [h, if_true, hik, false_and, if_false]
    · have : k ≠ i := fun e => hik e.symm
      simp only [h, if_false, hik, false_and]
      rw [List.getElem_modify]
      simp [this]

/-- One pair on lists of vertices. -/
def cstep (w : ℚ) (tr : List Track) (c : C) (p : Nat × Nat) : C :=
  match near w (tr.getD p.1 Track.none) (tr.getD p.2 Track.none) with
  | none => c
  | some (t1, t2) =>
    if (∀ v ∈ c, p.1 ∉ trs v) ∧ (∀ v ∈ c, p.2 ∉ trs v) then c ++ [[(p.1, t1), (p.2, t2)]]
    else
      match indexIn p.1 p.2 (toSt c).ids with
      | none => c
      | some k => cadd (cadd c k (p.1, t1)) k (p.2, t2)

theorem step_toSt (w : ℚ) (tr : List Track) (c : C) (p : Nat × Nat) : step w tr (toSt c) p = toSt (cstep w tr c p) := by
  unfold step cstep
  cases near w (tr.getD p.1 Track.none) (tr.getD p.2 Track.none) with
  | none => rfl
  | some q =>
    obtain ⟨t1, t2⟩ := q
    dsimp only
    have e : ∀ a, isIn a (toSt c).ids = false ↔ ∀ v ∈ c, a ∉ trs v := by
      intro a
      rw [← Bool.not_eq_true, isIn_iff]
      push Not
      rfl
    by_cases h : (∀ v ∈ c, p.1 ∉ trs v) ∧ ∀ v ∈ c, p.2 ∉ trs v
    · rw [if_pos h, if_pos ⟨(e _).mpr h.1, (e _).mpr h.2⟩]
      simp [toSt]
    · rw [if_neg h, if_neg (fun hh => h ⟨(e _).mp hh.1, (e _).mp hh.2⟩)]
      cases indexIn p.1 p.2 (toSt c).ids with
      | none => rfl
      | some k => dsimp only; rw [addTo_toSt, addTo_toSt]

end Verif.PrimVtx

import Verif.Basic
import Mathlib.Data.List.Basic
import Mathlib.Algebra.Order.Field.Rat
/-!
# Model of `genf::GFTrackCand` (C51, C72)

Source: `/repo/larreco/Genfit/GFTrackCand.{h,cxx}`. Only the hit lists; not modelled: curvature, dip, seeds, PDG code, printing.
Counts do not overflow 32 bits.
-/
namespace Verif.TrackCand
open Verif

/-! ## Model -/

/-- the four parallel vectors, GFTrackCand.h:201-204 -/
structure Cand where
  det : List Nat
  hit : List Nat
  plane : List Nat
  rho : List ℚ
deriving DecidableEq

/-- default constructor, GFTrackCand.cxx:28-29 -/
def Cand.empty : Cand := ⟨[], [], [], []⟩

/-- constructor without ordering parameters, GFTrackCand.cxx:33-50 -/
def ctor5 (det hit : List Nat) : Res Cand :=
  if det.length ≠ hit.length then .throw else .ok ⟨det, hit, [], List.replicate det.length 0⟩

/-- constructor with ordering parameters, GFTrackCand.cxx:51-72: the second size check repeats the first -/
def ctor6 (det hit : List Nat) (rho : List ℚ) : Res Cand :=
  if det.length ≠ hit.length then .throw
  else if det.length ≠ hit.length then .throw
  else .ok ⟨det, hit, [], rho⟩

/-- `addHit`, GFTrackCand.cxx:74-83 -/
def addHit (d h : Nat) (r : ℚ) (p : Nat) (c : Cand) : Cand := ⟨c.det ++ [d], c.hit ++ [h], c.plane ++ [p], c.rho ++ [r]⟩

/-- `reset`, GFTrackCand.cxx:100-104 -/
def reset (c : Cand) : Cand := { c with det := [], hit := [] }

/-- `vector::at` -/
def at' {α : Type} (l : List α) (i : Nat) : Res α := match l[i]? with | some a => .ok a | none => .throw

/-- `getNHits`, GFTrackCand.h:134 -/
def nHits (c : Cand) : Nat := c.det.length

/-- `getHit(i, detId, hitId)`, GFTrackCand.h:93-101 -/
def getHit (c : Cand) (i : Nat) : Res (Nat × Nat) :=
  if i ≥ nHits c then .throw else do pure (← at' c.det i, ← at' c.hit i)

/-- `getHit(i, detId, hitId, rho)`, GFTrackCand.h:105-116 -/
def getHitRho (c : Cand) (i : Nat) : Res (Nat × Nat × ℚ) :=
  if i ≥ nHits c then .throw else do pure (← at' c.det i, ← at' c.hit i, ← at' c.rho i)

/-- `getHitWithPlane`, GFTrackCand.h:120-132 -/
def getHitPlane (c : Cand) (i : Nat) : Res (Nat × Nat × Nat) :=
  if i ≥ nHits c then .throw else do pure (← at' c.det i, ← at' c.hit i, ← at' c.plane i)

/-- `GetHitIDs`, GFTrackCand.cxx:85-98 -/
def getHitIDs (c : Cand) (detId : Int) : List Nat :=
  if detId < 0 then c.hit
  else (List.range c.hit.length).filterMap (fun i => if c.det.getD i 0 = detId.toNat then some (c.hit.getD i 0) else none)

/-- `HitInTrack`, GFTrackCand.cxx:106-113 -/
def hitInTrack (c : Cand) (d h : Nat) : Bool := (List.range c.det.length).any (fun i => decide (d = c.det.getD i 0) && decide (h = c.hit.getD i 0))

/-- `operator==`, GFTrackCand.cxx:115-121 -/
def eqCand (l r : Cand) : Bool := if nHits l ≠ nHits r then false else decide (l.det = r.det) && decide (l.hit = r.hit)

/-- the loop of `append`, GFTrackCand.cxx:143-146, when `rhs` is another object: hits `i`, `i+1`, ... -/
def appendLoop (rhs : Cand) : Nat → Nat → Cand → Res Cand
  | 0, _, c => .ok c
  | n + 1, i, c => do
    let t ← getHitRho rhs i
    appendLoop rhs n (i + 1) (addHit t.1 t.2.1 t.2.2 0 c)

/-- `append`, GFTrackCand.cxx:139-147 -/
def append (rhs c : Cand) : Res Cand := appendLoop rhs (nHits rhs) 0 c

/-- `append` when `rhs` is the object itself; `none`: still looping after `fuel` rounds -/
def appendSelf : Nat → Nat → Cand → Option (Res Cand)
  | 0, i, c => if i < nHits c then none else some (.ok c)
  | fuel + 1, i, c =>
    if i < nHits c then
      match getHitRho c i with
      | .ok t => appendSelf fuel (i + 1) (addHit t.1 t.2.1 t.2.2 0 c)
      | .throw => some .throw
      | .ub => some .ub
    else some (.ok c)

/-! ## Specification: histories -/

/-- a hit as the caller added it -/
structure Entry where
  det : Nat
  hit : Nat
  rho : ℚ
  plane : Nat
deriving DecidableEq

/-- hits given to a constructor -/
def entries (det hit : List Nat) (rho : List ℚ) : List Entry := (det.zip (hit.zip rho)).map (fun t => ⟨t.1, t.2.1, t.2.2, 0⟩)

/-- `Built c l`: some history of calls leads to the object `c`, and since the last reset the hits `l` were added to it -/
inductive Built : Cand → List Entry → Prop
  | new : Built Cand.empty []
  | ctor5 {det hit c} : ctor5 det hit = .ok c → Built c (entries det hit (List.replicate det.length 0))
  | ctor6 {det hit rho c} : ctor6 det hit rho = .ok c → rho.length = det.length → Built c (entries det hit rho)
  | add {c l} (e : Entry) : Built c l → Built (addHit e.det e.hit e.rho e.plane c) (l ++ [e])
  | append {c l c' l' r} : Built c l → Built c' l' → append c' c = .ok r → Built r (l ++ l')
  | reset {c l} : Built c l → Built (reset c) []

/-! ## Proofs -/

theorem at'_some {α : Type} (l : List α) (i : Nat) (h : i < l.length) : at' l i = .ok l[i] := by
  unfold at'; rw [List.getElem?_eq_getElem h]

theorem appendLoop_ids (rhs : Cand) (hl : rhs.det.length = rhs.hit.length) (n : Nat) : ∀ i c r, i + n = rhs.det.length →
    appendLoop rhs n i c = .ok r → r.det = c.det ++ rhs.det.drop i ∧ r.hit = c.hit ++ rhs.hit.drop i := by
  induction n with
  | zero =>
    intro i c r hi h
    unfold appendLoop at h
    cases h
    rw [List.drop_eq_nil_of_le (by omega), List.drop_eq_nil_of_le (by omega)]; simp
  | succ n ih =>
    intro i c r hi h
    unfold appendLoop getHitRho nHits at h
    rw [if_neg (by omega), at'_some rhs.det i (by omega), at'_some rhs.hit i (by omega)] at h
    cases hr : at' rhs.rho i with
    | throw => rw [hr] at h; simp at h
    | ub => rw [hr] at h; simp at h
    | ok x =>
      rw [hr] at h
      simp only [Res.bind_ok, Res.pure_eq] at h
      obtain ⟨h1, h2⟩ := ih (i + 1) _ r (by omega) h
      rw [h1, h2]
      simp only [addHit, List.append_assoc, List.singleton_append]
      rw [List.drop_eq_getElem_cons (show i < rhs.det.length by omega), List.drop_eq_getElem_cons (show i < rhs.hit.length by omega)]
      exact ⟨rfl, rfl⟩

theorem entries_det (det hit : List Nat) (rho : List ℚ) (h1 : det.length = hit.length) (h2 : rho.length = det.length) :
    (entries det hit rho).map (·.det) = det ∧ (entries det hit rho).map (·.hit) = hit ∧ (entries det hit rho).map (·.rho) = rho := by
  unfold entries
  have hz : (hit.zip rho).length = det.length := by simp; omega
  refine ⟨?_, ?_, ?_⟩
  · rw [List.map_map]
    show (det.zip (hit.zip rho)).map Prod.fst = det
    rw [List.map_fst_zip (by omega)]
  · rw [List.map_map]
    show (det.zip (hit.zip rho)).map (Prod.fst ∘ Prod.snd) = hit
    rw [← List.map_map, List.map_snd_zip (by omega), List.map_fst_zip (by omega)]
  · rw [List.map_map]
    show (det.zip (hit.zip rho)).map (Prod.snd ∘ Prod.snd) = rho
    rw [← List.map_map, List.map_snd_zip (by omega), List.map_snd_zip (by omega)]

/-- detector and hit numbers are always right -/
theorem built_ids {c : Cand} {l : List Entry} (h : Built c l) : c.det = l.map (·.det) ∧ c.hit = l.map (·.hit) := by
  induction h with
  | new => exact ⟨rfl, rfl⟩
  | @ctor5 det hit c h =>
    unfold TrackCand.ctor5 at h
    by_cases hl : det.length ≠ hit.length
    · rw [if_pos hl] at h; cases h
    · rw [if_neg hl] at h; cases h
      obtain ⟨a, b, -⟩ := entries_det det hit (List.replicate det.length 0) (by omega) (by simp)
      exact ⟨a.symm, b.symm⟩
  | @ctor6 det hit rho c h hr =>
    unfold TrackCand.ctor6 at h
    by_cases hl : det.length ≠ hit.length
    · rw [if_pos hl] at h; cases h
    · rw [if_neg hl, if_neg hl] at h; cases h
      obtain ⟨a, b, -⟩ := entries_det det hit rho (by omega) hr
      exact ⟨a.symm, b.symm⟩
  | add e _ ih => simp [addHit, ih.1, ih.2]
  | @append c l c' l' r _ _ h ih ih' =>
    have hl : c'.det.length = c'.hit.length := by rw [ih'.1, ih'.2]; simp
    obtain ⟨a, b⟩ := appendLoop_ids c' hl (nHits c') 0 c r (by simp [nHits]) h
    rw [a, b]
    simp [ih.1, ih.2, ih'.1, ih'.2]
  | reset _ _ => exact ⟨rfl, rfl⟩

theorem filterMap_range_from (l : List Entry) (d : Nat) : ∀ (pre : List Entry),
    (List.range' pre.length l.length).filterMap (fun i => if ((pre ++ l).map (·.det)).getD i 0 = d then some (((pre ++ l).map (·.hit)).getD i 0) else none) =
      (l.filter (fun e => decide (e.det = d))).map (·.hit) := by
  induction l with
  | nil => intro pre; simp
  | cons e l ih =>
    intro pre
    have h := ih (pre ++ [e])
    rw [List.append_assoc, List.singleton_append, List.length_append, List.length_singleton] at h
    rw [List.length_cons, List.range'_succ, List.filterMap_cons, h]
    have e1 : ((pre ++ e :: l).map (·.det)).getD pre.length 0 = e.det := by simp [List.getD_eq_getElem?_getD]
    have e2 : ((pre ++ e :: l).map (·.hit)).getD pre.length 0 = e.hit := by simp [List.getD_eq_getElem?_getD]
    rw [e1, e2]
    by_cases hd : e.det = d <;> simp [hd]

theorem filterMap_range (l : List Entry) (d : Nat) :
    (List.range l.length).filterMap (fun i => if (l.map (·.det)).getD i 0 = d then some ((l.map (·.hit)).getD i 0) else none) =
      (l.filter (fun e => decide (e.det = d))).map (·.hit) := by
  have := filterMap_range_from l d []
  simpa [List.range_eq_range'] using this

/-- C51, number of hits, detector and hit numbers: right for every history. -/
theorem C51_ids (c : Cand) (l : List Entry) (h : Built c l) :
    nHits c = l.length ∧
    (∀ i, getHit c i = match l[i]? with | some e => .ok (e.det, e.hit) | none => .throw) ∧
    (∀ d : Nat, getHitIDs c d = (l.filter (fun e => decide (e.det = d))).map (·.hit)) ∧
    (∀ d : Int, d < 0 → getHitIDs c d = l.map (·.hit)) ∧
    (∀ d k, hitInTrack c d k = true ↔ ∃ e ∈ l, e.det = d ∧ e.hit = k) := by
  obtain ⟨h1, h2⟩ := built_ids h
  refine ⟨by simp [nHits, h1], fun i => ?_, fun d => ?_, fun d hd => by unfold getHitIDs; rw [if_pos hd, h2], fun d k => ?_⟩
  · unfold getHit nHits
    by_cases hi : i < l.length
    · rw [if_neg (by rw [h1]; simpa using hi), List.getElem?_eq_getElem hi, at'_some c.det i (by rw [h1]; simpa using hi),
        at'_some c.hit i (by rw [h2]; simpa using hi)]
      simp only [Res.bind_ok, Res.pure_eq, h1, h2, List.getElem_map]
    · rw [if_pos (by rw [h1]; simpa using hi), List.getElem?_eq_none (by omega)]
  · unfold getHitIDs
    rw [if_neg (by omega), h1, h2, Int.toNat_natCast, List.length_map]
    exact filterMap_range l d
  · unfold hitInTrack
    rw [List.any_eq_true]
    simp only [List.mem_range, Bool.and_eq_true, decide_eq_true_eq]
    constructor
    · rintro ⟨i, hi, hd, hk⟩
      rw [h1, List.length_map] at hi
      refine ⟨l[i], List.getElem_mem hi, ?_, ?_⟩
      · rw [hd, h1]; simp [List.getD_eq_getElem?_getD, hi]
      · rw [hk, h2]; simp [List.getD_eq_getElem?_getD, hi]
    · rintro ⟨e, he, hd, hk⟩
      obtain ⟨i, hi, rfl⟩ := List.mem_iff_getElem.1 he
      refine ⟨i, by rw [h1]; simpa using hi, ?_, ?_⟩
      · rw [← hd, h1]; simp [List.getD_eq_getElem?_getD, hi]
      · rw [← hk, h2]; simp [List.getD_eq_getElem?_getD, hi]

/-- C51: a concrete history meets the hypothesis of `C51_ids`. -/
example : Built (addHit 1 7 (1/2) 2 (addHit 0 5 (1/3) 1 Cand.empty)) [⟨0, 5, 1/3, 1⟩, ⟨1, 7, 1/2, 2⟩] :=
  .add ⟨1, 7, 1/2, 2⟩ (.add ⟨0, 5, 1/3, 1⟩ .new)

/-- C51, equality: two candidates are equal exactly if the same detector and hit numbers were added in the same order -/
theorem C51_eq (c c' : Cand) (l l' : List Entry) (h : Built c l) (h' : Built c' l') :
    eqCand c c' = true ↔ l.map (fun e => (e.det, e.hit)) = l'.map (fun e => (e.det, e.hit)) := by
  obtain ⟨h1, h2⟩ := built_ids h
  obtain ⟨h1', h2'⟩ := built_ids h'
  have key : l.map (fun e => (e.det, e.hit)) = l'.map (fun e => (e.det, e.hit)) ↔ c.det = c'.det ∧ c.hit = c'.hit := by
    rw [h1, h2, h1', h2']
    constructor
    · intro hh
      have a := congrArg (List.map Prod.fst) hh
      have b := congrArg (List.map Prod.snd) hh
      rw [List.map_map, List.map_map] at a b
      exact ⟨a, b⟩
    · rintro ⟨a, b⟩
      have := congrArg₂ List.zip a b
      rw [List.zip_map', List.zip_map'] at this
      exact this
  rw [key]
  unfold eqCand nHits
  by_cases hn : c.det.length ≠ c'.det.length
  · rw [if_pos hn]
    constructor
    · intro hh; cases hh
    · rintro ⟨a, -⟩; exact absurd (by rw [a]) hn
  · rw [if_neg hn]; simp

example : eqCand (addHit 1 7 (1/2) 2 Cand.empty) (addHit 1 7 (1/3) 4 Cand.empty) = true := by decide +kernel

/-! ### Ordering parameters and planes -/

/-- histories that never call `reset` -/
inductive BuiltNR : Cand → List Entry → Prop
  | new : BuiltNR Cand.empty []
  | ctor5 {det hit c} : ctor5 det hit = .ok c → BuiltNR c (entries det hit (List.replicate det.length 0))
  | ctor6 {det hit rho c} : ctor6 det hit rho = .ok c → rho.length = det.length → BuiltNR c (entries det hit rho)
  | add {c l} (e : Entry) : BuiltNR c l → BuiltNR (addHit e.det e.hit e.rho e.plane c) (l ++ [e])
  | append {c l c' l' r} : BuiltNR c l → BuiltNR c' l' → append c' c = .ok r → BuiltNR r (l ++ l')

theorem BuiltNR.built {c : Cand} {l : List Entry} (h : BuiltNR c l) : Built c l := by
  induction h with
  | new => exact .new
  | ctor5 h => exact .ctor5 h
  | ctor6 h hr => exact .ctor6 h hr
  | add e _ ih => exact .add e ih
  | append _ _ h ih ih' => exact .append ih ih' h

theorem appendLoop_rho (rhs : Cand) (hl : rhs.det.length = rhs.hit.length) (hr : rhs.det.length = rhs.rho.length) (n : Nat) :
    ∀ i c, i + n = rhs.det.length → ∃ r, appendLoop rhs n i c = .ok r ∧ r.rho = c.rho ++ rhs.rho.drop i := by
  induction n with
  | zero =>
    intro i c hi
    exact ⟨c, rfl, by rw [List.drop_eq_nil_of_le (by omega)]; simp⟩
  | succ n ih =>
    intro i c hi
    unfold appendLoop getHitRho nHits
    rw [if_neg (by omega), at'_some rhs.det i (by omega), at'_some rhs.hit i (by omega), at'_some rhs.rho i (by omega)]
    simp only [Res.bind_ok, Res.pure_eq]
    obtain ⟨r, h1, h2⟩ := ih (i + 1) (addHit rhs.det[i] rhs.hit[i] rhs.rho[i] 0 c) (by omega)
    refine ⟨r, h1, ?_⟩
    rw [h2]
    simp only [addHit, List.append_assoc, List.singleton_append]
    rw [List.drop_eq_getElem_cons (show i < rhs.rho.length by omega)]

theorem builtNR_rho {c : Cand} {l : List Entry} (h : BuiltNR c l) : c.rho = l.map (·.rho) := by
  induction h with
  | new => rfl
  | @ctor5 det hit c h =>
    unfold TrackCand.ctor5 at h
    by_cases hl : det.length ≠ hit.length
    · rw [if_pos hl] at h; cases h
    · rw [if_neg hl] at h; cases h
      exact (entries_det det hit (List.replicate det.length 0) (by omega) (by simp)).2.2.symm
  | @ctor6 det hit rho c h hr =>
    unfold TrackCand.ctor6 at h
    by_cases hl : det.length ≠ hit.length
    · rw [if_pos hl] at h; cases h
    · rw [if_neg hl, if_neg hl] at h; cases h
      exact (entries_det det hit rho (by omega) hr).2.2.symm
  | add e _ ih => simp [addHit, ih]
  | @append c l c' l' r _ h' h ih ih' =>
    obtain ⟨a, b⟩ := built_ids h'.built
    obtain ⟨r', e1, e2⟩ := appendLoop_rho c' (by rw [a, b]; simp) (by rw [a, ih']; simp) (nHits c') 0 c (by simp [nHits])
    have : r' = r := by
      have : (Res.ok r' : Res Cand) = .ok r := by rw [← e1, ← h]; rfl
      cases this; rfl
    subst this
    rw [e2, ih, ih']; simp

/-- C51, ordering parameters: right as long as `reset` is not called. Missing: histories with `reset` (false, see `C51_rho_refuted`). -/
theorem C51_rho_partial (c : Cand) (l : List Entry) (h : BuiltNR c l) (i : Nat) :
    getHitRho c i = match l[i]? with | some e => .ok (e.det, e.hit, e.rho) | none => .throw := by
  obtain ⟨h1, h2⟩ := built_ids h.built
  have h3 := builtNR_rho h
  unfold getHitRho nHits
  by_cases hi : i < l.length
  · rw [if_neg (by rw [h1]; simpa using hi), List.getElem?_eq_getElem hi, at'_some c.det i (by rw [h1]; simpa using hi),
      at'_some c.hit i (by rw [h2]; simpa using hi), at'_some c.rho i (by rw [h3]; simpa using hi)]
    simp only [Res.bind_ok, Res.pure_eq, h1, h2, h3, List.getElem_map]
  · rw [if_pos (by rw [h1]; simpa using hi), List.getElem?_eq_none (by omega)]

/-- C51: appending another candidate built without `reset` never throws -/
theorem C51_append_total (c c' : Cand) (l' : List Entry) (h' : BuiltNR c' l') : ∃ r, append c' c = .ok r := by
  obtain ⟨a, b⟩ := built_ids h'.built
  obtain ⟨r', e1, -⟩ := appendLoop_rho c' (by rw [a, b]; simp) (by rw [a, builtNR_rho h']; simp) (nHits c') 0 c (by simp [nHits])
  exact ⟨r', e1⟩

/-- histories of `addHit` only -/
inductive BuiltAdd : Cand → List Entry → Prop
  | new : BuiltAdd Cand.empty []
  | add {c l} (e : Entry) : BuiltAdd c l → BuiltAdd (addHit e.det e.hit e.rho e.plane c) (l ++ [e])

theorem builtAdd_plane {c : Cand} {l : List Entry} (h : BuiltAdd c l) : Built c l ∧ c.plane = l.map (·.plane) := by
  induction h with
  | new => exact ⟨.new, rfl⟩
  | add e _ ih => exact ⟨.add e ih.1, by simp [addHit, ih.2]⟩

/-- C51, planes: right if the candidate was default-constructed and only filled by `addHit`. Missing: the other histories (false, see
`C51_plane_append_refuted`, `C51_plane_ctor_refuted`, `C51_plane_reset_refuted`). -/
theorem C51_plane_partial (c : Cand) (l : List Entry) (h : BuiltAdd c l) (i : Nat) :
    getHitPlane c i = match l[i]? with | some e => .ok (e.det, e.hit, e.plane) | none => .throw := by
  obtain ⟨hb, h3⟩ := builtAdd_plane h
  obtain ⟨h1, h2⟩ := built_ids hb
  unfold getHitPlane nHits
  by_cases hi : i < l.length
  · rw [if_neg (by rw [h1]; simpa using hi), List.getElem?_eq_getElem hi, at'_some c.det i (by rw [h1]; simpa using hi),
      at'_some c.hit i (by rw [h2]; simpa using hi), at'_some c.plane i (by rw [h3]; simpa using hi)]
    simp only [Res.bind_ok, Res.pure_eq, h1, h2, h3, List.getElem_map]
  · rw [if_pos (by rw [h1]; simpa using hi), List.getElem?_eq_none (by omega)]

example : BuiltAdd (addHit 1 7 (1/2) 2 Cand.empty) [⟨1, 7, 1/2, 2⟩] := .add ⟨1, 7, 1/2, 2⟩ .new
example : BuiltNR (addHit 1 7 (1/2) 2 Cand.empty) [⟨1, 7, 1/2, 2⟩] := .add ⟨1, 7, 1/2, 2⟩ .new

/-- C51 is false for ordering parameters after `reset`: the new hit (rho 9) is reported with the old hit's rho 4 -/
theorem C51_rho_refuted : Built (addHit 1 7 9 2 (reset (addHit 0 5 4 1 Cand.empty))) [⟨1, 7, 9, 2⟩] ∧
    getHitRho (addHit 1 7 9 2 (reset (addHit 0 5 4 1 Cand.empty))) 0 = .ok (1, 7, 4) :=
  ⟨.add ⟨1, 7, 9, 2⟩ (.reset (.add ⟨0, 5, 4, 1⟩ .new)), by decide +kernel⟩

/-- ... and for planes -/
theorem C51_plane_reset_refuted : Built (addHit 1 7 9 2 (reset (addHit 0 5 4 1 Cand.empty))) [⟨1, 7, 9, 2⟩] ∧
    getHitPlane (addHit 1 7 9 2 (reset (addHit 0 5 4 1 Cand.empty))) 0 = .ok (1, 7, 1) :=
  ⟨.add ⟨1, 7, 9, 2⟩ (.reset (.add ⟨0, 5, 4, 1⟩ .new)), by decide +kernel⟩

/-- in general: after `reset`, the first hits added are reported with the ordering parameters and planes of the hits dropped -/
theorem C51_reset_stale (c : Cand) (e : Entry) (r0 : ℚ) (rs : List ℚ) (p0 : Nat) (ps : List Nat) (hr : c.rho = r0 :: rs) (hp : c.plane = p0 :: ps) :
    getHitRho (addHit e.det e.hit e.rho e.plane (reset c)) 0 = .ok (e.det, e.hit, r0) ∧
    getHitPlane (addHit e.det e.hit e.rho e.plane (reset c)) 0 = .ok (e.det, e.hit, p0) := by
  simp [getHitRho, getHitPlane, addHit, reset, hr, hp, nHits, at']

example : (addHit 0 5 4 1 Cand.empty).rho = 4 :: [] ∧ (addHit 0 5 4 1 Cand.empty).plane = 1 :: [] := ⟨rfl, rfl⟩

/-- `append` drops the planes: a hit of plane 2 is reported as plane 0 -/
theorem C51_plane_append_refuted : ∃ r, append (addHit 1 7 9 2 Cand.empty) Cand.empty = .ok r ∧ Built r [⟨1, 7, 9, 2⟩] ∧
    getHitPlane r 0 = .ok (1, 7, 0) := by
  refine ⟨⟨[1], [7], [0], [9]⟩, by decide +kernel, ?_, by decide +kernel⟩
  exact .append (c := Cand.empty) (l := []) (c' := addHit 1 7 9 2 Cand.empty) (l' := [⟨1, 7, 9, 2⟩]) .new (.add ⟨1, 7, 9, 2⟩ .new) (by decide +kernel)

/-- a constructed candidate has no planes: asking for one throws, and a hit added later (plane 2) is reported as belonging to another hit -/
theorem C51_plane_ctor_refuted : ∃ c, ctor5 [3] [4] = .ok c ∧ getHitPlane c 0 = .throw ∧
    getHitPlane (addHit 1 7 9 2 c) 0 = .ok (3, 4, 2) ∧ getHitPlane (addHit 1 7 9 2 c) 1 = .throw :=
  ⟨⟨[3], [4], [], [0]⟩, by decide +kernel, by decide +kernel, by decide +kernel, by decide +kernel⟩

/-- the constructor with ordering parameters accepts a list of the wrong length (its check compares the wrong pair): asking for the hit throws -/
theorem C51_ctor_length_refuted : ∃ c, ctor6 [3] [4] [] = .ok c ∧ nHits c = 1 ∧ getHitRho c 0 = .throw :=
  ⟨⟨[3], [4], [], []⟩, by decide +kernel, rfl, by decide +kernel⟩

/-! ### C72 -/

/-- appending another object with the same content doubles the hits -/
theorem C72_copy (c : Cand) (l : List Entry) (h : BuiltNR c l) : ∃ r, append c c = .ok r ∧ BuiltNR r (l ++ l) := by
  obtain ⟨r, hr⟩ := C51_append_total c c l h
  exact ⟨r, hr, .append h h hr⟩

/-- C72: a nonempty candidate built without `reset` and appended to itself never finishes: every round adds a hit -/
theorem C72_refuted (fuel : Nat) : ∀ (i : Nat) (c : Cand), c.det.length = c.hit.length → c.det.length = c.rho.length → i < nHits c →
    appendSelf fuel i c = none := by
  induction fuel with
  | zero => intro i c _ _ hi; unfold appendSelf; rw [if_pos hi]
  | succ fuel ih =>
    intro i c h1 h2 hi
    unfold nHits at hi
    unfold appendSelf
    have hg : getHitRho c i = .ok (c.det[i], c.hit[i], c.rho[i]) := by
      unfold getHitRho nHits
      rw [if_neg (by omega), at'_some c.det i (by omega), at'_some c.hit i (by omega), at'_some c.rho i (by omega)]
      simp only [Res.bind_ok, Res.pure_eq]
    rw [if_pos (by unfold nHits; exact hi), hg]
    exact ih (i + 1) _ (by simp [addHit, h1]) (by simp [addHit]; omega) (by simp [nHits, addHit]; omega)

/-- C72 for objects built by calls -/
theorem C72_self_append_partial (c : Cand) (l : List Entry) (h : BuiltNR c l) :
    (l ≠ [] → ∀ fuel, appendSelf fuel 0 c = none) ∧ (l = [] → ∀ fuel, appendSelf fuel 0 c = some (.ok c)) := by
  obtain ⟨h1, h2⟩ := built_ids h.built
  have h3 := builtNR_rho h
  constructor
  · intro hl fuel
    refine C72_refuted fuel 0 c (by rw [h1, h2]; simp) (by rw [h1, h3]; simp) ?_
    unfold nHits; rw [h1, List.length_map]; exact List.length_pos_of_ne_nil hl
  · intro hl fuel
    have : c.det = [] := by rw [h1, hl]; rfl
    cases fuel <;> simp [appendSelf, nHits, this]

example : appendSelf 100 0 (addHit 1 7 9 2 Cand.empty) = none := by decide +kernel

end Verif.TrackCand

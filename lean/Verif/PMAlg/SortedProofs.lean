import Verif.PMAlg.SortedModel
import Mathlib.Data.List.Nodup
import Mathlib.Data.List.Basic
/-! Invariant and effect lemmas for chained elements -/
namespace Verif.PMAlg
open Verif

/-- links are mutually consistent -/
structure Inv (h : Heap) : Prop where
  link : ∀ x y, y ∈ nexts (h x) ↔ (h y).prev = some x
  nodup : ∀ x, (nexts (h x)).Nodup
  irrefl : ∀ x, (h x).prev ≠ some x
  last : ∀ x, (h x).branch = true → (h x).next = (h x).vec.getLast?
  plain : ∀ x, (h x).branch = false → (h x).vec = []

@[simp] theorem upd_same (h : Heap) (i : Nat) (f : Elem → Elem) : upd h i f i = f (h i) := by simp [upd]
theorem upd_ne (h : Heap) {i j : Nat} (f : Elem → Elem) (hne : j ≠ i) : upd h i f j = h j := by simp [upd, hne]

theorem nexts_plain {e : Elem} (h : e.branch = false) : nexts e = e.next.toList := by simp [nexts, h]
theorem nexts_branch {e : Elem} (h : e.branch = true) : nexts e = e.vec := by simp [nexts, h]

/-- description of a heap by what can be observed, plus the hidden `next` of branches -/
def SameKind (h h' : Heap) : Prop := ∀ x, (h' x).branch = (h x).branch

/-- effect of `removeNext` on a consistent heap -/
theorem removeNext_effect {h : Heap} (hi : Inv h) (x y : Nat) :
    SameKind h (removeNext h x (some y)).2 ∧
    (y ∈ nexts (h x) →
      (removeNext h x (some y)).1 = ((nexts (h x)).idxOf y : Int) ∧
      (∀ z, ((removeNext h x (some y)).2 z).prev = if z = y then none else (h z).prev) ∧
      (∀ z, nexts ((removeNext h x (some y)).2 z) = if z = x then (nexts (h x)).erase y else nexts (h z)) ∧
      Inv (removeNext h x (some y)).2) ∧
    (y ∉ nexts (h x) → removeNext h x (some y) = (-1, h)) := by
  have hpy : y ∈ nexts (h x) → (h y).prev = some x := (hi.link x y).1
  by_cases hb : (h x).branch = true
  · -- branch
    have hn := nexts_branch hb
    simp only [removeNext, hb, if_true, removeBranch]
    by_cases hm : y ∈ (h x).vec
    · have hp := hpy (hn ▸ hm)
      have hyx : y ≠ x := by rintro rfl; exact hi.irrefl _ hp
      have hxy : x ≠ y := fun e => hyx e.symm
      rw [if_neg hyx, if_pos hm, if_neg (by simp [hp])]
      have hvx : (upd h y (fun e => { e with prev := none }) x).vec = (h x).vec := by rw [upd_ne _ _ hxy]
      simp only [hvx]
      set v := (h x).vec.eraseIdx ((h x).vec.idxOf y) with hv
      set h' := upd (upd h y (fun e => { e with prev := none })) x (fun e => { e with vec := v, next := v.getLast? }) with hh'
      have hve : v = (h x).vec.erase y := by rw [hv, List.erase_eq_eraseIdx_of_idxOf rfl]
      have hk : SameKind h h' := by
        intro z
        rw [hh']
        by_cases hz : z = x
        · subst hz; rw [upd_same, upd_ne _ _ hxy]
        · rw [upd_ne _ _ hz]
          by_cases hz' : z = y
          · subst hz'; rw [upd_same]
          · rw [upd_ne _ _ hz']
      have hprev : ∀ z, (h' z).prev = if z = y then none else (h z).prev := by
        intro z
        rw [hh']
        by_cases hz : z = x
        · subst hz; rw [upd_same, upd_ne _ _ hxy, if_neg hxy]
        · rw [upd_ne _ _ hz]
          by_cases hz' : z = y
          · subst hz'; rw [upd_same]; simp
          · rw [upd_ne _ _ hz', if_neg hz']
      have hnext : ∀ z, nexts (h' z) = if z = x then (nexts (h x)).erase y else nexts (h z) := by
        intro z
        rw [hh']
        by_cases hz : z = x
        · subst hz
          rw [upd_same, if_pos rfl, upd_ne _ _ hxy]
          simp [nexts, hb, hve]
        · rw [upd_ne _ _ hz, if_neg hz]
          by_cases hz' : z = y
          · subst hz'; rw [upd_same]; rfl
          · rw [upd_ne _ _ hz']
      refine ⟨hk, fun _ => ⟨by simp [hn], hprev, hnext, ?_⟩, fun hm' => absurd (hn ▸ hm) hm'⟩
      constructor
      · intro a b
        rw [hnext, hprev]
        by_cases ha : a = x
        · subst ha
          rw [if_pos rfl, (hi.nodup a).mem_erase_iff, hi.link]
          by_cases hby : b = y
          · subst hby; simp
          · simp [hby]
        · rw [if_neg ha, hi.link]
          by_cases hby : b = y
          · subst hby; rw [hp]; simp; exact fun e => ha e.symm
          · simp [hby]
      · intro a; rw [hnext]; split
        · exact (hi.nodup x).erase y
        · exact hi.nodup a
      · intro a; rw [hprev]; split
        · simp
        · exact hi.irrefl a
      · intro a ha
        rw [hk a] at ha
        rw [hh']
        by_cases hz : a = x
        · subst hz; rw [upd_same]
        · rw [upd_ne _ _ hz]
          by_cases hz' : a = y
          · subst hz'; rw [upd_same]; exact hi.last a ha
          · rw [upd_ne _ _ hz']; exact hi.last a ha
      · intro a ha
        rw [hk a] at ha
        have hz : a ≠ x := by rintro rfl; rw [hb] at ha; simp at ha
        rw [hh', upd_ne _ _ hz]
        by_cases hz' : a = y
        · subst hz'; rw [upd_same]; exact hi.plain a ha
        · rw [upd_ne _ _ hz']; exact hi.plain a ha
    · have : (if y = x then ((-1 : Int), h) else if y ∈ (h x).vec then
          if (h y).prev ≠ some x then (-1, h) else
            (((upd h y (fun e => { e with prev := none }) x).vec.idxOf y : Int),
              upd (upd h y (fun e => { e with prev := none })) x (fun e => { e with
                vec := (upd h y (fun e => { e with prev := none }) x).vec.eraseIdx ((upd h y (fun e => { e with prev := none }) x).vec.idxOf y),
                next := ((upd h y (fun e => { e with prev := none }) x).vec.eraseIdx ((upd h y (fun e => { e with prev := none }) x).vec.idxOf y)).getLast? }))
          else (-1, h)) = (-1, h) := by simp [hm]
      rw [this]
      exact ⟨fun z => rfl, fun hm' => absurd (hn ▸ hm') hm, fun _ => rfl⟩
  · -- plain
    have hb' : (h x).branch = false := by simpa using hb
    have hn := nexts_plain hb'
    simp only [removeNext, hb, Bool.false_eq_true, if_false, removePlain]
    by_cases hm : (h x).next = some y
    · have hmem : y ∈ nexts (h x) := by rw [hn, hm]; simp
      have hp := hpy hmem
      have hyx : y ≠ x := by rintro rfl; exact hi.irrefl _ hp
      have hxy : x ≠ y := fun e => hyx e.symm
      rw [if_pos hm, if_pos hp]
      set h' := upd (upd h y (fun e => { e with prev := none })) x (fun e => { e with next := none }) with hh'
      have hk : SameKind h h' := by
        intro z
        rw [hh']
        by_cases hz : z = x
        · subst hz; rw [upd_same, upd_ne _ _ hxy]
        · rw [upd_ne _ _ hz]
          by_cases hz' : z = y
          · subst hz'; rw [upd_same]
          · rw [upd_ne _ _ hz']
      have hprev : ∀ z, (h' z).prev = if z = y then none else (h z).prev := by
        intro z
        rw [hh']
        by_cases hz : z = x
        · subst hz; rw [upd_same, upd_ne _ _ hxy, if_neg hxy]
        · rw [upd_ne _ _ hz]
          by_cases hz' : z = y
          · subst hz'; rw [upd_same]; simp
          · rw [upd_ne _ _ hz', if_neg hz']
      have hnext : ∀ z, nexts (h' z) = if z = x then (nexts (h x)).erase y else nexts (h z) := by
        intro z
        rw [hh']
        by_cases hz : z = x
        · subst hz
          rw [upd_same, if_pos rfl, upd_ne _ _ hxy, hn, hm]
          simp [nexts, hb']
        · rw [upd_ne _ _ hz, if_neg hz]
          by_cases hz' : z = y
          · subst hz'; rw [upd_same]; rfl
          · rw [upd_ne _ _ hz']
      refine ⟨hk, fun _ => ⟨by simp [hn, hm], hprev, hnext, ?_⟩, fun hm' => absurd hmem hm'⟩
      constructor
      · intro a b
        rw [hnext, hprev]
        by_cases ha : a = x
        · subst ha
          rw [if_pos rfl, (hi.nodup a).mem_erase_iff, hi.link]
          by_cases hby : b = y
          · subst hby; simp
          · simp [hby]
        · rw [if_neg ha, hi.link]
          by_cases hby : b = y
          · subst hby; rw [hp]; simp; exact fun e => ha e.symm
          · simp [hby]
      · intro a; rw [hnext]; split
        · exact (hi.nodup x).erase y
        · exact hi.nodup a
      · intro a; rw [hprev]; split
        · simp
        · exact hi.irrefl a
      · intro a ha
        rw [hk a] at ha
        have hz : a ≠ x := by rintro rfl; exact hb ha
        show (h' a).next = (h' a).vec.getLast?
        rw [hh', upd_ne _ _ hz]
        by_cases hz' : a = y
        · subst hz'; rw [upd_same]; exact hi.last a ha
        · rw [upd_ne _ _ hz']; exact hi.last a ha
      · intro a ha
        rw [hk a] at ha
        show (h' a).vec = []
        rw [hh']
        by_cases hz : a = x
        · subst hz; rw [upd_same, upd_ne _ _ hxy]; exact hi.plain a ha
        · rw [upd_ne _ _ hz]
          by_cases hz' : a = y
          · subst hz'; rw [upd_same]; exact hi.plain a ha
          · rw [upd_ne _ _ hz']; exact hi.plain a ha
    · rw [if_neg hm]
      refine ⟨fun z => rfl, fun hm' => ?_, fun _ => rfl⟩
      rw [hn] at hm'
      simp at hm'
      exact absurd hm' hm

/-- detach `y` from its predecessor -/
theorem detach_effect {h : Heap} (hi : Inv h) (y : Nat) :
    let h' := match (h y).prev with
      | some p => (removeNext h p (some y)).2
      | none => h
    SameKind h h' ∧ Inv h' ∧ (∀ z, (h' z).prev = if z = y then none else (h z).prev) ∧
      (∀ z, nexts (h' z) = (nexts (h z)).erase y) := by
  cases hp : (h y).prev with
  | none =>
    refine ⟨fun _ => rfl, hi, ?_, ?_⟩
    · intro z
      show (h z).prev = if z = y then none else (h z).prev
      split
      · rename_i e; subst e; exact hp
      · rfl
    · intro z
      show nexts (h z) = _
      rw [List.erase_of_not_mem]
      intro hm
      rw [hi.link, hp] at hm
      simp at hm
  | some p =>
    obtain ⟨h1, h2, _⟩ := removeNext_effect hi p y
    obtain ⟨_, e2, e3, e4⟩ := h2 ((hi.link p y).2 hp)
    refine ⟨h1, e4, e2, ?_⟩
    intro z
    rw [e3]
    split
    · rename_i e; subst e; rfl
    · rename_i e
      rw [List.erase_of_not_mem]
      intro hm
      rw [hi.link, hp] at hm
      simp at hm
      exact e hm.symm

/-- attaching a detached `y` to `x` (branch: at the end of the list; plain: `x` must have no successor) -/
theorem attach_inv {h h' : Heap} (hi : Inv h) {x y : Nat} (hne : y ≠ x) (hy : (h y).prev = none)
    (hk : SameKind h h') (hp : ∀ z, (h' z).prev = if z = y then some x else (h z).prev)
    (hn : ∀ z, nexts (h' z) = if z = x then nexts (h x) ++ [y] else nexts (h z))
    (hl : ∀ z, (h' z).branch = true → (h' z).next = (h' z).vec.getLast?)
    (hpl : ∀ z, (h' z).branch = false → (h' z).vec = []) : Inv h' := by
  have hnot : ∀ z, y ∉ nexts (h z) := by
    intro z hm; rw [hi.link, hy] at hm; simp at hm
  constructor
  · intro a b
    rw [hn, hp]
    by_cases ha : a = x
    · subst ha
      rw [if_pos rfl]
      by_cases hb : b = y
      · subst hb; simp
      · simp [hb, hi.link]
    · rw [if_neg ha]
      by_cases hb : b = y
      · subst hb; simp only [if_true]
        constructor
        · intro hm; exact absurd hm (hnot a)
        · intro e; simp at e; exact absurd e.symm ha
      · simp [hb, hi.link]
  · intro a; rw [hn]; split
    · rw [List.nodup_append]
      refine ⟨hi.nodup x, by simp, ?_⟩
      intro c hc d hd
      simp at hd
      subst hd
      rintro rfl
      exact hnot x hc
    · exact hi.nodup a
  · intro a; rw [hp]; split
    · rename_i e; subst e; simp; exact fun e => hne e.symm
    · exact hi.irrefl a
  · exact hl
  · exact hpl

theorem addNext_effect {h : Heap} (hi : Inv h) (x y : Nat) (hne : y ≠ x)
    (hb : (h x).branch = true → y ∉ nexts (h x)) :
    (addNext h x (some y)).1 = true ∧ SameKind h (addNext h x (some y)).2 ∧ Inv (addNext h x (some y)).2 ∧
    (∀ z, ((addNext h x (some y)).2 z).prev =
      if z = y then some x else if (h x).branch = false ∧ z ∈ nexts (h x) then none else (h z).prev) ∧
    (∀ z, nexts ((addNext h x (some y)).2 z) =
      if z = x then (if (h x).branch then nexts (h x) ++ [y] else [y]) else (nexts (h z)).erase y) := by
  have hxy : x ≠ y := fun e => hne e.symm
  by_cases hbr : (h x).branch = true
  · have hnm : y ∉ (h x).vec := by rw [← nexts_branch hbr]; exact hb hbr
    obtain ⟨d1, d2, d3, d4⟩ := detach_effect hi y
    set h1 := (match (h y).prev with
        | some p => (removeNext h p (some y)).2
        | none => h) with hh1
    set h' := upd (upd (upd h1 x (fun e => { e with next := some y })) y (fun e => { e with prev := some x })) x
      (fun e => { e with vec := e.vec ++ [y] }) with hh'
    have hb1 : (h1 x).branch = true := by rw [d1 x]; exact hbr
    have ex : h' x = { h1 x with next := some y, vec := (h1 x).vec ++ [y] } := by
      rw [hh', upd_same, upd_ne _ _ hxy, upd_same]
    have ey : h' y = { h1 y with prev := some x } := by
      rw [hh', upd_ne _ _ hne, upd_same, upd_ne _ _ hne]
    have ez : ∀ z, z ≠ x → z ≠ y → h' z = h1 z := by
      intro z h1' h2'; rw [hh', upd_ne _ _ h1', upd_ne _ _ h2', upd_ne _ _ h1']
    have hk1 : SameKind h1 h' := by
      intro z
      by_cases hz : z = x
      · subst hz; rw [ex]
      · by_cases hz' : z = y
        · subst hz'; rw [ey]
        · rw [ez z hz hz']
    have hp1 : ∀ z, (h' z).prev = if z = y then some x else (h1 z).prev := by
      intro z
      by_cases hz : z = x
      · subst hz; rw [ex, if_neg hxy]
      · by_cases hz' : z = y
        · subst hz'; rw [ey]; simp
        · rw [ez z hz hz', if_neg hz']
    have hn1 : ∀ z, nexts (h' z) = if z = x then nexts (h1 x) ++ [y] else nexts (h1 z) := by
      intro z
      by_cases hz : z = x
      · subst hz; rw [ex, if_pos rfl]; simp [nexts, hb1]
      · rw [if_neg hz]
        by_cases hz' : z = y
        · subst hz'; rw [ey]; rfl
        · rw [ez z hz hz']
    have heq : addNext h x (some y) = (true, h') := by
      unfold addNext addBranch
      rw [if_pos hbr]
      simp only [if_neg hne, if_neg hnm]
      rfl
    clear_value h'
    rw [heq]
    dsimp only
    refine ⟨rfl, fun z => (hk1 z).trans (d1 z), attach_inv d2 hne (by rw [d3]; simp) hk1 hp1 hn1 ?_ ?_, ?_, ?_⟩
    · intro z hzb
      by_cases hz : z = x
      · subst hz; rw [ex]; simp
      · by_cases hz' : z = y
        · subst hz'; rw [ey]; exact d2.last z (by rw [← hk1 z]; exact hzb)
        · rw [ez z hz hz']; exact d2.last z (by rw [← hk1 z]; exact hzb)
    · intro z hzb
      by_cases hz : z = x
      · subst hz; rw [hk1 z, hb1] at hzb; simp at hzb
      · by_cases hz' : z = y
        · subst hz'; rw [ey]; exact d2.plain z (by rw [← hk1 z]; exact hzb)
        · rw [ez z hz hz']; exact d2.plain z (by rw [← hk1 z]; exact hzb)
    · intro z
      rw [hp1, d3]
      by_cases hz' : z = y
      · simp [hz']
      · simp [hz', hbr]
    · intro z
      rw [hn1, d4, d4]
      by_cases hz : z = x
      · subst hz
        rw [List.erase_of_not_mem (hb hbr)]
        simp [hbr]
      · simp [hz]
  · have hbf : (h x).branch = false := by simpa using hbr
    have hnx := nexts_plain hbf
    -- step 1: the displaced successor (x keeps its stale `next` until it is overwritten)
    -- compare with removing the successor first
    set g := (match (h x).next with
        | some z => (removeNext h x (some z)).2
        | none => h) with hg
    set h1 := (match (h x).next with
        | some z => if (h z).prev = some x then upd h z (fun e => { e with prev := none }) else h
        | none => h) with hh1
    have hgx : g = upd h1 x (fun e => { e with next := none }) := by
      rw [hg, hh1]
      cases hc : (h x).next with
      | none =>
        funext z
        by_cases hz : z = x
        · subst hz; rw [upd_same]
          dsimp only
          rw [show ({ h z with next := none } : Elem) = h z by rw [← hc]]
        · rw [upd_ne _ _ hz]
      | some z =>
        have hp : (h z).prev = some x := (hi.link x z).1 (by rw [hnx, hc]; simp)
        simp only [removeNext, hbr, Bool.false_eq_true, if_false, removePlain, hc, if_true, hp]
    have hgi : SameKind h g ∧ Inv g ∧ (∀ z, (g z).prev = if z ∈ nexts (h x) then none else (h z).prev) ∧
        (∀ z, nexts (g z) = if z = x then [] else nexts (h z)) := by
      rw [hg]
      cases hc : (h x).next with
      | none =>
        refine ⟨fun _ => rfl, hi, ?_, ?_⟩
        · intro z; rw [hnx, hc]; simp
        · intro z
          by_cases e : z = x
          · subst e; rw [if_pos rfl]; show nexts (h z) = []; rw [hnx, hc]; rfl
          · rw [if_neg e]
      | some w =>
        obtain ⟨a1, a2, _⟩ := removeNext_effect hi x w
        obtain ⟨_, b2, b3, b4⟩ := a2 (by rw [hnx, hc]; simp)
        refine ⟨a1, b4, ?_, ?_⟩
        · intro z; rw [b2, hnx, hc]; simp
        · intro z; rw [b3, hnx, hc]; simp
    obtain ⟨g1, g2, g3, g4⟩ := hgi
    have hgxn : (g x).next = none := by rw [hgx, upd_same]
    have hg1 : ∀ z, z ≠ x → g z = h1 z := fun z hz => by rw [hgx, upd_ne _ _ hz]
    have hprev1 : ∀ z, (h1 z).prev = (g z).prev := by
      intro z
      by_cases hz : z = x
      · subst hz; rw [hgx, upd_same]
      · rw [hg1 z hz]
    have hbr1 : ∀ z, (h1 z).branch = (g z).branch := by
      intro z
      by_cases hz : z = x
      · subst hz; rw [hgx, upd_same]
      · rw [hg1 z hz]
    -- step 2 on `g` and on `h1` agree up to x's next
    obtain ⟨d1, d2, d3, d4⟩ := detach_effect g2 y
    set gd := (match (g y).prev with
        | some p => (removeNext g p (some y)).2
        | none => g) with hgd
    set h2 := (match (h1 y).prev with
        | some p => if p ≠ x then (removeNext h1 p (some y)).2 else h1
        | none => h1) with hh2
    have hgpy : (g y).prev ≠ some x := by
      rw [g3]
      split
      · simp
      · rename_i hnm
        intro e
        exact hnm ((hi.link x y).2 e)
    have h2gd : ∀ z, z ≠ x → h2 z = gd z := by
      intro z hz
      rw [hh2, hgd, hprev1 y]
      cases hc : (g y).prev with
      | none => exact (hg1 z hz).symm
      | some p =>
        have hpx : p ≠ x := by rintro rfl; exact hgpy hc
        simp only [ne_eq, hpx, not_false_eq_true, if_true]
        have hgp : g p = h1 p := hg1 p hpx
        unfold removeNext
        rw [hgp]
        by_cases hbp : (h1 p).branch = true
        · simp only [hbp, if_true, removeBranch, hprev1 y, hgp]
          by_cases hyp : y = p
          · simp [hyp, hg1 z hz]
          · by_cases hmv : y ∈ (h1 p).vec
            · simp only [if_neg hyp, if_pos hmv, hc, ne_eq, not_true_eq_false, if_false]
              have hpy' : p ≠ y := fun e => hyp e.symm
              rw [upd_ne h1 _ hpy', upd_ne g _ hpy', hgp]
              by_cases hzp : z = p
              · subst hzp; rw [upd_same, upd_same, upd_ne _ _ hpy', upd_ne _ _ hpy', hg1 z hz]
              · rw [upd_ne _ _ hzp, upd_ne _ _ hzp]
                by_cases hzy : z = y
                · subst hzy; rw [upd_same, upd_same, hg1 z hz]
                · rw [upd_ne _ _ hzy, upd_ne _ _ hzy, hg1 z hz]
            · simp [hyp, hmv, hg1 z hz]
        · simp only [hbp, Bool.false_eq_true, if_false, removePlain, hprev1 y, hgp]
          by_cases hmv : (h1 p).next = some y
          · simp only [if_pos hmv, hc, if_true]
            have hpy' : p ≠ y := by
              rintro rfl; exact g2.irrefl _ hc
            by_cases hzp : z = p
            · subst hzp; rw [upd_same, upd_same, upd_ne _ _ hpy', upd_ne _ _ hpy', hg1 z hz]
            · rw [upd_ne _ _ hzp, upd_ne _ _ hzp]
              by_cases hzy : z = y
              · subst hzy; rw [upd_same, upd_same, hg1 z hz]
              · rw [upd_ne _ _ hzy, upd_ne _ _ hzy, hg1 z hz]
          · simp [hmv, hg1 z hz]
    have h2x : (h2 x).prev = (gd x).prev ∧ (h2 x).branch = (gd x).branch ∧ (h2 x).vec = (gd x).vec := by
      rw [hh2, hgd, hprev1 y]
      have hx0 : (h1 x).prev = (g x).prev ∧ (h1 x).branch = (g x).branch ∧ (h1 x).vec = (g x).vec := by
        rw [hgx, upd_same]; exact ⟨rfl, rfl, rfl⟩
      cases hc : (g y).prev with
      | none => exact hx0
      | some p =>
        have hpx : p ≠ x := by rintro rfl; exact hgpy hc
        have hxp : x ≠ p := fun e => hpx e.symm
        simp only [ne_eq, hpx, not_false_eq_true, if_true]
        have hgp : g p = h1 p := hg1 p hpx
        unfold removeNext
        rw [hgp]
        by_cases hbp : (h1 p).branch = true
        · simp only [hbp, if_true, removeBranch, hprev1 y, hgp]
          by_cases hyp : y = p
          · simp only [hyp, if_true]; exact hx0
          · by_cases hmv : y ∈ (h1 p).vec
            · simp only [if_neg hyp, if_pos hmv, hc, ne_eq, not_true_eq_false, if_false]
              rw [upd_ne _ _ hxp, upd_ne _ _ hxy, upd_ne _ _ hxp, upd_ne _ _ hxy]
              exact hx0
            · simp only [if_neg hyp, if_neg hmv]; exact hx0
        · simp only [hbp, Bool.false_eq_true, if_false, removePlain, hprev1 y, hgp]
          by_cases hmv : (h1 p).next = some y
          · simp only [if_pos hmv, hc, if_true]
            rw [upd_ne _ _ hxp, upd_ne _ _ hxy, upd_ne _ _ hxp, upd_ne _ _ hxy]
            exact hx0
          · simp only [if_neg hmv]; exact hx0
    -- step 3
    set h' := upd (upd h2 x (fun e => { e with next := some y })) y (fun e => { e with prev := some x }) with hh'
    have hbd : (gd x).branch = false := by rw [d1 x, g1 x]; exact hbf
    have hgdn : nexts (gd x) = [] := by rw [d4, g4]; simp
    have ex : h' x = { h2 x with next := some y } := by
      rw [hh', upd_ne _ _ hxy, upd_same]
    have ey : h' y = { gd y with prev := some x } := by
      rw [hh', upd_same, upd_ne _ _ hne, h2gd y hne]
    have ez : ∀ z, z ≠ x → z ≠ y → h' z = gd z := by
      intro z h1' h2'; rw [hh', upd_ne _ _ h2', upd_ne _ _ h1', h2gd z h1']
    have hk1 : SameKind gd h' := by
      intro z
      by_cases hz : z = x
      · subst hz; rw [ex]; exact h2x.2.1
      · by_cases hz' : z = y
        · subst hz'; rw [ey]
        · rw [ez z hz hz']
    have hp1 : ∀ z, (h' z).prev = if z = y then some x else (gd z).prev := by
      intro z
      by_cases hz : z = x
      · subst hz; rw [ex, if_neg hxy]; exact h2x.1
      · by_cases hz' : z = y
        · subst hz'; rw [ey]; simp
        · rw [ez z hz hz', if_neg hz']
    have hn1 : ∀ z, nexts (h' z) = if z = x then nexts (gd x) ++ [y] else nexts (gd z) := by
      intro z
      by_cases hz : z = x
      · subst hz; rw [ex, if_pos rfl, hgdn]
        have : (h2 z).branch = false := by rw [h2x.2.1]; exact hbd
        simp [nexts, this]
      · rw [if_neg hz]
        by_cases hz' : z = y
        · subst hz'; rw [ey]; rfl
        · rw [ez z hz hz']
    have heq : addNext h x (some y) = (true, h') := by
      unfold addNext addPlain
      rw [if_neg hbr]
      simp only [if_neg hne]
      rfl
    clear_value h'
    rw [heq]
    dsimp only
    refine ⟨rfl, fun z => (hk1 z).trans ((d1 z).trans (g1 z)),
      attach_inv d2 hne (by rw [d3]; simp) hk1 hp1 hn1 ?_ ?_, ?_, ?_⟩
    · intro z hzb
      by_cases hz : z = x
      · subst hz; rw [hk1 z, hbd] at hzb; simp at hzb
      · by_cases hz' : z = y
        · subst hz'; rw [ey]; exact d2.last z (by rw [← hk1 z]; exact hzb)
        · rw [ez z hz hz']; exact d2.last z (by rw [← hk1 z]; exact hzb)
    · intro z hzb
      by_cases hz : z = x
      · subst hz; rw [ex]; show (h2 z).vec = []; rw [h2x.2.2]; exact d2.plain z hbd
      · by_cases hz' : z = y
        · subst hz'; rw [ey]; exact d2.plain z (by rw [← hk1 z]; exact hzb)
        · rw [ez z hz hz']; exact d2.plain z (by rw [← hk1 z]; exact hzb)
    · intro z
      rw [hp1, d3, g3]
      by_cases hz' : z = y
      · simp [hz']
      · simp [hz', hbf]
    · intro z
      rw [hn1, hgdn, d4, g4]
      by_cases hz : z = x
      · subst hz; simp [hbf]
      · simp [hz]

theorem addNext_refused {h : Heap} (x : Nat) (y : Option Nat)
    (hr : y = none ∨ y = some x ∨ ((h x).branch = true ∧ ∃ z ∈ nexts (h x), y = some z)) :
    addNext h x y = (false, h) := by
  unfold addNext
  rcases hr with rfl | rfl | ⟨hb, z, hz, rfl⟩
  · split <;> rfl
  · split <;> simp [addBranch, addPlain]
  · rw [nexts_branch hb] at hz
    rw [if_pos hb]
    simp only [addBranch]
    by_cases hzx : z = x
    · simp [hzx]
    · simp [hzx, hz]

/-- the `while` loop of `Disconnect` -/
theorem removeAll_effect {h : Heap} (hi : Inv h) (x : Nat) (hb : (h x).branch = true) (fuel : Nat)
    (hf : (nexts (h x)).length ≤ fuel) :
    ∃ h', removeAll x fuel h = some h' ∧ SameKind h h' ∧ Inv h' ∧
      (∀ z, (h' z).prev = if z ∈ nexts (h x) then none else (h z).prev) ∧
      (∀ z, nexts (h' z) = if z = x then [] else nexts (h z)) := by
  induction fuel generalizing h with
  | zero =>
    have he : nexts (h x) = [] := List.length_eq_zero_iff.1 (by omega)
    refine ⟨h, ?_, fun _ => rfl, hi, ?_, ?_⟩
    · rw [nexts_branch hb] at he; simp [removeAll, he]
    · intro z; simp [he]
    · intro z; split
      · rename_i e; subst e; exact he
      · rfl
  | succ fuel ih =>
    unfold removeAll
    cases hv : (h x).vec with
    | nil =>
      have he : nexts (h x) = [] := by rw [nexts_branch hb, hv]
      refine ⟨h, rfl, fun _ => rfl, hi, ?_, ?_⟩
      · intro z; simp [he]
      · intro z; split
        · rename_i e; subst e; exact he
        · rfl
    | cons y ys =>
      have he : nexts (h x) = y :: ys := by rw [nexts_branch hb, hv]
      obtain ⟨a1, a2, _⟩ := removeNext_effect hi x y
      obtain ⟨_, b2, b3, b4⟩ := a2 (by rw [he]; simp)
      have hn2 : nexts ((removeNext h x (some y)).2 x) = ys := by
        rw [b3, if_pos rfl, he]; simp
      obtain ⟨h', c1, c2, c3, c4, c5⟩ := ih b4 (by rw [a1 x]; exact hb) (by rw [hn2]; rw [he] at hf; simp at hf; omega)
      refine ⟨h', c1, fun z => (c2 z).trans (a1 z), c3, ?_, ?_⟩
      · intro z
        rw [c4, hn2, b2, he]
        by_cases hzy : z = y
        · simp [hzy]
        · simp [hzy]
      · intro z
        rw [c5, b3]
        by_cases hz : z = x
        · simp [hz]
        · simp [hz]

theorem disconnect_effect {h : Heap} (hi : Inv h) (x : Nat) (fuel : Nat) (hf : (nexts (h x)).length ≤ fuel) :
    ∃ h', disconnect fuel h x = some h' ∧ SameKind h h' ∧ Inv h' ∧
      (∀ z, (h' z).prev = if z = x ∨ z ∈ nexts (h x) then none else (h z).prev) ∧
      (∀ z, nexts (h' z) = if z = x then [] else (nexts (h z)).erase x) := by
  have hself : x ∉ nexts (h x) := fun hm => hi.irrefl x ((hi.link x x).1 hm)
  unfold disconnect
  by_cases hb : (h x).branch = true
  · rw [if_pos hb]
    obtain ⟨h1, e1, e2, e3, e4, e5⟩ := removeAll_effect hi x hb fuel hf
    rw [e1]
    obtain ⟨d1, d2, d3, d4⟩ := detach_effect e3 x
    refine ⟨_, ?_, fun z => (d1 z).trans (e2 z), d2, ?_, ?_⟩
    · dsimp only
      cases (h1 x).prev <;> rfl
    · intro z
      rw [d3, e4]
      by_cases hz : z = x
      · simp [hz]
      · simp [hz]
    · intro z
      rw [d4, e5]
      by_cases hz : z = x
      · simp [hz]
      · simp [hz]
  · rw [if_neg hb]
    have hbf : (h x).branch = false := by simpa using hb
    obtain ⟨d1, d2, d3, d4⟩ := detach_effect hi x
    set h1 := (match (h x).prev with
      | some p => (removeNext h p (some x)).2
      | none => h) with hh1
    have hnx : nexts (h1 x) = nexts (h x) := by rw [d4, List.erase_of_not_mem hself]
    have hbf1 : (h1 x).branch = false := by rw [d1 x]; exact hbf
    have hn1 := nexts_plain hbf1
    clear_value h1
    refine ⟨match (h1 x).next with
      | some y => (removeNext h1 x (some y)).2
      | none => h1, by subst hh1; rfl, ?_⟩
    cases hc : (h1 x).next with
    | none =>
      have he : nexts (h x) = [] := by rw [← hnx, hn1, hc]; rfl
      refine ⟨d1, d2, ?_, ?_⟩
      · intro z; dsimp only; rw [d3]; simp [he]
      · intro z; dsimp only; rw [d4]
        by_cases e : z = x
        · subst e; rw [he]; simp
        · rw [if_neg e]
    | some y =>
      have he : nexts (h x) = [y] := by rw [← hnx, hn1, hc]; rfl
      obtain ⟨a1, a2, _⟩ := removeNext_effect d2 x y
      obtain ⟨_, b2, b3, b4⟩ := a2 (by rw [hnx, he]; simp)
      refine ⟨fun z => (a1 z).trans (d1 z), b4, ?_, ?_⟩
      · intro z
        rw [b2, d3, he]
        by_cases hz : z = x
        · simp [hz]
        · by_cases hzy : z = y
          · simp [hzy]
          · simp [hz, hzy]
      · intro z
        rw [b3, hnx, he, d4]
        by_cases hz : z = x
        · simp [hz]
        · simp [hz]

end Verif.PMAlg

import Verif.SpacePoint.SpModel
import Mathlib.Tactic.Linarith
import Mathlib.Tactic.Ring
import Mathlib.Tactic.FieldSimp
import Mathlib.Tactic.IntervalCases
import Mathlib.Algebra.Order.Ring.Abs
import Mathlib.Algebra.BigOperators.Group.List.Basic
/-!
# `trkf::SpacePointAlg`: lemmas
-/
namespace Verif.SpAlg

/-! ## Compatibility -/

theorem pairOk_symm (g : Geo) (c : Cfg) (a b : Hit) : pairOk g c a b = pairOk g c b a := by
  unfold pairOk
  rw [abs_sub_comm, show (decide (a.tpc = b.tpc)) = decide (b.tpc = a.tpc) by simp only [eq_comm],
    show (decide (a.view ≠ b.view)) = decide (b.view ≠ a.view) by simp only [ne_comm]]

theorem allPairs_iff (g : Geo) (c : Cfg) (l : List Hit) : allPairs g c l = true ↔ l.Pairwise (fun a b => pairOk g c a b = true) := by
  induction l with
  | nil => simp [allPairs]
  | cons a l ih => simp [allPairs, ih, List.all_eq_true]

theorem allPairs_perm (g : Geo) (c : Cfg) {l l' : List Hit} (h : l.Perm l') : allPairs g c l = allPairs g c l' := by
  rw [Bool.eq_iff_iff, allPairs_iff, allPairs_iff]
  exact h.pairwise_iff (fun {a b} hab => by rw [pairOk_symm]; exact hab)

theorem pairOk_iff (g : Geo) (c : Cfg) (a b : Hit) :
    pairOk g c a b = true ↔ a.tpc = b.tpc ∧ a.view ≠ b.view ∧ |g.time a - g.time b| ≤ c.maxDT := by
  simp [pairOk, and_assoc]

theorem slot_mem {l : List Hit} (hd : l.Pairwise (fun a b => a.plane ≠ b.plane)) (f : Hit → ℚ) {h : Hit} (hm : h ∈ l) :
    slot l f h.plane = f h := by
  have huniq : ∀ x ∈ l, x.plane = h.plane → x = h := by
    intro x hx hp
    exact List.inj_on_of_nodup_map (List.pairwise_map.2 hd) hx hm hp
  unfold slot
  split
  next hn =>
    have := List.find?_eq_none.1 hn h (by simpa using hm)
    simp at this
  next x hx =>
    have h1 := List.find?_some hx
    have h2 := List.mem_of_find?_eq_some hx
    rw [huniq x (by simpa using h2) (by simpa using h1)]

theorem slot_none {l : List Hit} (f : Hit → ℚ) {p : Nat} (h : ∀ x ∈ l, x.plane ≠ p) : slot l f p = 0 := by
  unfold slot
  split
  · rfl
  next x hx =>
    exact absurd (by simpa using List.find?_some hx) (h x (by simpa using List.mem_of_find?_eq_some hx))

theorem slot_perm {l l' : List Hit} (hp : l.Perm l') (hd : l.Pairwise (fun a b => a.plane ≠ b.plane)) (f : Hit → ℚ) (p : Nat) :
    slot l f p = slot l' f p := by
  have hd' : l'.Pairwise (fun a b => a.plane ≠ b.plane) := (hp.pairwise_iff (fun {a b} hab => Ne.symm hab)).1 hd
  by_cases h : ∃ x ∈ l, x.plane = p
  · obtain ⟨x, hx, rfl⟩ := h
    rw [slot_mem hd f hx, slot_mem hd' f (hp.mem_iff.1 hx)]
  · have h' : ∀ x ∈ l, x.plane ≠ p := fun x hx he => h ⟨x, hx, he⟩
    rw [slot_none f h', slot_none f (fun x hx => h' x (hp.mem_iff.2 hx))]

theorem planes_of_views {g : Geo} {c : Cfg} {l : List Hit} (h : allPairs g c l = true)
    (hv : ∀ a ∈ l, ∀ b ∈ l, a.plane = b.plane → a.view = b.view) : l.Pairwise (fun a b => a.plane ≠ b.plane) := by
  have := (allPairs_iff g c l).1 h
  refine this.imp_of_mem ?_
  intro a b ha hb hab he
  exact ((pairOk_iff g c a b).1 hab).2.1 (hv a ha b hb he)

theorem compatible_perm {g : Geo} {c : Cfg} {l l' : List Hit} (hp : l.Perm l')
    (hv : ∀ a ∈ l, ∀ b ∈ l, a.plane = b.plane → a.view = b.view) : compatible g c l = compatible g c l' := by
  unfold compatible
  rw [hp.length_eq, allPairs_perm g c hp]
  by_cases h : allPairs g c l' = true
  · have hd := planes_of_views (c := c) (by rw [allPairs_perm g c hp]; exact h) hv
    have : sep g l = sep g l' := by
      unfold sep
      simp only [slot_perm hp hd]
    rw [this]
  · simp [Bool.not_eq_true _ ▸ h]

theorem compatible_pairs {g : Geo} {c : Cfg} {l : List Hit} (h : compatible g c l = true) : allPairs g c l = true := by
  unfold compatible at h
  simp only [Bool.and_eq_true] at h
  exact h.1.2

/-! ## Ideal planes -/

theorem s_eq_s0 (w : Wire) : w.s = w.s0 := by
  unfold Wire.s Wire.s0
  rw [show w.y2 - (w.y1 + w.y2) / 2 = (w.y2 - w.y1) / 2 by ring, div_div]

theorem c_eq_c0 (w : Wire) : w.c = w.c0 := by
  unfold Wire.c Wire.c0
  rw [show w.z2 - (w.z1 + w.z2) / 2 = (w.z2 - w.z1) / 2 by ring, div_div]

theorem u_eq_dist0 (w : Wire) : w.u = w.dist0 := by
  unfold Wire.u Wire.dist0
  rw [s_eq_s0, c_eq_c0]
  unfold Wire.s0 Wire.c0
  ring

/-- a plane of parallel wires at constant distance: what the prediction of wire numbers assumes -/
structure Ideal (g : Geo) (t p : Nat) : Prop where
  pitch : 0 < g.pitch t p
  sin : ∀ w, (g.wire t p w).s = (g.wire t p 0).s
  cos : ∀ w, (g.wire t p w).c = (g.wire t p 0).c
  step : ∀ w, (g.wire t p w).u = (g.wire t p 0).u + w * g.pitch t p

theorem Ideal.oblique {g : Geo} {h : Hit} (hI : Ideal g h.tpc h.plane) : (g.of h).u = oblique g h := by
  unfold Geo.of Verif.SpAlg.oblique
  rw [hI.step, u_eq_dist0 (g.wire h.tpc h.plane 0)]
  ring

/-- the oblique separation of three hits, in the order given -/
def sep3 (g : Geo) (a b d : Hit) : ℚ :=
  let w1 := g.of a
  let w2 := g.of b
  let w3 := g.of d
  (w2.s * w3.c - w3.s * w2.c) * w1.u + (w3.s * w1.c - w1.s * w3.c) * w2.u + (w1.s * w2.c - w2.s * w1.c) * w3.u

theorem sep_abs (g : Geo) (a b d : Hit) (hab : a.plane ≠ b.plane) (had : a.plane ≠ d.plane) (hbd : b.plane ≠ d.plane)
    (h1 : a.plane < 3) (h2 : b.plane < 3) (h3 : d.plane < 3) : |sep g [a, b, d]| = |sep3 g a b d| := by
  have hd : [a, b, d].Pairwise (fun a b => a.plane ≠ b.plane) := by simp [hab, had, hbd]
  have ea : ∀ f, slot [a, b, d] f a.plane = f a := fun f => slot_mem hd f (by simp)
  have eb : ∀ f, slot [a, b, d] f b.plane = f b := fun f => slot_mem hd f (by simp)
  have ed : ∀ f, slot [a, b, d] f d.plane = f d := fun f => slot_mem hd f (by simp)
  unfold sep
  dsimp only
  have key : ∀ x y : ℚ, x = y ∨ x = -y → |x| = |y| := by
    rintro x y (rfl | rfl)
    · rfl
    · exact abs_neg y
  apply key
  unfold sep3
  generalize hpa : a.plane = pa at *
  generalize hpb : b.plane = pb at *
  generalize hpd : d.plane = pd at *
  interval_cases pa <;> interval_cases pb <;> interval_cases pd <;> simp only [ne_eq, not_true_eq_false] at hab had hbd <;>
    simp only [ea, eb, ed] <;> first | (left; ring1) | (right; ring1)

theorem compatible3 {g : Geo} {c : Cfg} {a b d : Hit} (hv : a.plane ≠ b.plane ∧ a.plane ≠ d.plane ∧ b.plane ≠ d.plane)
    (h1 : a.plane < 3) (h2 : b.plane < 3) (h3 : d.plane < 3) :
    compatible g c [a, b, d] = true ↔ pairOk g c a b = true ∧ pairOk g c a d = true ∧ pairOk g c b d = true ∧ |sep3 g a b d| < c.maxS := by
  rw [← sep_abs g a b d hv.1 hv.2.1 hv.2.2 h1 h2 h3]
  simp [compatible, allPairs, and_assoc]

theorem compatible2 {g : Geo} {c : Cfg} {a b : Hit} : compatible g c [a, b] = true ↔ pairOk g c a b = true := by
  simp [compatible, allPairs]

/-- in ideal planes the search of the third hit finds every compatible one -/
theorem thirdOk_iff {g : Geo} {c : Cfg} {a b d : Hit} (hv : a.plane ≠ b.plane ∧ a.plane ≠ d.plane ∧ b.plane ≠ d.plane)
    (h1 : a.plane < 3) (h2 : b.plane < 3) (h3 : d.plane < 3) (ia : Ideal g a.tpc a.plane) (ib : Ideal g b.tpc b.plane)
    (id : Ideal g d.tpc d.plane) (hx : (g.of a).s * (g.of b).c - (g.of b).s * (g.of a).c ≠ 0) :
    thirdOk g c a b d = true ↔ compatible g c [a, b, d] = true := by
  have sa : (g.wire a.tpc a.plane 0).s0 = (g.of a).s := by rw [← s_eq_s0]; exact (ia.sin _).symm
  have sb : (g.wire b.tpc b.plane 0).s0 = (g.of b).s := by rw [← s_eq_s0]; exact (ib.sin _).symm
  have sd : (g.wire d.tpc d.plane 0).s0 = (g.of d).s := by rw [← s_eq_s0]; exact (id.sin _).symm
  have ca : (g.wire a.tpc a.plane 0).c0 = (g.of a).c := by rw [← c_eq_c0]; exact (ia.cos _).symm
  have cb : (g.wire b.tpc b.plane 0).c0 = (g.of b).c := by rw [← c_eq_c0]; exact (ib.cos _).symm
  have cd : (g.wire d.tpc d.plane 0).c0 = (g.of d).c := by rw [← c_eq_c0]; exact (id.cos _).symm
  constructor
  · intro h
    unfold thirdOk at h
    simp only [Bool.and_eq_true] at h
    exact h.2
  · intro h
    have hc := (compatible3 hv h1 h2 h3).1 h
    obtain ⟨_, had, hbd, hS⟩ := hc
    have eS : sep3 g a b d = ((g.of b).s * (g.of d).c - (g.of d).s * (g.of b).c) * oblique g a +
        ((g.of d).s * (g.of a).c - (g.of a).s * (g.of d).c) * oblique g b +
        ((g.of a).s * (g.of b).c - (g.of b).s * (g.of a).c) * oblique g d := by
      unfold sep3
      rw [← ia.oblique, ← ib.oblique, ← id.oblique]
    unfold thirdOk
    dsimp only
    rw [sa, sb, sd, ca, cb, cd]
    generalize ((g.of b).s * (g.of d).c - (g.of d).s * (g.of b).c) = s23 at *
    generalize ((g.of d).s * (g.of a).c - (g.of a).s * (g.of d).c) = s31 at *
    generalize ((g.of a).s * (g.of b).c - (g.of b).s * (g.of a).c) = s12 at *
    have hp := id.pitch
    have hod : oblique g d = d.wire * g.pitch d.tpc d.plane + (g.wire d.tpc d.plane 0).dist0 := rfl
    generalize oblique g a = u1 at *
    generalize oblique g b = u2 at *
    generalize oblique g d = u3 at *
    generalize g.pitch d.tpc d.plane = π at *
    generalize (g.wire d.tpc d.plane 0).dist0 = d3 at *
    rw [eS] at hS
    have hw : (d.wire : ℚ) = ((-u1 * s23 - u2 * s31) / s12 - d3) / π + (s23 * u1 + s31 * u2 + s12 * u3) / (s12 * π) := by
      have : (d.wire : ℚ) * π = u3 - d3 := by rw [hod]; ring
      field_simp
      rw [show (d.wire : ℚ) * s12 * π = ((d.wire : ℚ) * π) * s12 by ring, this]
      ring
    have hle : |(s23 * u1 + s31 * u2 + s12 * u3) / (s12 * π)| ≤ |c.maxS / (s12 * π)| := by
      rw [abs_div, abs_div]
      apply div_le_div_of_nonneg_right _ (abs_nonneg _)
      exact le_trans (le_of_lt hS) (le_abs_self _)
    obtain ⟨l1, l2⟩ := abs_le.1 hle
    simp only [Bool.and_eq_true, decide_eq_true_eq]
    refine ⟨⟨⟨⟨⟨?_, ?_⟩, ((pairOk_iff g c a d).1 had).2.2⟩, ((pairOk_iff g c b d).1 hbd).2.2⟩, le_of_lt hS⟩, h⟩
    · rw [Int.toNat_le]
      apply Int.ceil_le.2
      push_cast
      linarith
    · apply (Int.le_toNat _).2
      · apply Int.le_floor.2
        push_cast
        linarith
      · apply Int.floor_nonneg.2
        have : (0 : ℚ) ≤ d.wire := Nat.cast_nonneg _
        linarith

/-- the wires whose line crosses the wire of `a` are reached -/
theorem reach_of_cross {g : Geo} {a b : Hit} (ht : a.tpc = b.tpc) (ib : Ideal g b.tpc b.plane) (lam : ℚ) (h0 : 0 ≤ lam) (h1 : lam ≤ 1)
    (hx : ((1 - lam) * (g.of a).z1 + lam * (g.of a).z2) * (g.of b).s - ((1 - lam) * (g.of a).y1 + lam * (g.of a).y2) * (g.of b).c = (g.of b).u) :
    reach g a b.plane b.wire = true := by
  have sb : (g.wire b.tpc b.plane 0).s0 = (g.of b).s := by rw [← s_eq_s0]; exact (ib.sin _).symm
  have cb : (g.wire b.tpc b.plane 0).c0 = (g.of b).c := by rw [← c_eq_c0]; exact (ib.cos _).symm
  have hu : (g.of b).u = (g.wire b.tpc b.plane 0).dist0 + b.wire * g.pitch b.tpc b.plane := by
    rw [ib.oblique]; unfold oblique; ring
  have hp := ib.pitch
  unfold reach
  dsimp only
  have e1 : wireAt g a.tpc b.plane (g.of a).y1 (g.of a).z1 =
      (-(g.of a).y1 * (g.of b).c + (g.of a).z1 * (g.of b).s - (g.wire b.tpc b.plane 0).dist0) / g.pitch b.tpc b.plane := by
    unfold wireAt; rw [ht, sb, cb]
  have e2 : wireAt g a.tpc b.plane (g.of a).y2 (g.of a).z2 =
      (-(g.of a).y2 * (g.of b).c + (g.of a).z2 * (g.of b).s - (g.wire b.tpc b.plane 0).dist0) / g.pitch b.tpc b.plane := by
    unfold wireAt; rw [ht, sb, cb]
  have hw : (b.wire : ℚ) = (1 - lam) * wireAt g a.tpc b.plane (g.of a).y1 (g.of a).z1 + lam * wireAt g a.tpc b.plane (g.of a).y2 (g.of a).z2 := by
    rw [e1, e2]
    field_simp
    rw [hu] at hx
    linarith
  generalize wireAt g a.tpc b.plane (g.of a).y1 (g.of a).z1 = w1 at *
  generalize wireAt g a.tpc b.plane (g.of a).y2 (g.of a).z2 = w2 at *
  have hb0 : (0 : ℚ) ≤ b.wire := Nat.cast_nonneg _
  have hmin : min w1 w2 ≤ b.wire := by
    rw [hw]
    have := min_le_left w1 w2
    have := min_le_right w1 w2
    nlinarith
  have hmax : (b.wire : ℚ) ≤ max w1 w2 := by
    rw [hw]
    have := le_max_left w1 w2
    have := le_max_right w1 w2
    nlinarith
  simp only [Bool.and_eq_true, decide_eq_true_eq]
  constructor
  · rw [Int.toNat_le]
    have : (⌊max 0 (min w1 w2)⌋ : ℚ) ≤ b.wire := le_trans (Int.floor_le _) (max_le hb0 hmin)
    exact_mod_cast this
  · have : (b.wire : ℤ) ≤ ⌊max 0 (max w1 w2 + 1)⌋ := by
      apply Int.le_floor.2
      push_cast
      exact le_trans (by linarith) (le_max_right _ _)
    omega

/-! ## The exchange sort -/

theorem exchRow_perm (sw : Nat → Nat → Bool) (a : Nat) (l : List Nat) : ((exchRow sw a l).1 :: (exchRow sw a l).2).Perm (a :: l) := by
  induction l generalizing a with
  | nil => exact List.Perm.refl _
  | cons b l ih =>
    unfold exchRow
    split
    · exact ((List.Perm.swap _ _ _).trans (List.Perm.cons a (ih b)))
    · exact ((List.Perm.swap _ _ _).trans ((List.Perm.cons b (ih a)).trans (List.Perm.swap _ _ _)))

theorem exchRow_length (sw : Nat → Nat → Bool) (a : Nat) (l : List Nat) : (exchRow sw a l).2.length = l.length := by
  have := (exchRow_perm sw a l).length_eq
  simpa using this

theorem exchSort_cons (sw : Nat → Nat → Bool) (a : Nat) (l : List Nat) :
    exchSort sw (a :: l) = (exchRow sw a l).1 :: exchSort sw (exchRow sw a l).2 := by
  unfold exchSort
  rw [exchRow_length]
  rfl

/-- induction along the rows -/
theorem exchSort_induct (sw : Nat → Nat → Bool) (P : List Nat → Prop) (h0 : P []) (h1 : ∀ a l, P (exchRow sw a l).2 → P (a :: l)) (l : List Nat) : P l := by
  generalize hn : l.length = n
  induction n generalizing l with
  | zero => rw [List.length_eq_zero_iff.1 hn]; exact h0
  | succ n ih =>
    match l, hn with
    | a :: l, hn => exact h1 a l (ih _ (by rw [exchRow_length]; simpa using hn))

theorem exchSort_perm (sw : Nat → Nat → Bool) (l : List Nat) : (exchSort sw l).Perm l := by
  induction l using exchSort_induct sw with
  | h0 => rfl
  | h1 a l ih =>
    rw [exchSort_cons]
    exact (List.Perm.cons _ ih).trans (exchRow_perm sw a l)

theorem exchRow_min (sw : Nat → Nat → Bool) (S : Nat → Prop) (hasym : ∀ a b, a ≠ b → S a → S b → sw a b = true → sw b a = false)
    (htrans : ∀ a b d, S a → S b → S d → sw a b = false → sw b d = false → sw a d = false) (a : Nat) (l : List Nat) (hS : ∀ x ∈ a :: l, S x) (hN : (a :: l).Nodup) :
    (exchRow sw a l).1 = a ∨ sw (exchRow sw a l).1 a = false := by
  induction l generalizing a with
  | nil => left; rfl
  | cons b l ih =>
    have hSr : ∀ b', (∀ x ∈ b' :: l, S x) → S (exchRow sw b' l).1 := fun b' h =>
      h _ ((exchRow_perm sw b' l).mem_iff.1 (by simp))
    obtain ⟨hne, hNa, hNb⟩ : a ≠ b ∧ (a :: l).Nodup ∧ (b :: l).Nodup := by simp at hN ⊢; tauto
    unfold exchRow
    split
    next h =>
      right
      have hSb : ∀ x ∈ b :: l, S x := fun x hx => hS x (by simp at hx ⊢; tauto)
      rcases ih b hSb hNb with e | e
      · rw [show (exchRow sw b l).1 = b from e]; exact hasym a b hne (hS a (by simp)) (hS b (by simp)) h
      · exact htrans _ b a (hSr b hSb) (hS b (by simp)) (hS a (by simp)) e (hasym a b hne (hS a (by simp)) (hS b (by simp)) h)
    next h => exact ih a (fun x hx => hS x (by simp at hx ⊢; tauto)) hNa

theorem exchRow_le (sw : Nat → Nat → Bool) (S : Nat → Prop) (hasym : ∀ a b, a ≠ b → S a → S b → sw a b = true → sw b a = false)
    (htrans : ∀ a b d, S a → S b → S d → sw a b = false → sw b d = false → sw a d = false) (a : Nat) (l : List Nat) (hS : ∀ x ∈ a :: l, S x) (hN : (a :: l).Nodup) :
    ∀ x ∈ (exchRow sw a l).2, sw (exchRow sw a l).1 x = false := by
  induction l generalizing a with
  | nil => intro x hx; cases hx
  | cons b l ih =>
    have hSr : ∀ b', (∀ x ∈ b' :: l, S x) → S (exchRow sw b' l).1 := fun b' h =>
      h _ ((exchRow_perm sw b' l).mem_iff.1 (by simp))
    obtain ⟨hne, hNa, hNb⟩ : a ≠ b ∧ (a :: l).Nodup ∧ (b :: l).Nodup := by simp at hN ⊢; tauto
    unfold exchRow
    have hSa : ∀ x ∈ a :: l, S x := fun x hx => hS x (by simp at hx ⊢; tauto)
    have hSb : ∀ x ∈ b :: l, S x := fun x hx => hS x (by simp at hx ⊢; tauto)
    split
    next h =>
      intro x hx
      rcases List.mem_cons.1 hx with rfl | hx
      · rcases exchRow_min sw S hasym htrans b l hSb hNb with e | e
        · rw [show (exchRow sw b l).1 = b from e]; exact hasym x b hne (hS x (by simp)) (hS b (by simp)) h
        · exact htrans _ b x (hSr b hSb) (hS b (by simp)) (hS x (by simp)) e (hasym x b hne (hS x (by simp)) (hS b (by simp)) h)
      · exact ih b hSb hNb x hx
    next h =>
      intro x hx
      rcases List.mem_cons.1 hx with rfl | hx
      · have h' : sw a x = false := by simpa using h
        rcases exchRow_min sw S hasym htrans a l hSa hNa with e | e
        · rw [show (exchRow sw a l).1 = a from e]; exact h'
        · exact htrans _ a x (hSr a hSa) (hS a (by simp)) (hS x (by simp)) e h'
      · exact ih a hSa hNa x hx

theorem exchSort_sorted (sw : Nat → Nat → Bool) (S : Nat → Prop) (hasym : ∀ a b, a ≠ b → S a → S b → sw a b = true → sw b a = false)
    (htrans : ∀ a b d, S a → S b → S d → sw a b = false → sw b d = false → sw a d = false) (l : List Nat) (hS : ∀ x ∈ l, S x) (hN : l.Nodup) :
    (exchSort sw l).Pairwise (fun a b => sw a b = false) := by
  induction l using exchSort_induct sw with
  | h0 => exact List.Pairwise.nil
  | h1 a l ih =>
    rw [exchSort_cons]
    refine List.pairwise_cons.2 ⟨?_, ih ?_ ?_⟩
    · intro x hx
      exact exchRow_le sw S hasym htrans a l hS hN x ((exchSort_perm sw _).mem_iff.1 hx)
    · intro x hx
      exact hS x ((exchRow_perm sw a l).mem_iff.1 (List.mem_cons_of_mem _ hx))
    · exact (List.nodup_cons.1 ((exchRow_perm sw a l).nodup_iff.2 hN)).2

theorem index_perm (g : Geo) (c : Cfg) (hits : List Hit) (t : Nat) : (index g c hits t).Perm (List.range (g.nplane t)) := exchSort_perm _ _

theorem index_nodup (g : Geo) (c : Cfg) (hits : List Hit) (t : Nat) : (index g c hits t).Nodup :=
  (index_perm g c hits t).nodup_iff.2 List.nodup_range

/-- at most one collection plane per TPC: the exchange sort orders the planes by number of hits, the collection plane last when preferred -/
theorem index_sorted (g : Geo) (c : Cfg) (hits : List Hit) (t : Nat)
    (hone : c.preferColl = true → ∀ p q, g.coll t p = true → g.coll t q = true → p = q) :
    (index g c hits t).Pairwise (fun p q => (planeHits c hits t p).length ≤ (planeHits c hits t q).length ∨ (c.preferColl && g.coll t q) = true) ∧
    (index g c hits t).Pairwise (fun p _ => (c.preferColl && g.coll t p) = false) := by
  have hs := exchSort_sorted (swapIf g c hits t) (fun _ => True) ?_ ?_ (List.range (g.nplane t)) (fun _ _ => trivial) List.nodup_range
  · have hi : index g c hits t = exchSort (swapIf g c hits t) (List.range (g.nplane t)) := rfl
    have hd := index_nodup g c hits t
    have : (index g c hits t).Pairwise (fun a b => swapIf g c hits t a b = false) := hs
    constructor
    · refine this.imp ?_
      intro p q hpq
      unfold swapIf at hpq
      simp only [Bool.or_eq_false_iff, Bool.and_eq_false_iff, decide_eq_false_iff_not, Bool.not_eq_false'] at hpq
      rcases hpq.1 with h | h
      · left; omega
      · right; exact h
    · refine this.imp ?_
      intro p q hpq
      unfold swapIf at hpq
      simp only [Bool.or_eq_false_iff] at hpq
      exact hpq.2
  · intro a b hne _ _ h
    unfold swapIf at h ⊢
    cases hp : c.preferColl
    · simp [hp] at h ⊢; omega
    · have hn : ¬ (g.coll t a = true ∧ g.coll t b = true) := fun h' => hne (hone hp a b h'.1 h'.2)
      cases ha : g.coll t a <;> cases hb : g.coll t b <;> simp [hp, ha, hb] at h hn ⊢
      omega
  · intro a b d _ _ _ h1 h2
    unfold swapIf at h1 h2 ⊢
    cases hp : c.preferColl
    · simp [hp] at h1 h2 ⊢; omega
    · cases ha : g.coll t a <;> cases hb : g.coll t b <;> cases hd : g.coll t d <;> simp [hp, ha, hb, hd] at h1 h2 ⊢
      omega

end Verif.SpAlg

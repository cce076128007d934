import Verif.Cluster.BlurImage
import Mathlib.Algebra.BigOperators.Group.List.Basic
/-!
# C140: the blur is a convolution
-/
namespace Verif.Blur
open Verif

/-- what the charge in bin `(x, y)` adds to bin `(i, j)`: the Gaussian weight of the offset inside the blurring region, which is
`bw` wires and `bt` ticks times the scale of the hit -/
def spread (P : Cfg) (g : Nat → Nat → Int → Int → ℚ) (pars : Nat × Nat × Nat × Nat) (im : Img) (hm : HitMap) (x y i j : Nat) : ℚ :=
  match hm x y with
  | none => 0
  | some h =>
    if |(i : Int) - x| ≤ pars.1 ∧ |(j : Int) - y| ≤ (pars.2.1 * tickScale P pars.2.2.2 h.rms : Nat) then
      g pars.2.2.1 (pars.2.2.2 * tickScale P pars.2.2.2 h.rms) ((i : Int) - x) ((j : Int) - y) * im.val x y
    else 0

theorem mem_intRange {a b v : Int} : v ∈ intRange a b ↔ a ≤ v ∧ v < b := by
  simp only [intRange, List.mem_map, List.mem_range]
  constructor
  · rintro ⟨k, hk, rfl⟩; omega
  · rintro ⟨h1, h2⟩; exact ⟨(v - a).toNat, by omega, by omega⟩

theorem nodup_intRange (a b : Int) : (intRange a b).Nodup := by
  unfold intRange
  refine List.Nodup.map ?_ List.nodup_range
  intro x y h
  simpa using h

theorem kernel_get (P : Cfg) (g : Nat → Nat → Int → Int → ℚ) (sw st : Nat) {bx by_ : Int} (hx : |bx| ≤ P.blurWire)
    (hy : |by_| ≤ (P.blurTick * P.maxTickWidth : Nat)) :
    0 ≤ (kW P : Int) * ((kH P / 2 : Nat) + by_) + ((kW P / 2 : Nat) + (bx - 0)) ∧
    (kW P : Int) * ((kH P / 2 : Nat) + by_) + ((kW P / 2 : Nat) + (bx - 0)) < (kernel P g sw st).length ∧
    (kernel P g sw st).getD ((kW P : Int) * ((kH P / 2 : Nat) + by_) + ((kW P / 2 : Nat) + (bx - 0))).toNat 0 = g sw st bx by_ := by
  rw [abs_le] at hx hy
  have e1 : kW P / 2 = P.blurWire := by unfold kW; omega
  have e2 : kH P / 2 = P.blurTick * P.maxTickWidth := by
    unfold kH
    rw [Nat.mul_assoc]; omega
  rw [e1, e2]
  obtain ⟨a, ha⟩ : ∃ a : Nat, (a : Int) = (P.blurTick * P.maxTickWidth : Nat) + by_ := ⟨((P.blurTick * P.maxTickWidth : Nat) + by_).toNat, by omega⟩
  obtain ⟨c, hc⟩ : ∃ c : Nat, (c : Int) = P.blurWire + (bx - 0) := ⟨(P.blurWire + (bx - 0)).toNat, by omega⟩
  rw [← ha, ← hc]
  have hcl : c < kW P := by unfold kW; omega
  have hal : a < kH P := by
    have : kH P = 2 * (P.blurTick * P.maxTickWidth) + 1 := by unfold kH; rw [Nat.mul_assoc]
    omega
  have hlen : (kernel P g sw st).length = kW P * kH P := by simp [kernel]
  have hlt : kW P * a + c < kW P * kH P := by
    have := Nat.mul_le_mul_left (kW P) (Nat.succ_le_of_lt hal)
    rw [Nat.mul_succ] at this
    omega
  have hcast : (kW P : Int) * a + c = ((kW P * a + c : Nat) : Int) := by push_cast; ring
  rw [hcast, hlen]
  refine ⟨by omega, by exact_mod_cast hlt, ?_⟩
  rw [Int.toNat_natCast]
  unfold kernel
  rw [List.getD_eq_getElem?_getD, List.getElem?_map, List.getElem?_range hlt]
  simp only [Option.map_some, Option.getD_some]
  rw [Nat.mul_add_mod, Nat.mod_eq_of_lt hcl, Nat.mul_add_div (by omega), Nat.div_eq_of_lt hcl]
  congr 1 <;> omega

/-- the loop over `blury` without dead wires -/
theorem blurCol_spec (P : Cfg) (g : Nat → Nat → Int → Int → ℚ) (sw st : Nat) (im : Img) (x y : Nat) (bx : Int)
    (hx : |bx| ≤ P.blurWire) (hxn : (x : Int) + bx < im.nx) (hx0 : 0 ≤ (x : Int) + bx) (L : List Int) (hnd : L.Nodup)
    (hL : ∀ b ∈ L, |b| ≤ (P.blurTick * P.maxTickWidth : Nat)) : ∀ (copy : Nat → Nat → ℚ),
    ∃ copy', loopM (blurOne P im (fun _ => false) (kernel P g sw st) x y bx) L ⟨copy, 0⟩ = some ⟨copy', 0⟩ ∧
      ∀ i j, i < im.nx → j < im.ny → copy' i j = copy i j +
        if (i : Int) = x + bx ∧ (j : Int) - y ∈ L then g sw st bx ((j : Int) - y) * im.val x y else 0 := by
  induction L with
  | nil => intro copy; exact ⟨copy, rfl, by simp⟩
  | cons b L ih =>
    intro copy
    rw [List.nodup_cons] at hnd
    obtain ⟨k1, k2, k3⟩ := kernel_get P g sw st hx (hL b List.mem_cons_self)
    have hone : ∃ c1, blurOne P im (fun _ => false) (kernel P g sw st) x y bx ⟨copy, 0⟩ b = some ⟨c1, 0⟩ ∧
        ∀ i j, i < im.nx → j < im.ny → c1 i j = copy i j + if (i : Int) = x + bx ∧ (j : Int) - y = b then g sw st bx b * im.val x y else 0 := by
      unfold blurOne
      simp only [Bool.false_eq_true, and_false, if_false]
      rw [if_pos ⟨k1, k2⟩, k3]
      refine ⟨if 0 ≤ (x : Int) + bx ∧ (x : Int) + bx < im.nx ∧ 0 ≤ (y : Int) + b ∧ (y : Int) + b < im.ny then
        fun i j => if i = ((x : Int) + bx).toNat ∧ j = ((y : Int) + b).toNat then copy i j + g sw st bx b * im.val x y else copy i j
        else copy, ?_, ?_⟩
      · by_cases hp : 0 < bx
        · rw [if_pos hp, if_pos hxn]
        · rw [if_neg hp]
      · intro i j hi hj
        by_cases hr : 0 ≤ (x : Int) + bx ∧ (x : Int) + bx < im.nx ∧ 0 ≤ (y : Int) + b ∧ (y : Int) + b < im.ny
        · rw [if_pos hr]
          by_cases hm : i = ((x : Int) + bx).toNat ∧ j = ((y : Int) + b).toNat
          · simp only [if_pos hm]
            rw [if_pos ⟨by omega, by omega⟩]
          · simp only [if_neg hm]
            rw [if_neg (by rintro ⟨h1, h2⟩; exact hm ⟨by omega, by omega⟩), add_zero]
        · rw [if_neg hr, if_neg (by rintro ⟨h1, h2⟩; exact hr ⟨by omega, by omega, by omega, by omega⟩), add_zero]
    obtain ⟨c1, e1, f1⟩ := hone
    obtain ⟨c2, e2, f2⟩ := ih hnd.2 (fun b hb => hL b (List.mem_cons_of_mem _ hb)) c1
    refine ⟨c2, ?_, ?_⟩
    · unfold loopM; rw [e1]; exact e2
    · intro i j hi hj
      rw [f2 i j hi hj, f1 i j hi hj]
      by_cases hix : (i : Int) = x + bx
      · by_cases hjb : (j : Int) - y = b
        · have : (j : Int) - y ∉ L := by rw [hjb]; exact hnd.1
          rw [if_pos ⟨hix, hjb⟩, if_neg (fun h => this h.2), if_pos ⟨hix, by rw [hjb]; exact List.mem_cons_self⟩, hjb, add_zero]
        · rw [if_neg (fun h => hjb h.2), add_zero]
          by_cases hL' : (j : Int) - y ∈ L
          · rw [if_pos ⟨hix, hL'⟩, if_pos ⟨hix, List.mem_cons_of_mem _ hL'⟩]
          · rw [if_neg (fun h => hL' h.2), if_neg]
            rintro ⟨_, h⟩
            rw [List.mem_cons] at h
            exact h.elim hjb hL'
      · rw [if_neg (fun h => hix h.1), if_neg (fun h => hix h.1), if_neg (fun h => hix h.1), add_zero]

/-- the loop over `blurx` without dead wires -/
theorem blurRow_spec (P : Cfg) (g : Nat → Nat → Int → Int → ℚ) (sw st : Nat) (im : Img) (x y bt ts : Nat)
    (ht : bt * ts ≤ P.blurTick * P.maxTickWidth) (L : List Int) (hnd : L.Nodup)
    (hL : ∀ b ∈ L, |b| ≤ P.blurWire ∧ (x : Int) + b < im.nx) : ∀ (copy : Nat → Nat → ℚ),
    ∃ copy', loopM (blurCol P im (fun _ => false) (kernel P g sw st) bt ts x y) L ⟨copy, 0⟩ = some ⟨copy', 0⟩ ∧
      ∀ i j, i < im.nx → j < im.ny → copy' i j = copy i j +
        if (i : Int) - x ∈ L ∧ |(j : Int) - y| ≤ (bt * ts : Nat) then g sw st ((i : Int) - x) ((j : Int) - y) * im.val x y else 0 := by
  induction L with
  | nil => intro copy; exact ⟨copy, rfl, by simp⟩
  | cons b L ih =>
    intro copy
    rw [List.nodup_cons] at hnd
    obtain ⟨hb1, hb2⟩ := hL b List.mem_cons_self
    have hone : ∃ c1, blurCol P im (fun _ => false) (kernel P g sw st) bt ts x y ⟨copy, 0⟩ b = some ⟨c1, 0⟩ ∧
        ∀ i j, i < im.nx → j < im.ny → c1 i j = copy i j +
          if (i : Int) - x = b ∧ |(j : Int) - y| ≤ (bt * ts : Nat) then g sw st b ((j : Int) - y) * im.val x y else 0 := by
      unfold blurCol
      by_cases h0 : (x : Int) + b < 0
      · rw [if_pos h0]
        refine ⟨copy, rfl, fun i j hi hj => ?_⟩
        rw [if_neg (by rintro ⟨h, _⟩; omega), add_zero]
      · rw [if_neg h0]
        obtain ⟨c1, e1, f1⟩ := blurCol_spec P g sw st im x y b hb1 hb2 (not_lt.mp h0)
          (intRange (-((bt * ts : Nat) : Int)) ((bt * ts : Nat) + 1)) (nodup_intRange _ _) (by
            intro c hc
            rw [mem_intRange] at hc
            rw [abs_le]
            have : ((bt * ts : Nat) : Int) ≤ (P.blurTick * P.maxTickWidth : Nat) := by exact_mod_cast ht
            constructor <;> omega) copy
        refine ⟨c1, e1, fun i j hi hj => ?_⟩
        rw [f1 i j hi hj]
        congr 1
        refine if_congr ?_ rfl rfl
        rw [mem_intRange, abs_le]
        constructor <;> rintro ⟨h1, h2⟩ <;> refine ⟨by omega, by omega, by omega⟩
    obtain ⟨c1, e1, f1⟩ := hone
    obtain ⟨c2, e2, f2⟩ := ih hnd.2 (fun b hb => hL b (List.mem_cons_of_mem _ hb)) c1
    refine ⟨c2, ?_, ?_⟩
    · unfold loopM; rw [e1]; exact e2
    · intro i j hi hj
      rw [f2 i j hi hj, f1 i j hi hj]
      by_cases hj' : |(j : Int) - y| ≤ (bt * ts : Nat)
      · by_cases hib : (i : Int) - x = b
        · have : (i : Int) - x ∉ L := by rw [hib]; exact hnd.1
          rw [if_pos ⟨hib, hj'⟩, if_neg (fun h => this h.1), if_pos ⟨by rw [hib]; exact List.mem_cons_self, hj'⟩, hib, add_zero]
        · rw [if_neg (fun h => hib h.1), add_zero]
          by_cases hL' : (i : Int) - x ∈ L
          · rw [if_pos ⟨hL', hj'⟩, if_pos ⟨List.mem_cons_of_mem _ hL', hj'⟩]
          · rw [if_neg (fun h => hL' h.1), if_neg]
            rintro ⟨h, _⟩
            rw [List.mem_cons] at h
            exact h.elim hib hL'
      · rw [if_neg (fun h => hj' h.2), if_neg (fun h => hj' h.2), if_neg (fun h => hj' h.2), add_zero]

theorem tickScale_le (P : Cfg) (st : Nat) (rms : ℚ) (hM : 1 ≤ P.maxTickWidth) : tickScale P st rms ≤ P.maxTickWidth := by
  unfold tickScale; omega

theorem one_le_tickScale (P : Cfg) (st : Nat) (rms : ℚ) : 1 ≤ tickScale P st rms := by
  unfold tickScale; omega

/-- the parameters of the blur fit the kernels -/
structure Fits (P : Cfg) (pars : Nat × Nat × Nat × Nat) : Prop where
  bw : pars.1 ≤ P.blurWire
  bt : pars.2.1 ≤ P.blurTick
  sw : (pars.2.2.1 : ℚ) ≤ P.sigmaWire
  st : (pars.2.2.2 : ℚ) ≤ P.sigmaTick
  mt : 1 ≤ P.maxTickWidth

theorem kernelAt_some {P : Cfg} {pars : Nat × Nat × Nat × Nat} (hf : Fits P pars) (g : Nat → Nat → Int → Int → ℚ) (rms : ℚ) :
    kernelAt P g pars.2.2.1 (pars.2.2.2 * tickScale P pars.2.2.2 rms) =
      some (kernel P g pars.2.2.1 (pars.2.2.2 * tickScale P pars.2.2.2 rms)) := by
  unfold kernelAt
  rw [if_pos]
  have key : ∀ (n : Nat) (q : ℚ), (n : ℚ) ≤ q → n < ⌊q + 1⌋.toNat := by
    intro n q h
    have : ((n : Int) + 1) ≤ ⌊q + 1⌋ := by
      rw [Int.le_floor]; push_cast; linarith
    omega
  refine ⟨key _ _ hf.sw, key _ _ ?_⟩
  push_cast
  have h1 : ((tickScale P pars.2.2.2 rms : Nat) : ℚ) ≤ (P.maxTickWidth : ℚ) := by exact_mod_cast tickScale_le P _ rms hf.mt
  have h2 : (0 : ℚ) ≤ (pars.2.2.2 : ℚ) := Nat.cast_nonneg _
  have h3 : (0 : ℚ) ≤ (P.maxTickWidth : ℚ) := Nat.cast_nonneg _
  have := hf.st
  nlinarith

theorem deadCount_none (nx x r : Nat) : deadCount (fun _ => false) nx x r = (0, 0) := by
  simp [deadCount]

theorem blurBin_spec {P : Cfg} {pars : Nat × Nat × Nat × Nat} (hf : Fits P pars) (g : Nat → Nat → Int → Int → ℚ) (im : Img)
    (hm : HitMap) (x y : Nat) (hmar : im.val x y ≠ 0 → x + pars.1 < im.nx ∧ (hm x y).isSome) (copy : Nat → Nat → ℚ) :
    ∃ copy', blurBin P g pars im hm (fun _ => false) copy (x, y) = some copy' ∧
      ∀ i j, i < im.nx → j < im.ny → copy' i j = copy i j + spread P g pars im hm x y i j := by
  unfold blurBin
  simp only
  by_cases h0 : im.val x y = 0
  · rw [if_pos h0]
    refine ⟨copy, rfl, fun i j _ _ => ?_⟩
    unfold spread
    rw [h0]
    cases hm x y <;> simp
  · rw [if_neg h0]
    obtain ⟨hx, hh⟩ := hmar h0
    obtain ⟨h, hh⟩ := Option.isSome_iff_exists.mp hh
    rw [hh]
    simp only
    rw [kernelAt_some hf g h.rms]
    simp only [deadCount_none]
    obtain ⟨c1, e1, f1⟩ := blurRow_spec P g pars.2.2.1 (pars.2.2.2 * tickScale P pars.2.2.2 h.rms) im x y pars.2.1
      (tickScale P pars.2.2.2 h.rms) (Nat.mul_le_mul hf.bt (tickScale_le P _ _ hf.mt))
      (intRange (-((pars.1 + 0 : Nat) : Int)) ((pars.1 + 1 + 0 : Nat) : Int)) (nodup_intRange _ _) (by
        intro b hb
        rw [mem_intRange] at hb
        have := hf.bw
        rw [abs_le]
        refine ⟨⟨by omega, by omega⟩, by omega⟩) copy
    rw [show ((0 : Nat) : Int) = 0 from rfl, e1]
    refine ⟨c1, rfl, fun i j hi hj => ?_⟩
    rw [f1 i j hi hj]
    congr 1
    unfold spread
    rw [hh]
    simp only
    refine if_congr ?_ rfl rfl
    rw [mem_intRange, abs_le (a := (i : Int) - x)]
    constructor
    · rintro ⟨⟨h1, h2⟩, h3⟩; exact ⟨⟨by omega, by omega⟩, h3⟩
    · rintro ⟨⟨h1, h2⟩, h3⟩; exact ⟨⟨by omega, by omega⟩, h3⟩

theorem mem_xyBins {nx ny : Nat} {v : Nat × Nat} : v ∈ xyBins nx ny ↔ v.1 < nx ∧ v.2 < ny := by
  simp only [xyBins, List.mem_flatMap, List.mem_map, List.mem_range]
  constructor
  · rintro ⟨x, hx, y, hy, rfl⟩; exact ⟨hx, hy⟩
  · rintro ⟨h1, h2⟩; exact ⟨v.1, h1, v.2, h2, rfl⟩

/-- **C140.** Without dead wires, with blurring parameters that fit the kernels and a blur that does not reach over the end of the
image, the blurred image is the convolution: every bin holds the sum over all bins of charge times Gaussian weight of the offset. -/
theorem C140_convolution (P : Cfg) (g : Nat → Nat → Int → Int → ℚ) (pars : Nat × Nat × Nat × Nat) (im : Img) (hm : HitMap)
    (hs : ¬ (P.sigmaWire = 0 ∧ P.sigmaTick = 0)) (hf : Fits P pars)
    (hmar : ∀ x y, x < im.nx → y < im.ny → im.val x y ≠ 0 → x + pars.1 < im.nx ∧ (hm x y).isSome) :
    ∃ bl, blur P g pars im hm (fun _ => false) = some bl ∧ bl.nx = im.nx ∧ bl.ny = im.ny ∧
      ∀ i j, i < im.nx → j < im.ny →
        bl.val i j = ((xyBins im.nx im.ny).map (fun v => spread P g pars im hm v.1 v.2 i j)).sum := by
  have key : ∀ (L : List (Nat × Nat)), (∀ v ∈ L, v.1 < im.nx ∧ v.2 < im.ny) → ∀ copy : Nat → Nat → ℚ,
      ∃ copy', loopM (blurBin P g pars im hm (fun _ => false)) L copy = some copy' ∧
        ∀ i j, i < im.nx → j < im.ny → copy' i j = copy i j + (L.map (fun v => spread P g pars im hm v.1 v.2 i j)).sum := by
    intro L
    induction L with
    | nil => intro _ copy; exact ⟨copy, rfl, by simp⟩
    | cons v L ih =>
      intro hv copy
      obtain ⟨v1, v2⟩ := hv v List.mem_cons_self
      obtain ⟨c1, e1, f1⟩ := blurBin_spec hf g im hm v.1 v.2 (hmar v.1 v.2 v1 v2) copy
      obtain ⟨c2, e2, f2⟩ := ih (fun w hw => hv w (List.mem_cons_of_mem _ hw)) c1
      refine ⟨c2, ?_, fun i j hi hj => ?_⟩
      · unfold loopM
        rw [show v = (v.1, v.2) from rfl, e1]; exact e2
      · rw [f2 i j hi hj, f1 i j hi hj, List.map_cons, List.sum_cons]; ring
  obtain ⟨c, e, f⟩ := key (xyBins im.nx im.ny) (fun v hv => mem_xyBins.mp hv) (fun _ _ => 0)
  refine ⟨⟨im.nx, im.ny, c⟩, ?_, rfl, rfl, fun i j hi hj => ?_⟩
  · unfold blur
    rw [if_neg hs, e]; rfl
  · simp only
    rw [f i j hi hj, zero_add]

theorem roundAway_le {n : Nat} {q : ℚ} (h : |q| ≤ n) : (roundAway q).natAbs ≤ n := by
  rw [abs_le] at h
  unfold roundAway
  split_ifs with h0
  · have h1 : ⌊q + 1 / 2⌋ < (n : Int) + 1 := by
      rw [Int.floor_lt]; push_cast; linarith
    have h2 : 0 ≤ ⌊q + 1 / 2⌋ := Int.floor_nonneg.mpr (by linarith)
    omega
  · push Not at h0
    have h1 : -((n : Int)) - 1 < ⌈q - 1 / 2⌉ := by
      rw [Int.lt_ceil]; push_cast; linarith
    have h2 : ⌈q - 1 / 2⌉ ≤ 0 := by
      rw [Int.ceil_le]; push_cast; linarith
    omega

/-- **C140.** For a direction of length at most one, whole-number widths of at least one and blur radii of at least one, the
parameters found fit the kernels. -/
theorem C140_fits (P : Cfg) (ux uy : ℚ) (hx : |ux| ≤ 1) (hy : |uy| ≤ 1) (sw st : Nat) (h1 : P.sigmaWire = sw) (h2 : P.sigmaTick = st)
    (h3 : 1 ≤ sw) (h4 : 1 ≤ st) (h5 : 1 ≤ P.blurWire) (h6 : 1 ≤ P.blurTick) (h7 : 1 ≤ P.maxTickWidth) :
    Fits P (blurPars P ux uy) := by
  have key : ∀ (n : Nat) (u : ℚ), |u| ≤ 1 → (roundAway ((n : ℚ) * u)).natAbs ≤ n := by
    intro n u hu
    apply roundAway_le
    rw [abs_mul, Nat.abs_cast]
    have : (0 : ℚ) ≤ n := Nat.cast_nonneg _
    nlinarith
  refine ⟨?_, ?_, ?_, ?_, h7⟩
  · have := key P.blurWire ux hx
    simp only [blurPars]; omega
  · have := key P.blurTick uy hy
    simp only [blurPars]; omega
  · have := key sw ux hx
    simp only [blurPars]
    rw [h1]
    exact_mod_cast (by omega : max (roundAway ((sw : ℚ) * ux)).natAbs 1 ≤ sw)
  · have := key st uy hy
    simp only [blurPars]
    rw [h2]
    exact_mod_cast (by omega : max (roundAway ((st : ℚ) * uy)).natAbs 1 ≤ st)

/-- **C140.** The image made from hits is blurred without an access out of range when the blur radius is at most 19 wires: the
margin of the image is wide enough. -/
theorem C140_hits (P : Cfg) (g : Nat → Nat → Int → Int → ℚ) (pars : Nat × Nat × Nat × Nat) (window maxWires : Int) (hits : List Hit)
    (im : Img) (hm : HitMap) (hv : toVector window maxWires hits = .ok (im, hm)) (hne : hits ≠ [])
    (hs : ¬ (P.sigmaWire = 0 ∧ P.sigmaTick = 0)) (hf : Fits P pars) (h20 : P.blurWire ≤ 19) :
    ∃ bl, blur P g pars im hm (fun _ => false) = some bl ∧ bl.nx = im.nx ∧ bl.ny = im.ny ∧
      ∀ i j, i < im.nx → j < im.ny →
        bl.val i j = ((xyBins im.nx im.ny).map (fun v => spread P g pars im hm v.1 v.2 i j)).sum := by
  obtain ⟨im', hm', loW, loT, e, hfil, hmarg⟩ := C137_image window maxWires hits hne
  rw [hv] at e
  injection e with e
  injection e with e1 e2
  subst e1 e2
  refine C140_convolution P g pars im hm hs hf ?_
  intro x y _ _ hnz
  rcases hfil x y with ⟨_, h2, _⟩ | ⟨h, hh, ha, h2, _⟩
  · exact absurd h2 hnz
  · have := (hmarg h hh).2.1
    have hb := hf.bw
    have haw := ha.1
    refine ⟨by omega, by rw [h2]; rfl⟩

/-- a blur radius of one, a weight that only depends on the distance -/
def convG : Nat → Nat → Int → Int → ℚ := fun _ _ i j => if i = 0 ∧ j = 0 then 4 else if i = 0 ∨ j = 0 then 2 else 1
def convImg : Img := ⟨3, 3, fun x y => if x = 1 ∧ y = 1 then 5 else 0⟩
def convMap : HitMap := fun x y => if x = 1 ∧ y = 1 then some ⟨0, 1, 1, 5, 0⟩ else none

example : ((blur {} convG (1, 1, 1, 1) convImg convMap (fun _ => false)).map (fun b => (b.val 0 0, b.val 1 0, b.val 1 1))) = some (5, 10, 20) := by
  decide +kernel
example : Fits {} (1, 1, 1, 1) := ⟨le_refl _, le_refl _, by norm_num, by norm_num, le_refl _⟩

/-! ### Dead wires and other parameters: refutations -/

theorem loopM_none {α σ : Type} {f : σ → α → Option σ} {a : α} (h : ∀ s, f s a = none) : ∀ (L : List α), a ∈ L → ∀ s, loopM f L s = none := by
  intro L
  induction L with
  | nil => intro ha; simp at ha
  | cons b L ih =>
    intro ha s
    unfold loopM
    rw [List.mem_cons] at ha
    rcases ha with rfl | ha
    · rw [h]
    · cases f s b with
      | none => rfl
      | some s' => exact ih ha s'

theorem intRange_cons {a b : Int} (h : a < b) : ∃ L, intRange a b = a :: L := by
  unfold intRange
  obtain ⟨n, hn⟩ : ∃ n, (b - a).toNat = n + 1 := ⟨(b - a).toNat - 1, by omega⟩
  rw [hn, List.range_succ_eq_map]
  refine ⟨_, by rw [List.map_cons]; congr 1; simp⟩

/-- **C140, refuted in part.** A dead wire just below a hit: whenever the blur uses the full kernel (full radius on wires, full
height for the hit) and a wire within the radius below the hit is dead, the kernel is read before its first element. The count of
dead wires is subtracted where it has to be added. -/
theorem C140_dead_ub_refuted (P : Cfg) (g : Nat → Nat → Int → Int → ℚ) (pars : Nat × Nat × Nat × Nat) (im : Img) (hm : HitMap)
    (dead : Nat → Bool) (hs : ¬ (P.sigmaWire = 0 ∧ P.sigmaTick = 0)) (x y : Nat) (h : Hit) (hx : x < im.nx) (hy : y < im.ny)
    (hnz : im.val x y ≠ 0) (hh : hm x y = some h) (hbw : pars.1 = P.blurWire)
    (hbt : pars.2.1 * tickScale P pars.2.2.2 h.rms = P.blurTick * P.maxTickWidth)
    (hdead : 0 < (deadCount dead im.nx x pars.1).1) (hroom : pars.1 + (deadCount dead im.nx x pars.1).1 ≤ x) :
    blur P g pars im hm dead = none := by
  unfold blur
  rw [if_neg hs]
  rw [loopM_none (a := (x, y)) ?_ _ (mem_xyBins.mpr ⟨hx, hy⟩)]
  · rfl
  intro copy
  unfold blurBin
  simp only
  rw [if_neg hnz, hh]
  simp only
  cases hk : kernelAt P g pars.2.2.1 (pars.2.2.2 * tickScale P pars.2.2.2 h.rms) with
  | none => rfl
  | some ker =>
    simp only
    generalize deadCount dead im.nx x pars.1 = dc at hdead hroom
    obtain ⟨L, hL⟩ := intRange_cons (a := -((pars.1 + dc.1 : Nat) : Int)) (b := ((pars.1 + 1 + dc.2 : Nat) : Int)) (by omega)
    rw [hL]
    have : blurCol P im dead ker pars.2.1 (tickScale P pars.2.2.2 h.rms) x y ⟨copy, dc.1⟩ (-((pars.1 + dc.1 : Nat) : Int)) = none := by
      unfold blurCol
      rw [if_neg (by omega)]
      obtain ⟨L', hL'⟩ := intRange_cons (a := -((pars.2.1 * tickScale P pars.2.2.2 h.rms : Nat) : Int))
        (b := ((pars.2.1 * tickScale P pars.2.2.2 h.rms : Nat) : Int) + 1) (by omega)
      rw [hL']
      unfold loopM
      have : blurOne P im dead ker x y (-((pars.1 + dc.1 : Nat) : Int)) ⟨copy, dc.1⟩
          (-((pars.2.1 * tickScale P pars.2.2.2 h.rms : Nat) : Int)) = none := by
        unfold blurOne
        simp only
        have e1 : kW P / 2 = P.blurWire := by unfold kW; omega
        have e2 : kH P / 2 = P.blurTick * P.maxTickWidth := by
          unfold kH
          rw [Nat.mul_assoc]; omega
        rw [if_neg]
        rintro ⟨h1, _⟩
        rw [e1, e2, hbt] at h1
        have e3 : ((P.blurTick * P.maxTickWidth : Nat) : Int) + -((P.blurTick * P.maxTickWidth : Nat) : Int) = 0 := by omega
        rw [e3, Int.mul_zero] at h1
        split_ifs at h1 <;> omega
      rw [this]
    unfold loopM
    rw [this]
    rfl

/-- the theorem applies: one hit on wire bin 3, the wire below it dead -/
example : blur {} convG (1, 1, 1, 1) ⟨6, 3, fun x y => if x = 3 ∧ y = 1 then 5 else 0⟩
    (fun x y => if x = 3 ∧ y = 1 then some ⟨0, 1, 1, 5, 0⟩ else none) (fun w => decide (w = 2)) = none := by decide +kernel

/-- weights that tell the offsets apart -/
def deadG : Nat → Nat → Int → Int → ℚ := fun _ _ i j => 1000 + 10 * i + j
def deadCfg : Cfg := { blurWire := 2, blurTick := 2, sigmaWire := 2, sigmaTick := 2 }
/-- one hit of charge 1 at wire bin 3, tick bin 3 -/
def deadImg : Img := ⟨8, 7, fun x y => if (x, y) = (3, 3) then 1 else 0⟩
def deadMap : HitMap := fun x y => if (x, y) = (3, 3) then some ⟨0, 3, 3, 1, 0⟩ else none

/-- **C140, refuted in part.** Where the kernel is not left, a dead wire spoils the weights, because the count of dead wires changes
once for every tick of the dead wire, not once. With wire 4 dead, above the hit, wire 5 gets the weight of offset -1; with wire 2 dead,
below the hit, the bin of the hit itself gets the weight of offset 2. -/
theorem C140_dead_weight_refuted :
    (blur deadCfg deadG (1, 1, 1, 1) deadImg deadMap (fun w => decide (w = 4))).map (fun b => b.val 5 3) = some (deadG 1 1 (-1) 0) ∧
    (blur deadCfg deadG (1, 1, 1, 1) deadImg deadMap (fun w => decide (w = 2))).map (fun b => b.val 3 3) = some (deadG 1 1 2 0) ∧
    deadG 1 1 (-1) 0 ≠ deadG 1 1 1 0 ∧ deadG 1 1 2 0 ≠ deadG 1 1 0 0 := by decide +kernel

/-- **C140, refuted in part.** A width that is not a whole number of at least one reads outside the table of kernels: with a wire
width of zero (and a tick width that is not zero), and with a wire width of 3/2 for tracks along the wires. -/
theorem C140_sigma_refuted :
    blur { sigmaWire := 0 } convG (blurPars { sigmaWire := 0 } 1 0) convImg convMap (fun _ => false) = none ∧
    blur { sigmaWire := 3 / 2 } convG (blurPars { sigmaWire := 3 / 2 } 1 0) convImg convMap (fun _ => false) = none := by
  decide +kernel

end Verif.Blur

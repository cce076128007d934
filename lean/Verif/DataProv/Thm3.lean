import Verif.DataProv.Thm2
import Mathlib.Algebra.BigOperators.Ring.List

/-!
# Theorems about the image provider: blurring and patches
-/

namespace Verif.DataProv

/-! ## C368: blurring -/

/-- The value of the image at wire `w` and drift `d`, or `z` outside the image. -/
def valueAt (z : ℚ) (rows : List (List ℚ)) (w d : Int) : ℚ :=
  if 0 ≤ w ∧ 0 ≤ d then ((rows[w.toNat]?).bind fun r => r[d.toNat]?).getD z else z

theorem getD2 (rows : List (List ℚ)) (w d : Nat) : (rows.getD w []).getD d 0 = valueAt 0 rows w d := by
  unfold valueAt
  rw [if_pos ⟨by omega, by omega⟩, Int.toNat_natCast, Int.toNat_natCast, List.getD_eq_getElem?_getD, List.getD_eq_getElem?_getD]
  cases rows[w]? <;> simp

/-- **C368.** Blurring leaves the wires near both edges of the image as they are; on every other wire each pixel is the sum of the pixels of the same drift on the wires around it, with the weights of the
kernel; these wires are all in the image. -/
theorem C368_blur_partial (kernel : List ℚ) (rows : List (List ℚ)) (hk : 2 ≤ kernel.length) (left right : Nat) (hl : left = (kernel.length - 1) / 2) (hr : left + right + 1 = kernel.length)
    (hrows : right ≤ rows.length) :
    ∃ out, blur kernel rows = some out ∧ out.length = rows.length ∧ ∀ w row, rows[w]? = some row →
      (¬ (left ≤ w ∧ w + right < rows.length) → out[w]? = some row) ∧
      ((left ≤ w ∧ w + right < rows.length) → ∃ row', out[w]? = some row' ∧ row'.length = row.length ∧ (∀ i, i < kernel.length → w + i - left < rows.length ∧ left ≤ w + i) ∧
        ∀ d < row.length, row'[d]? = some (((List.range kernel.length).map fun i => kernel.getD i 0 * valueAt 0 rows ((w : Int) + i - left) d).sum)) := by
  unfold blur
  rw [if_neg (by omega)]
  dsimp only
  rw [← hl]
  have hrr : kernel.length - left - 1 = right := by omega
  rw [hrr, if_neg (by omega)]
  refine ⟨_, rfl, by simp, fun w row hw => ?_⟩
  rw [List.getElem?_mapIdx, hw]
  constructor
  · intro h
    rw [Option.map_some, if_neg (by omega)]
  · intro h
    rw [Option.map_some, if_pos (by omega)]
    refine ⟨_, rfl, by simp, fun i hi => by omega, fun d hd => ?_⟩
    rw [List.getElem?_mapIdx, List.getElem?_eq_getElem hd, Option.map_some]
    congr 2
    apply List.map_congr_left
    intro i hi
    rw [getD2, show (((w + i - left : Nat)) : Int) = (w : Int) + i - left by omega]

/-- **C368.** A kernel with the sum 1 does not change an image with equal wires. -/
theorem C368_constant (kernel : List ℚ) (hk : kernel.sum = 1) (row : List ℚ) (n : Nat) (hn : kernel.length ≤ n) : blur kernel (List.replicate n row) = some (List.replicate n row) := by
  by_cases h2 : kernel.length < 2
  · unfold blur; rw [if_pos h2]
  · obtain ⟨out, e, hlen, h⟩ := C368_blur_partial kernel (List.replicate n row) (by omega) ((kernel.length - 1) / 2) (kernel.length - (kernel.length - 1) / 2 - 1) rfl (by omega) (by simp; omega)
    rw [e]
    congr 1
    rw [List.length_replicate] at hlen
    apply List.ext_getElem?
    intro w
    by_cases hw : w < n
    · obtain ⟨a, b⟩ := h w row (by simp [hw])
      by_cases hin : (kernel.length - 1) / 2 ≤ w ∧ w + (kernel.length - (kernel.length - 1) / 2 - 1) < (List.replicate n row).length
      · obtain ⟨row', e1, e2, e3, e4⟩ := b hin
        rw [e1]
        simp only [List.getElem?_replicate, hw, if_true]
        congr 1
        apply List.ext_getElem?
        intro d
        by_cases hd : d < row.length
        · rw [e4 d hd, List.getElem?_eq_getElem hd]
          congr 1
          have : (List.range kernel.length).map (fun i => kernel.getD i 0 * valueAt 0 (List.replicate n row) ((w : Int) + i - ((kernel.length - 1) / 2 : Nat)) d) =
              kernel.map fun x => x * row[d] := by
            apply List.ext_getElem
            · simp
            · intro i h1 h2
              simp only [List.getElem_map, List.getElem_range]
              simp at h1
              have hin2 := e3 i h1
              rw [List.length_replicate] at hin2
              have : valueAt 0 (List.replicate n row) ((w : Int) + i - ((kernel.length - 1) / 2 : Nat)) d = row[d] := by
                unfold valueAt
                rw [if_pos ⟨by omega, by omega⟩, Int.toNat_natCast, List.getElem?_replicate, if_pos (by omega)]
                simp [hd]
              rw [this]
              congr 1
              rw [List.getD_eq_getElem?_getD, List.getElem?_eq_getElem h1, Option.getD_some]
          rw [this, List.sum_map_mul_right]
          simp [hk]
        · rw [List.getElem?_eq_none (by omega), List.getElem?_eq_none (by omega)]
      · rw [a hin]; simp [hw]
    · rw [List.getElem?_eq_none (by omega), List.getElem?_eq_none (by simp; omega)]

/-- **C368 refuted** for an image with fewer wires than half the kernel: the loop runs over the end of the image. -/
theorem C368_refuted : blur [1/5, 1/5, 1/5, 1/5, 1/5] [[1]] = none := by decide +kernel

example : blur [1/4, 1/2, 1/4] [[1, 2], [3, 4], [9, 6], [0, 8]] = some [[1, 2], [4, 4], [21/4, 6], [0, 8]] := by decide +kernel

/-! ## C369: patches of the downscaled image -/

theorem mapM_some {α β : Type} (f : α → Option β) (g : α → β) (l : List α) (h : ∀ x ∈ l, f x = some (g x)) : l.mapM f = some (l.map g) := by
  induction l with
  | nil => rfl
  | cons a l ih =>
    rw [List.mapM_cons, h a List.mem_cons_self, ih fun x hx => h x (List.mem_cons_of_mem _ hx)]
    rfl

theorem row_value (z : ℚ) (rows : List (List ℚ)) (w d : Int) (hw : 0 ≤ w ∧ w < rows.length) :
    (if 0 ≤ d ∧ d < (rows.getD w.toNat []).length then (rows.getD w.toNat []).getD d.toNat 0 else z) = valueAt z rows w d := by
  have hlt : w.toNat < rows.length := by omega
  have e : rows.getD w.toNat [] = rows[w.toNat] := by rw [List.getD_eq_getElem?_getD, List.getElem?_eq_getElem hlt, Option.getD_some]
  unfold valueAt
  rw [e, List.getElem?_eq_getElem hlt, Option.bind_some]
  by_cases hd : 0 ≤ d
  · rw [if_pos (show 0 ≤ w ∧ 0 ≤ d from ⟨hw.1, hd⟩)]
    by_cases hd' : d < (rows[w.toNat]).length
    · have : d.toNat < (rows[w.toNat]).length := by omega
      rw [if_pos ⟨hd, hd'⟩, List.getD_eq_getElem?_getD, List.getElem?_eq_getElem this, Option.getD_some, Option.getD_some]
    · rw [if_neg (by omega), List.getElem?_eq_none (by omega), Option.getD_none]
  · rw [if_neg (by omega), if_neg (by omega)]

theorem out_value (z : ℚ) (rows : List (List ℚ)) (w d : Int) (hw : ¬ (0 ≤ w ∧ w < rows.length)) : valueAt z rows w d = z := by
  unfold valueAt
  by_cases h : 0 ≤ w ∧ 0 ≤ d
  · rw [if_pos h, List.getElem?_eq_none (by omega)]; rfl
  · rw [if_neg h]

/-- **C369.** A patch of the downscaled image with even sizes has the pixels of the image around the wire and the drift, and the zero level outside the image, if the caller provides a patch of these sizes. -/
theorem C369_patch_partial (c : Cfg) (rows : List (List ℚ)) (wire : Nat) (drift : ℚ) (sizeW sizeD : Nat) (hW : sizeW % 2 = 0) (hD : sizeD % 2 = 0) (patch : List (List ℚ))
    (h1 : patch.length = sizeW) (h2 : ∀ r ∈ patch, r.length = sizeD) :
    ∃ out, patchDown c rows wire drift sizeW sizeD patch = some out ∧ out.length = sizeW ∧ ∀ i < sizeW, ∃ r, out[i]? = some r ∧ r.length = sizeD ∧
      ∀ j < sizeD, r[j]? = some (valueAt c.toSCfg.zero rows ((wire : Int) - sizeW / 2 + i) (⌊drift / c.window⌋ - sizeD / 2 + j)) := by
  unfold patchDown
  dsimp only
  rw [if_neg (by omega), mapM_some _ (fun p => p.1.mapIdx fun j _ => valueAt c.toSCfg.zero rows ((wire : Int) - sizeW / 2 + p.2) (⌊drift / c.window⌋ - sizeD / 2 + j))]
  · refine ⟨_, rfl, by simp [h1], fun i hi => ?_⟩
    have hi' : i < patch.length := by omega
    refine ⟨_, by rw [List.getElem?_map, List.getElem?_zipIdx, List.getElem?_eq_getElem hi']; rfl, ?_, fun j hj => ?_⟩
    · simp [h2 _ (List.getElem_mem hi')]
    · have := h2 _ (List.getElem_mem hi')
      rw [List.getElem?_mapIdx]
      dsimp only
      rw [List.getElem?_eq_getElem (by omega)]
      simp
  · intro p hp
    obtain ⟨hp1, hp2, hp3⟩ := List.mem_zipIdx hp
    have hlen : p.1.length = sizeD := h2 _ (hp3 ▸ List.getElem_mem _)
    have hb : p.2 < 2 * (sizeW / 2) := by omega
    rw [if_pos hb]
    have hcast : (wire : Int) - ((sizeW / 2 : Nat) : Int) + (p.2 : Int) = (wire : Int) - (sizeW : Int) / 2 + p.2 := by omega
    rw [hcast]
    by_cases hw : 0 ≤ (wire : Int) - (sizeW : Int) / 2 + p.2 ∧ (wire : Int) - (sizeW : Int) / 2 + p.2 < rows.length
    · rw [if_pos hw, if_neg (by omega)]
      congr 1
      apply List.ext_getElem
      · simp
      · intro j a b
        simp only [List.getElem_mapIdx]
        simp at a
        rw [if_pos (by omega), row_value _ _ _ _ hw]
        congr 1
    · rw [if_neg hw]
      congr 1
      apply List.ext_getElem
      · simp
      · intro j a b
        simp only [List.getElem_map, List.getElem_mapIdx]
        rw [out_value _ _ _ _ hw]

/-- **C369 refuted** for `getPatch`: it writes into a vector without elements, whatever the image, the position and the size (if there is at least one wire to copy). -/
theorem C369_refuted (c : Cfg) (rows : List (List ℚ)) (life : List ℚ) (wire : Nat) (drift : ℚ) (sizeW sizeD : Nat) (h : 2 ≤ sizeW) :
    getPatch c rows life wire drift sizeW sizeD = none := by
  unfold getPatch
  split
  · unfold patchDown
    dsimp only
    rw [if_pos (by simp; omega)]
  · unfold patchOrig
    dsimp only
    unfold origRows
    rw [if_pos (by omega)]

/-- **C369 refuted** for odd sizes: the last wire and the last drift of the patch are left as they were. -/
theorem C369_odd_refuted : patchDown exCfg [[1, 2, 3], [4, 5, 6], [7, 8, 9]] 1 2 3 3 [[0, 0, 0], [0, 0, 0], [0, 0, 0]] = some [[1, 2, 0], [4, 5, 0], [0, 0, 0]] := by decide +kernel

example : patchDown ⟨⟨1, -10, 10, 0, 20⟩, .max, 2, true⟩ [[1, 2, 3], [4, 5, 6], [7, 8, 9]] 0 4 2 4 [[0, 0, 0, 0], [0, 0, 0, 0]] = some [[10, 10, 10, 10], [1, 2, 3, 10]] := by decide +kernel

/-! ## C370: patches of the full image -/

theorem fillTmp_eq (c : Cfg) (rows : List (List ℚ)) (w d0 d1 : Int) (tmp : List ℚ) (h : (tmp.length : Int) = d1 - d0) :
    fillTmp c rows w d0 d1 tmp = (List.range tmp.length).map fun j => valueAt c.toSCfg.zero rows w (d0 + (j : Nat)) := by
  unfold fillTmp
  apply List.ext_getElem
  · split <;> simp
  · intro j a b
    simp at b
    split
    · rename_i hw
      simp only [List.getElem_mapIdx, List.getElem_map, List.getElem_range]
      rw [if_pos (by omega), row_value _ _ _ _ hw]
    · rename_i hw
      simp only [List.getElem_map, List.getElem_range]
      rw [out_value _ _ _ _ hw]

theorem origRows_eq (c : Cfg) (hc : c.toSCfg.ok) (hw : 0 < c.window) (rows : List (List ℚ)) (life : List ℚ) (w0 d0 d1 : Int) (sizeD n : Nat) (h0 : 0 ≤ d0)
    (hd : ((c.window * sizeD : Nat) : Int) = d1 - d0) (hlife : c.mode ≠ .mean → d1 ≤ life.length) (i : Nat) (tmp : List ℚ) (ht : tmp.length = c.window * sizeD)
    (patch : List (List ℚ)) (hp : i + patch.length = n) (hr : ∀ r ∈ patch, r.length = sizeD) :
    origRows c rows life w0 d0 d1 n i tmp patch = some ((List.range patch.length).map fun (k : Nat) => (List.range sizeD).map fun m =>
      scaleOne c.toSCfg (pixel c.mode c.window ((List.range (c.window * sizeD)).map fun j => valueAt c.toSCfg.zero rows (w0 + ((i + k : Nat) : Int)) (d0 + (j : Nat))) life d0.toNat m)) := by
  induction patch generalizing i tmp with
  | nil =>
    unfold origRows
    rw [if_neg (by simp at hp; omega)]
    rfl
  | cons p rest ih =>
    unfold origRows
    simp only [List.length_cons] at hp
    rw [if_pos (by omega)]
    dsimp only
    have hf := fillTmp_eq c rows (w0 + i) d0 d1 tmp (by rw [ht]; omega)
    have hfl : (fillTmp c rows (w0 + i) d0 d1 tmp).length = c.window * sizeD := by rw [hf]; simp [ht]
    have hpl := hr p List.mem_cons_self
    have hcomm : sizeD * c.window = c.window * sizeD := Nat.mul_comm _ _
    rw [ih (i + 1) _ hfl (by omega) fun r h => hr r (List.mem_cons_of_mem _ h)]
    rw [downscale_eq c.toSCfg hc c.mode c.window hw _ life d0.toNat p.length]
    · dsimp only
      rw [List.length_cons, List.range_succ_eq_map, List.map_cons, List.map_map, hpl]
      congr 2
      · apply List.map_congr_left
        intro m _
        rw [hf, ht]
        simp
      · apply List.map_congr_left
        intro k _
        simp only [Function.comp]
        rw [show i + 1 + k = i + k.succ by omega]
    · rw [hpl]
      refine ⟨by rw [hfl]; omega, fun hm => ?_, fun hm => Or.inl ?_⟩
      · have := hlife hm; omega
      · have := hlife (by rw [hm]; decide); rw [hfl]; omega

/-- **C370.** If the patch does not begin before the first tick (nor end after the last one, unless samples are averaged), and the numbers of wires and ticks are even, each wire of the patch is the
downscaled window of the image around the drift, and the samples outside the image are replaced with the zero level before scaling. -/
theorem C370_patch_partial (c : Cfg) (hc : c.toSCfg.ok) (hw : 0 < c.window) (rows : List (List ℚ)) (life : List ℚ) (wire : Nat) (drift : ℚ) (sizeW sizeD : Nat) (hW : sizeW % 2 = 0)
    (hD : (c.window * sizeD) % 2 = 0) (patch : List (List ℚ)) (h1 : patch.length = sizeW) (h2 : ∀ r ∈ patch, r.length = sizeD)
    (h3 : ((c.window * sizeD / 2 : Nat) : Int) ≤ ⌊drift⌋) (h4 : c.mode ≠ .mean → ⌊drift⌋ + ((c.window * sizeD / 2 : Nat) : Int) ≤ life.length) :
    patchOrig c rows life wire drift sizeW sizeD patch = some ((List.range sizeW).map fun (k : Nat) => (List.range sizeD).map fun m =>
      scaleOne c.toSCfg (pixel c.mode c.window ((List.range (c.window * sizeD)).map fun j =>
        valueAt c.toSCfg.zero rows ((wire : Int) - ((sizeW / 2 : Nat) : Int) + k) (⌊drift⌋ - ((c.window * sizeD / 2 : Nat) : Int) + (j : Nat))) life (⌊drift⌋ - ((c.window * sizeD / 2 : Nat) : Int)).toNat m)) := by
  unfold patchOrig
  dsimp only
  rw [if_neg (by omega), origRows_eq c hc hw rows life _ _ _ sizeD (2 * (sizeW / 2)) (by omega) (by omega) h4 0 _ (by simp) patch (by omega) h2, h1]
  simp only [Nat.zero_add]

/-- The settings of the counterexamples: samples from -10 to 10, output from 0 to 20, windows of two ticks. -/
def origCfg (m : Mode) : Cfg := ⟨⟨1, -10, 10, 0, 20⟩, m, 2, false⟩

/-- **C370 refuted** at the edges of the image.  With drift 0 the patch begins at tick 0 instead of before the image (pixel 0 is not the zero level, 10), and its end is filled
with 0.  With averaging the part after the image is 0 before scaling.  With maximum pooling the factors after the end of the table are read. -/
theorem C370_refuted : patchOrig (origCfg .max) [[5, 6, 7, 8], [1, 2, 3, 4]] [1, 1, 1, 1] 1 0 2 2 [[0, 0], [0, 0]] = some [[16, 10], [12, 10]] ∧
    patchOrig (origCfg .mean) [[5, 5, 5, 5], [1, 1, 1, 1]] [1, 1, 1, 1] 1 4 2 2 [[0, 0], [0, 0]] = some [[15, 10], [11, 10]] ∧
    patchOrig (origCfg .max) [[5, 6, 7, 8], [1, 2, 3, 4]] [1, 1, 1, 1] 1 4 2 2 [[0, 0], [0, 0]] = none := by decide +kernel

/-- **C370 refuted** for wires outside the image: the zero level is scaled a second time, 20 instead of 10. -/
theorem C370_scaled_refuted : patchOrig (origCfg .max) [[5, 6, 7, 8], [1, 2, 3, 4]] [1, 1, 1, 1] 0 2 2 2 [[0, 0], [0, 0]] = some [[20, 20], [16, 18]] ∧
    (origCfg .max).toSCfg.zero = 10 := by decide +kernel

example : patchOrig (origCfg .mean) [[5, 6, 7, 8], [1, 2, 3, 4]] [1, 1, 1, 1] 1 2 2 2 [[0, 0], [0, 0]] = some [[31/2, 35/2], [23/2, 27/2]] := by decide +kernel

end Verif.DataProv

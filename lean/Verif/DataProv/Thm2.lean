import Verif.DataProv.Thm
import Mathlib.Data.List.Induction

/-!
# Theorems about the image provider: the image
-/

namespace Verif.DataProv

/-! ## C365: the image -/

/-- The signals that are put into the image, in order: wire number, channel and samples, for good channels with enough samples and wires of the plane. -/
def signals (wires drifts : Nat) (ws : List InWire) : List (Nat × Nat × List ℚ) :=
  ws.flatMap fun w => if w.good = true ∧ drifts ≤ w.adc.length then (w.ids.filter fun i => decide (i < wires)).map fun i => (i, w.chan, w.adc) else []

/-- The row of the image for a signal. -/
def rowOf (c : Cfg) (drifts : Nat) (life adc : List ℚ) : List ℚ :=
  if c.full then (List.range (drifts / c.window)).map fun i => scaleOne c.toSCfg (pixel c.mode c.window adc life 0 i) else adc.take drifts

/-- The samples of 10 and more. -/
def big (adc : List ℚ) : List ℚ := adc.filter fun x => decide (10 ≤ x)

/-- Put one signal into the image. -/
def put (c : Cfg) (drifts : Nat) (life : List ℚ) (v : View) (e : Nat × Nat × List ℚ) : View :=
  ⟨v.rows.set e.1 (rowOf c drifts life e.2.2), v.chans.set e.1 (some e.2.1), v.sum + (big e.2.2).sum, v.area + (big e.2.2).length, true⟩

/-- The sizes of an image. -/
def Sized (c : Cfg) (wires drifts : Nat) (v : View) : Prop := v.rows.length = wires ∧ v.chans.length = wires ∧ ∀ r ∈ v.rows, r.length = cached c drifts

/-- What the image needs: with the mean around the maximum, no signal longer than the number of time samples. -/
def Short (c : Cfg) (drifts : Nat) (ws : List InWire) : Prop := c.full = true → c.mode = .maxMean → ∀ w ∈ ws, w.adc.length ≤ drifts

theorem rowOf_length (c : Cfg) (drifts : Nat) (life adc : List ℚ) (h : drifts ≤ adc.length) : (rowOf c drifts life adc).length = cached c drifts := by
  unfold rowOf cached
  split <;> simp [h]

theorem put_sized (c : Cfg) (wires drifts : Nat) (life : List ℚ) (v : View) (hv : Sized c wires drifts v) (e : Nat × Nat × List ℚ) (he : drifts ≤ e.2.2.length) :
    Sized c wires drifts (put c drifts life v e) := by
  obtain ⟨h1, h2, h3⟩ := hv
  refine ⟨by simp [put, h1], by simp [put, h2], fun r hr => ?_⟩
  rcases List.mem_or_eq_of_mem_set hr with h | h
  · exact h3 r h
  · rw [h]; exact rowOf_length _ _ _ _ he

theorem setOne_eq (c : Cfg) (hc : c.toSCfg.ok) (hw : 0 < c.window) (wires drifts : Nat) (hd : 0 < drifts) (life : List ℚ) (hl : life.length = drifts) (v : View)
    (hv : Sized c wires drifts v) (chan : Nat) (adc : List ℚ) (hs : c.full = true → c.mode = .maxMean → adc.length ≤ drifts) (i : Nat) :
    setOne c drifts life v chan adc i = some (if drifts ≤ adc.length ∧ i < wires then put c drifts life v (i, chan, adc) else v) := by
  obtain ⟨h1, h2, h3⟩ := hv
  unfold setOne
  by_cases hlen : adc.length < drifts
  · rw [if_pos hlen, if_neg (by omega)]
  · rw [if_neg hlen]
    have hne : adc ≠ [] := by intro h; subst h; simp at hlen; omega
    by_cases hi : i < wires
    · have hrow : v.rows[i]? = some v.rows[i] := List.getElem?_eq_getElem (by omega)
      have hrl : (v.rows[i]'(by omega)).length = cached c drifts := h3 _ (List.getElem_mem _)
      rw [if_pos ⟨by omega, hi⟩]
      have : setWireData c life v adc i = some (some (rowOf c drifts life adc)) := by
        unfold setWireData rowOf
        rw [hrow]
        dsimp only
        rw [hrl]
        unfold cached
        by_cases hf : c.full = true
        · rw [if_pos hf, if_pos hf, if_pos hne, if_pos hf]
          have hdm := Nat.div_mul_le_self drifts c.window
          rw [downscale_eq c.toSCfg hc c.mode c.window hw adc life 0 _ ⟨by omega, fun _ => by omega, fun hm => Or.inl (by have := hs hf hm; omega)⟩]
          rfl
        · rw [if_neg hf, if_neg hf, if_neg hne, if_neg hf]
          split
          · rw [List.take_of_length_le (by omega)]
          · rfl
      rw [this]
      rfl
    · rw [if_neg (by omega)]
      have : v.rows[i]? = none := List.getElem?_eq_none (by omega)
      unfold setWireData
      rw [this]

theorem ids_fold (c : Cfg) (hc : c.toSCfg.ok) (hw : 0 < c.window) (wires drifts : Nat) (hd : 0 < drifts) (life : List ℚ) (hl : life.length = drifts)
    (chan : Nat) (adc : List ℚ) (hs : c.full = true → c.mode = .maxMean → adc.length ≤ drifts) (ids : List Nat) (v : View) (hv : Sized c wires drifts v) :
    ids.foldlM (fun v idx => setOne c drifts life v chan adc idx) v =
      some ((if drifts ≤ adc.length then (ids.filter fun i => decide (i < wires)).map fun i => (i, chan, adc) else []).foldl (put c drifts life) v) ∧
    Sized c wires drifts ((if drifts ≤ adc.length then (ids.filter fun i => decide (i < wires)).map fun i => (i, chan, adc) else []).foldl (put c drifts life) v) := by
  induction ids generalizing v with
  | nil => split <;> exact ⟨rfl, hv⟩
  | cons i rest ih =>
    rw [List.foldlM_cons, setOne_eq c hc hw wires drifts hd life hl v hv chan adc hs i]
    by_cases h1 : drifts ≤ adc.length
    · by_cases h2 : i < wires
      · have := ih (put c drifts life v (i, chan, adc)) (put_sized c wires drifts life v hv _ h1)
        simp only [if_pos h1, h2, and_true, if_true, List.filter_cons, decide_true, List.map_cons, List.foldl_cons] at this ⊢
        exact this
      · have := ih v hv
        simp only [if_pos h1, h2, and_false, if_false, List.filter_cons, decide_false] at this ⊢
        exact this
    · have := ih v hv
      simp only [if_neg h1, h1, false_and, if_false] at this ⊢
      exact this

theorem setWires_eq (c : Cfg) (hc : c.toSCfg.ok) (hw : 0 < c.window) (wires drifts : Nat) (hd : 0 < drifts) (life : List ℚ) (hl : life.length = drifts)
    (ws : List InWire) (hs : Short c drifts ws) (v : View) (hv : Sized c wires drifts v) :
    setWires c drifts life v ws = some ((signals wires drifts ws).foldl (put c drifts life) v) ∧
    Sized c wires drifts ((signals wires drifts ws).foldl (put c drifts life) v) := by
  induction ws generalizing v with
  | nil => exact ⟨rfl, hv⟩
  | cons w rest ih =>
    have hs' : Short c drifts rest := fun h1 h2 x hx => hs h1 h2 x (List.mem_cons_of_mem _ hx)
    have es : signals wires drifts (w :: rest) = (if w.good = true ∧ drifts ≤ w.adc.length then (w.ids.filter fun i => decide (i < wires)).map fun i => (i, w.chan, w.adc) else []) ++
        signals wires drifts rest := rfl
    unfold setWires
    rw [es, List.foldl_append]
    by_cases hg : w.good = true
    · rw [if_pos hg]
      obtain ⟨a, b⟩ := ids_fold c hc hw wires drifts hd life hl w.chan w.adc (fun h1 h2 => hs h1 h2 w List.mem_cons_self) w.ids v hv
      rw [a]
      dsimp only
      simp only [hg, true_and]
      exact ih hs' _ b
    · rw [if_neg hg]
      simp only [hg, false_and, if_false, List.foldl_nil]
      exact ih hs' v hv

/-- The last signal for a wire. -/
def lastSignal (l : List (Nat × Nat × List ℚ)) (i : Nat) : Option (Nat × List ℚ) := ((l.filter fun e => decide (e.1 = i)).getLast?).map fun e => e.2

theorem fold_spec (c : Cfg) (wires drifts : Nat) (life : List ℚ) (l : List (Nat × Nat × List ℚ)) :
    let v := l.foldl (put c drifts life) (emptyView c wires drifts)
    v.rows.length = wires ∧ v.chans.length = wires ∧
    (∀ i < wires, v.rows[i]? = some (match lastSignal l i with | none => List.replicate (cached c drifts) c.toSCfg.zero | some e => rowOf c drifts life e.2) ∧
      v.chans[i]? = some ((lastSignal l i).map Prod.fst)) ∧
    v.sum = (l.map fun e => (big e.2.2).sum).sum ∧ v.area = (l.map fun e => (big e.2.2).length).sum ∧ (v.any = true ↔ l ≠ []) := by
  induction l using List.reverseRecOn with
  | nil =>
    refine ⟨by simp [emptyView], by simp [emptyView], fun i hi => ?_, rfl, rfl, by simp [emptyView]⟩
    simp [emptyView, lastSignal, hi]
  | append_singleton l e ih =>
    obtain ⟨h1, h2, h3, h4, h5, h6⟩ := ih
    dsimp only at *
    rw [List.foldl_append]
    simp only [List.foldl_cons, List.foldl_nil]
    generalize l.foldl (put c drifts life) (emptyView c wires drifts) = v at *
    refine ⟨by simp [put, h1], by simp [put, h2], fun i hi => ?_, by simp [put, h4], by simp [put, h5], by simp [put]⟩
    have hls : lastSignal (l ++ [e]) i = if e.1 = i then some e.2 else lastSignal l i := by
      unfold lastSignal
      by_cases he : e.1 = i
      · simp [List.filter_append, he]
      · simp [List.filter_append, he]
    rw [hls]
    unfold put
    dsimp only
    by_cases he : e.1 = i
    · subst he
      rw [if_pos rfl]
      constructor
      · rw [List.getElem?_set_self (by omega)]
      · rw [List.getElem?_set_self (by omega)]; rfl
    · rw [if_neg he, List.getElem?_set_ne he, List.getElem?_set_ne he]
      exact h3 i hi

/-- **C365.** The image has one row per wire of the plane, all of the same length; the row of a wire is the (downscaled) signal of the last good channel with enough samples that has this wire, and the
zero level if there is none; the channel numbers are those of these channels; the sums run over all samples of 10 or more of the signals used; the call fails if and only if there is no signal. -/
theorem C365_image_partial (c : Cfg) (hc : c.toSCfg.ok) (hw : 0 < c.window) (wires drifts : Nat) (hd : 0 < drifts) (life : List ℚ) (hl : life.length = drifts)
    (ws : List InWire) (hs : Short c drifts ws) :
    ∃ v, setWires c drifts life (emptyView c wires drifts) ws = some v ∧ v.rows.length = wires ∧ (∀ r ∈ v.rows, r.length = cached c drifts) ∧
    (∀ i < wires, v.rows[i]? = some (match lastSignal (signals wires drifts ws) i with | none => List.replicate (cached c drifts) c.toSCfg.zero | some e => rowOf c drifts life e.2) ∧
      v.chans[i]? = some ((lastSignal (signals wires drifts ws) i).map Prod.fst)) ∧
    v.sum = ((signals wires drifts ws).map fun e => (big e.2.2).sum).sum ∧ v.area = ((signals wires drifts ws).map fun e => (big e.2.2).length).sum ∧
    (v.any = true ↔ signals wires drifts ws ≠ []) := by
  have hv : Sized c wires drifts (emptyView c wires drifts) :=
    ⟨by simp [emptyView], by simp [emptyView], fun r hr => by simp [emptyView] at hr; rw [hr.2]; simp⟩
  obtain ⟨a, b⟩ := setWires_eq c hc hw wires drifts hd life hl ws hs _ hv
  obtain ⟨h1, _, h3, h4, h5, h6⟩ := fold_spec c wires drifts life (signals wires drifts ws)
  exact ⟨_, a, h1, b.2.2, h3, h4, h5, h6⟩

/-- The settings of the examples: samples from 0 to 100, output the same, maximum of two ticks. -/
def exCfg : Cfg := ⟨⟨1, 0, 100, 0, 100⟩, .max, 2, true⟩

example : setWires exCfg 4 [1, 1, 1, 1] (emptyView exCfg 3 4) [⟨7, true, [2, 0], [1, 20, 3, 4]⟩, ⟨8, false, [1], [9, 9, 9, 9]⟩, ⟨9, true, [1, 5], [9, 9]⟩, ⟨10, true, [0], [5, 6, 7, 8]⟩] =
    some ⟨[[6, 8], [0, 0], [20, 4]], [some 10, none, some 7], 40, 2, true⟩ := by decide +kernel

/-- **C365 refuted** for the mean around the maximum: a signal longer than the number of time samples is read with lifetime factors that do not exist. -/
theorem C365_refuted : setWires ⟨⟨1, 0, 100, 0, 100⟩, .maxMean, 2, true⟩ 4 [1, 1, 1, 1] (emptyView ⟨⟨1, 0, 100, 0, 100⟩, .maxMean, 2, true⟩ 1 4) [⟨7, true, [0], [1, 2, 1, 12, 1]⟩] = none := by
  decide +kernel

/-! ## C366: looking up a pixel -/

/-- **C366.** The pixel of a wire and a tick is that of its row at the window of the tick; it is 0 outside the image. -/
theorem C366_pixel (c : Cfg) (drifts : Nat) (rows : List (List ℚ)) (h : ∀ r ∈ rows, r.length = cached c drifts) (wire : Int) (drift : Nat) :
    (∀ i : Nat, wire = i → ∀ r, rows[i]? = some r → ∀ x, r[if c.full then drift / c.window else drift]? = some x → getPixel c drifts rows wire drift = x) ∧
    ((wire < 0 ∨ (rows.length : Int) ≤ wire ∨ (if c.full then drifts / c.window else drifts) ≤ (if c.full then drift / c.window else drift)) → getPixel c drifts rows wire drift = 0) := by
  constructor
  · rintro i rfl r hr x hx
    obtain ⟨hi, e⟩ := List.getElem?_eq_some_iff.1 hr
    obtain ⟨hj, e'⟩ := List.getElem?_eq_some_iff.1 hx
    have hlen := h r (e ▸ List.getElem_mem hi)
    unfold getPixel driftIndex
    dsimp only
    rw [if_pos ⟨by omega, by omega, by omega⟩, Int.toNat_natCast]
    simp only [List.getD_eq_getElem?_getD, hr, hx, Option.getD_some]
  · intro h'
    unfold getPixel driftIndex
    dsimp only
    rw [if_neg]
    rintro ⟨h1, h2, h3⟩
    unfold cached at h3
    omega

example : getPixel exCfg 4 [[6, 8], [0, 0], [20, 4]] 0 3 = 8 ∧ getPixel exCfg 4 [[6, 8], [0, 0], [20, 4]] (-1) 3 = 0 ∧ getPixel exCfg 4 [[6, 8], [0, 0], [20, 4]] 2 4 = 0 := by decide +kernel

/-! ## C367: maximum around a pixel -/

theorem foldMax (l : List Nat) (f : Nat → ℚ) (m : ℚ) :
    m ≤ l.foldl (fun m i => if f i > m then f i else m) m ∧ (∀ i ∈ l, f i ≤ l.foldl (fun m i => if f i > m then f i else m) m) ∧
    (l.foldl (fun m i => if f i > m then f i else m) m = m ∨ ∃ i ∈ l, l.foldl (fun m i => if f i > m then f i else m) m = f i) := by
  induction l generalizing m with
  | nil => exact ⟨le_refl _, by simp, Or.inl rfl⟩
  | cons a rest ih =>
    rw [List.foldl_cons]
    obtain ⟨h1, h2, h3⟩ := ih (if f a > m then f a else m)
    refine ⟨?_, ?_, ?_⟩
    · refine le_trans ?_ h1
      split
      · rename_i h; exact le_of_lt h
      · exact le_refl _
    · intro i hi
      rcases List.mem_cons.1 hi with rfl | hi
      · refine le_trans ?_ h1
        split
        · exact le_refl _
        · rename_i h; exact not_lt.1 h
      · exact h2 i hi
    · rcases h3 with h3 | ⟨i, hi, h3⟩
      · rw [h3]
        split
        · exact Or.inr ⟨a, List.mem_cons_self, rfl⟩
        · exact Or.inl rfl
      · exact Or.inr ⟨i, List.mem_cons_of_mem _ hi, h3⟩

theorem foldMax2 (l k : List Nat) (f : Nat → Nat → ℚ) (m : ℚ) :
    m ≤ l.foldl (fun m i => k.foldl (fun m j => if f i j > m then f i j else m) m) m ∧
    (∀ i ∈ l, ∀ j ∈ k, f i j ≤ l.foldl (fun m i => k.foldl (fun m j => if f i j > m then f i j else m) m) m) ∧
    (l.foldl (fun m i => k.foldl (fun m j => if f i j > m then f i j else m) m) m = m ∨
      ∃ i ∈ l, ∃ j ∈ k, l.foldl (fun m i => k.foldl (fun m j => if f i j > m then f i j else m) m) m = f i j) := by
  induction l generalizing m with
  | nil => exact ⟨le_refl _, by simp, Or.inl rfl⟩
  | cons a rest ih =>
    rw [List.foldl_cons]
    obtain ⟨g1, g2, g3⟩ := foldMax k (f a) m
    obtain ⟨h1, h2, h3⟩ := ih (k.foldl (fun m j => if f a j > m then f a j else m) m)
    refine ⟨le_trans g1 h1, ?_, ?_⟩
    · intro i hi j hj
      rcases List.mem_cons.1 hi with rfl | hi
      · exact le_trans (g2 j hj) h1
      · exact h2 i hi j hj
    · rcases h3 with h3 | ⟨i, hi, j, hj, h3⟩
      · rw [h3]
        rcases g3 with g3 | ⟨j, hj, g3⟩
        · exact Or.inl g3
        · exact Or.inr ⟨a, List.mem_cons_self, j, hj, g3⟩
      · exact Or.inr ⟨i, List.mem_cons_of_mem _ hi, j, hj, h3⟩

/-- The pixel `(w, d)` of the image is within the distance of the search. -/
def InBox (c : Cfg) (wire : Int) (drift r : Nat) (w d : Nat) : Prop :=
  (w : Int) - wire ≤ r ∧ wire - w ≤ r ∧
  (d : Int) - ((if c.full then drift / c.window else drift : Nat) : Int) ≤ ((if c.full then r else r * c.window : Nat) : Int) ∧
  ((if c.full then drift / c.window else drift : Nat) : Int) - d ≤ ((if c.full then r else r * c.window : Nat) : Int)

/-- **C367.** The maximum around a pixel is the largest of 0 and the pixels of the image within the distance `r` (in pixels of the downscaled image). -/
theorem C367_pool (c : Cfg) (drifts : Nat) (rows : List (List ℚ)) (h : ∀ r ∈ rows, r.length = cached c drifts) (wire : Int) (drift r : Nat) :
    0 ≤ poolMax c drifts rows wire drift r ∧
    (∀ (w d : Nat) row x, rows[w]? = some row → row[d]? = some x → InBox c wire drift r w d → x ≤ poolMax c drifts rows wire drift r) ∧
    (poolMax c drifts rows wire drift r = 0 ∨ ∃ (w d : Nat) (row : List ℚ), rows[w]? = some row ∧ row[d]? = some (poolMax c drifts rows wire drift r) ∧ InBox c wire drift r w d) := by
  have hrd : ((if c.full then (r : Int) else (r : Int) * c.window) : Int) = ((if c.full then r else r * c.window : Nat) : Int) := by
    split
    · rfl
    · push_cast; rfl
  unfold poolMax InBox
  dsimp only
  rw [hrd]
  have hdi : driftIndex c drift = if c.full then drift / c.window else drift := rfl
  rw [hdi]
  generalize (if c.full then r else r * c.window : Nat) = rd
  generalize (if c.full then drift / c.window else drift : Nat) = D
  generalize hd0 : (if (D : Int) - rd < 0 then 0 else (D : Int) - rd) = d0
  generalize hd1 : (if (D : Int) + rd ≥ cached c drifts then (cached c drifts : Int) - 1 else (D : Int) + rd) = d1
  generalize hw0 : (if wire - r < 0 then 0 else wire - r) = w0
  generalize hw1 : (if wire + r ≥ rows.length then (rows.length : Int) - 1 else wire + r) = w1
  have e0 : 0 ≤ d0 ∧ ((D : Int) - rd ≤ d0) ∧ (d0 = 0 ∨ d0 = (D : Int) - rd) := by subst hd0; split <;> omega
  have e1 : d1 < cached c drifts ∧ (d1 ≤ (D : Int) + rd) ∧ (d1 = (cached c drifts : Int) - 1 ∨ d1 = (D : Int) + rd) := by subst hd1; split <;> omega
  have f0 : 0 ≤ w0 ∧ (wire - r ≤ w0) ∧ (w0 = 0 ∨ w0 = wire - r) := by subst hw0; split <;> omega
  have f1 : w1 < rows.length ∧ (w1 ≤ wire + r) ∧ (w1 = (rows.length : Int) - 1 ∨ w1 = wire + r) := by subst hw1; split <;> omega
  clear hd0 hd1 hw0 hw1
  obtain ⟨g1, g2, g3⟩ := foldMax2 (List.range (w1 + 1 - w0).toNat) (List.range (d1 + 1 - d0).toNat)
    (fun i j => (rows.getD (w0 + i).toNat []).getD (d0 + j).toNat 0) 0
  refine ⟨g1, ?_, ?_⟩
  · intro w d row x hrow hx hb
    obtain ⟨hi, e⟩ := List.getElem?_eq_some_iff.1 hrow
    obtain ⟨hj, e'⟩ := List.getElem?_eq_some_iff.1 hx
    have hlen := h row (e ▸ List.getElem_mem hi)
    have := g2 ((w : Int) - w0).toNat (List.mem_range.2 (by omega)) ((d : Int) - d0).toNat (List.mem_range.2 (by omega))
    rw [show (w0 + (((w : Int) - w0).toNat : Int)).toNat = w by omega, show (d0 + (((d : Int) - d0).toNat : Int)).toNat = d by omega,
      List.getD_eq_getElem?_getD, List.getD_eq_getElem?_getD, hrow, Option.getD_some, hx, Option.getD_some] at this
    exact this
  · rcases g3 with g3 | ⟨i, hi, j, hj, g3⟩
    · exact Or.inl g3
    · right
      rw [List.mem_range] at hi hj
      have hw : (w0 + (i : Int)).toNat < rows.length := by omega
      have hlen := h _ (List.getElem_mem hw)
      have hd : (d0 + (j : Int)).toNat < (rows[(w0 + (i : Int)).toNat]).length := by omega
      refine ⟨(w0 + i).toNat, (d0 + j).toNat, rows[(w0 + (i : Int)).toNat], List.getElem?_eq_getElem hw, ?_, by omega⟩
      rw [g3, List.getD_eq_getElem?_getD, List.getD_eq_getElem?_getD, List.getElem?_eq_getElem hw, Option.getD_some, List.getElem?_eq_getElem hd, Option.getD_some]

example : poolMax exCfg 6 [[6, 8, 1], [0, 0, 30], [20, 4, -2]] 1 0 1 = 20 ∧ poolMax exCfg 6 [[6, 8, 1], [0, 0, 30], [20, 4, -2]] 2 5 0 = 0 := by decide +kernel

end Verif.DataProv

import Verif.Hit.CandShapeProps
/-!
# The morphological tool: candidates of one region (C135), all candidates (C136)
-/
namespace Verif.CandShape
open Verif Verif.Wave Verif.CandHit

/-- a quadruple (start, maximum, minimum, stop) of positions in `[a, b)` -/
structure Quad (d : Nat → ℚ) (a b : Nat) (t : Nat × Nat × Nat × Nat) : Prop where
  order : a ≤ t.1 ∧ t.1 ≤ t.2.1 ∧ t.2.1 + 2 ≤ t.2.2.1 ∧ t.2.2.1 ≤ t.2.2.2 ∧ t.2.2.2 < b
  fall : Falling d t.2.1 t.2.2.1
  rise : ∀ k, t.1 ≤ k → k < t.2.1 → 0 ≤ d k ∧ d k < d (k + 1)
  tail : ∀ k, t.2.2.1 ≤ k → k < t.2.2.2 → d k < d (k + 1) ∧ d (k + 1) ≤ 0

theorem Quad.widen {d : Nat → ℚ} {a b a' b' : Nat} {t : Nat × Nat × Nat × Nat} (h : Quad d a b t) (h1 : a' ≤ a) (h2 : b ≤ b') :
    Quad d a' b' t := by
  have := h.order
  exact ⟨by omega, h.fall, h.rise, h.tail⟩

/-- in time order, overlapping at most in a boundary position -/
def QuadsOrdered (l : List (Nat × Nat × Nat × Nat)) : Prop := l.Pairwise fun t u => t.2.2.2 ≤ u.1

/-- a quadruple meets the thresholds -/
def Meets (d : Nat → ℚ) (dT : Int) (dP : ℚ) (t : Nat × Nat × Nat × Nat) : Prop :=
  dT ≤ (t.2.2.1 : Int) - t.2.1 ∧ dP < d t.2.1 - d t.2.2.1

theorem extremes_empty (d : Nat → ℚ) (a : Nat) : extremes d a a = (a, a) := by
  simp [extremes, bestElt, lastElt, nearestMax]

theorem listCands_spec (n : Nat) (d : Nat → ℚ) (minT dT : Int) (dP : ℚ) (fuel : Nat) :
    ∀ a b out, b - a < fuel → a ≤ b → b ≤ n → a < n →
    ∃ flag new, listCands n d minT dT dP fuel a b out = some (.ok (flag, out ++ new)) ∧
      (∀ t ∈ new, Quad d a b t) ∧ QuadsOrdered new ∧ (flag = true ↔ ∃ t ∈ new, Meets d dT dP t) := by
  induction fuel with
  | zero => intro a b out h; omega
  | succ fuel ih =>
    intro a b out hfuel hab hbn han
    have hnone : ∃ flag new, some (Res.ok (false, out)) = some (Res.ok (flag, out ++ new)) ∧
      (∀ t ∈ new, Quad d a b t) ∧ QuadsOrdered new ∧ (flag = true ↔ ∃ t ∈ new, Meets d dT dP t) :=
      ⟨false, [], by simp, by simp, List.Pairwise.nil, by simp⟩
    rw [listCands]
    split
    · exact hnone
    rw [if_neg (by omega)]
    dsimp only
    split
    · exact hnone
    next h2 =>
    rcases Nat.eq_or_lt_of_le hab with rfl | hab
    · rw [extremes_empty] at h2
      simp at h2
    obtain ⟨e1, e2, e3, e4⟩ := extremes_spec d hab
    generalize extremes d a b = p at *
    obtain ⟨mx, mn⟩ := p
    simp only at *
    obtain ⟨s1, s2, -, s4⟩ := findStart_spec d e1
    obtain ⟨t1, t2, t3⟩ := findStop_spec d e3
    generalize findStart d a mx = st at *
    generalize findStop d b mn = sp at *
    obtain ⟨f1, new1, g1, g2, g3, g4⟩ := ih a st out (by omega) s1 (by omega) han
    rw [g1]
    simp only [andThen]
    obtain ⟨f2, new2, k1, k2, k3, k4⟩ := ih sp b (out ++ new1 ++ [(st, mx, mn, sp)]) (by omega) (by omega) hbn (by omega)
    rw [k1]
    simp only [andThen]
    have hq : Quad d a b (st, mx, mn, sp) := ⟨by simp only; omega, e4, fun k h1 h2 => (s4 k h1 h2).symm, t3⟩
    refine ⟨decide (dT ≤ (mn : Int) - mx ∧ dP < d mx - d mn) || f1 || f2, new1 ++ [(st, mx, mn, sp)] ++ new2, by simp, ?_, ?_, ?_⟩
    · intro t ht
      rcases List.mem_append.1 ht with ht | ht
      · rcases List.mem_append.1 ht with ht | ht
        · exact (g2 t ht).widen (le_refl _) (by omega)
        · rw [List.mem_singleton.1 ht]; exact hq
      · exact (k2 t ht).widen (by omega) (le_refl _)
    · refine List.pairwise_append.2 ⟨List.pairwise_append.2 ⟨g3, List.pairwise_singleton _ _, ?_⟩, k3, ?_⟩
      · intro x hx y hy
        rw [List.mem_singleton.1 hy]
        have := (g2 x hx).order
        simp only
        omega
      · intro x hx y hy
        have hy2 := (k2 y hy).order
        rcases List.mem_append.1 hx with hx | hx
        · have := (g2 x hx).order
          omega
        · rw [List.mem_singleton.1 hx]
          exact hy2.1
    · simp only [Bool.or_eq_true, decide_eq_true_eq, g4, k4, List.mem_append, List.mem_singleton]
      constructor
      · rintro ((h | ⟨t, ht, hm⟩) | ⟨t, ht, hm⟩)
        · exact ⟨_, Or.inl (Or.inr rfl), h⟩
        · exact ⟨t, Or.inl (Or.inl ht), hm⟩
        · exact ⟨t, Or.inr ht, hm⟩
      · rintro ⟨t, (ht | ht) | ht, hm⟩
        · exact Or.inl (Or.inr ⟨t, ht, hm⟩)
        · rw [ht] at hm; exact Or.inl (Or.inl hm)
        · exact Or.inr ⟨t, ht, hm⟩

/-- a candidate of the morphological tool before the limits: a pulse of at least two ticks between start and stop -/
structure MCand (n : Nat) (d : Nat → ℚ) (R hi : Nat) (h : Hit) (mx c mn : Nat) : Prop where
  pulse : Pulse n d R h mx c mn
  wide : mx + 2 ≤ mn
  range : R ≤ h.startTick ∧ h.startTick ≤ h.maxTick ∧ h.minTick ≤ h.stopTick ∧ h.stopTick ≤ R + hi

/-- the list of candidates so far; `hi` is the last position used -/
structure MInv (n : Nat) (d : Nat → ℚ) (R hi : Nat) (l : List Hit) : Prop where
  cand : ∀ h ∈ l, ∃ mx c mn, MCand n d R hi h mx c mn
  ordered : Ordered l

theorem MInv.mono {n : Nat} {d : Nat → ℚ} {R hi hi' : Nat} {l : List Hit} (h : MInv n d R hi l) (h1 : hi ≤ hi') :
    MInv n d R hi' l := by
  refine ⟨?_, h.ordered⟩
  intro x hx
  obtain ⟨mx, c, mn, g⟩ := h.cand x hx
  exact ⟨mx, c, mn, g.pulse, g.wide, g.range.1, g.range.2.1, g.range.2.2.1, g.range.2.2.2.trans (by omega)⟩

theorem addCand_inv {n : Nat} {d : Nat → ℚ} {R a hi : Nat} {l : List Hit} {b : Nat} {t : Nat × Nat × Nat × Nat} (h : MInv n d R hi l)
    (ht : Quad d a b t) (hb : b ≤ n) (hhi : hi ≤ t.1) :
    MInv n d R t.2.2.2 (addCand d a (R + a) l t) ∧
    (addCand d a (R + a) l t).map (fun h => (h.maxTick, h.minTick)) =
      l.map (fun h => (h.maxTick, h.minTick)) ++ [(R + t.2.1, R + t.2.2.1)] := by
  obtain ⟨st, mx, mn, sp⟩ := t
  obtain ⟨o1, o2, o3, o4, o5⟩ := ht.order
  simp only at o1 o2 o3 o4 o5 hhi ⊢
  have hrs : R + a + (st - a) = R + st := by omega
  have hpulse : ∀ s, Pulse n d R (mkHit d a (R + a) s mx mn sp) mx (peakOf d mx mn) mn := fun s =>
    mkHit_pulse d (by omega) (by omega) (by omega) ht.fall
  have hnew : ∀ s, R ≤ s → s ≤ R + mx → MCand n d R sp (mkHit d a (R + a) s mx mn sp) mx (peakOf d mx mn) mn := by
    intro s h1 h2
    refine ⟨hpulse s, o3, ?_⟩
    simp only [mkHit]
    omega
  rcases List.eq_nil_or_concat l with rfl | ⟨l0, x, rfl⟩
  · have e : addCand d a (R + a) [] (st, mx, mn, sp) = [mkHit d a (R + a) (R + st) mx mn sp] := by
      simp [addCand, moveLast, halfGap, hrs]
    rw [e]
    refine ⟨⟨?_, List.pairwise_singleton _ _⟩, ?_⟩
    · intro y hy
      rw [List.mem_singleton.1 hy]
      exact ⟨_, _, _, hnew _ (by omega) (by omega)⟩
    · simp only [List.map_cons, List.map_nil, mkHit]
      simp; omega
  · rw [List.concat_eq_append] at h ⊢
    obtain ⟨cand, ord⟩ := h
    obtain ⟨mx0, c0, mn0, hx⟩ := cand x (by simp)
    obtain ⟨r1, r2, r3, r4⟩ := hx.range
    have hxt := hx.pulse.ticks
    have hk : halfGap (l0 ++ [x]) (R + a + (st - a)) = (R + st - x.stopTick) / 2 := by
      simp [halfGap, hrs]
    have e : addCand d a (R + a) (l0 ++ [x]) (st, mx, mn, sp) =
        l0 ++ [{ x with stopTick := x.stopTick + (R + st - x.stopTick) / 2 }] ++
          [mkHit d a (R + a) (R + st - (R + st - x.stopTick) / 2) mx mn sp] := by
      unfold addCand
      rw [hk, hrs]
      congr 1
      unfold moveLast
      rw [List.modify_eq_take_cons_drop (by simp)]
      simp
    rw [e]
    obtain ⟨p1, p2, p3⟩ := List.pairwise_append.1 ord
    refine ⟨⟨?_, ?_⟩, ?_⟩
    · intro y hy
      rcases List.mem_append.1 hy with hy | hy
      · rcases List.mem_append.1 hy with hy | hy
        · obtain ⟨mx', c', mn', g⟩ := cand y (by simp [hy])
          have := g.range
          exact ⟨mx', c', mn', g.pulse, g.wide, by omega⟩
        · rw [List.mem_singleton.1 hy]
          refine ⟨mx0, c0, mn0, ⟨hx.pulse.order, hx.pulse.ticks, hx.pulse.centre, hx.pulse.sigma, hx.pulse.values, hx.pulse.fall,
            hx.pulse.peak⟩, hx.wide, ?_⟩
          simp only
          omega
      · rw [List.mem_singleton.1 hy]
        exact ⟨_, _, _, hnew _ (by omega) (by omega)⟩
    · refine List.pairwise_append.2 ⟨List.pairwise_append.2 ⟨p1, List.pairwise_singleton _ _, ?_⟩, List.pairwise_singleton _ _, ?_⟩
      · intro y hy z hz
        rw [List.mem_singleton.1 hz]
        exact p3 y hy x (by simp)
      · intro y hy z hz
        rw [List.mem_singleton.1 hz]
        simp only [mkHit]
        rcases List.mem_append.1 hy with hy | hy
        · have := p3 y hy x (by simp)
          have hx2 := hx.pulse.ticks
          have hx3 := hx.pulse.order
          omega
        · rw [List.mem_singleton.1 hy]
          simp only
          omega
    · simp only [List.map_append, List.map_cons, List.map_nil, mkHit]
      simp; omega

theorem addCand_fold {n : Nat} {d : Nat → ℚ} {R a b : Nat} (hb : b ≤ n) : ∀ (ts : List (Nat × Nat × Nat × Nat)) (l : List Hit) (hi : Nat),
    MInv n d R hi l → (∀ t ∈ ts, Quad d a b t) → QuadsOrdered ts → (∀ t ∈ ts, hi ≤ t.1) →
    (∃ hi', hi' < b ⊔ (hi + 1) ∧ MInv n d R hi' (ts.foldl (addCand d a (R + a)) l)) ∧
    (ts.foldl (addCand d a (R + a)) l).map (fun h => (h.maxTick, h.minTick)) =
      l.map (fun h => (h.maxTick, h.minTick)) ++ ts.map (fun t => (R + t.2.1, R + t.2.2.1)) := by
  intro ts
  induction ts with
  | nil => intro l hi h _ _ _; exact ⟨⟨hi, by simp, h⟩, by simp⟩
  | cons t ts ih =>
    intro l hi h hq ho hhi
    obtain ⟨h1, h2⟩ := addCand_inv h (hq t (by simp)) hb (hhi t (by simp))
    obtain ⟨o1, o2⟩ := List.pairwise_cons.1 ho
    obtain ⟨⟨hi', g1, g2⟩, g3⟩ := ih _ t.2.2.2 h1 (fun u hu => hq u (List.mem_cons_of_mem _ hu)) o2 o1
    rw [List.foldl_cons]
    have := (hq t (by simp)).order
    have hlt : hi' < b ⊔ (hi + 1) := by
      rcases lt_sup_iff.1 g1 with g | g
      · exact lt_sup_iff.2 (Or.inl g)
      · exact lt_sup_iff.2 (Or.inl (by omega))
    refine ⟨⟨hi', hlt, g2⟩, ?_⟩
    rw [g3, h2]
    simp

/-- **C135.** The candidates of one region `[a, b)`: the list of pairs of a maximum and a minimum found there, all of them if
at least one pair meets the thresholds, and none otherwise. Each pair is at least two ticks apart, the derivative falls
between them and rises on both sides as far as start and stop; pairs do not overlap. -/
theorem C135_region {n : Nat} {d : Nat → ℚ} (minT : Int) (minP : ℚ) {R a b hi : Nat} (hab : a < b) (hb : b ≤ n) {l : List Hit}
    (hl : MInv n d R hi l) (hhi : hi ≤ a) :
    ∃ (ts : List (Nat × Nat × Nat × Nat)) (l' : List Hit), diffHits n d minT minP a b (R + a) l = some (.ok l') ∧ (∀ t ∈ ts, Quad d a b t) ∧ QuadsOrdered ts ∧
      MInv n d R (b - 1) l' ∧
      ((∃ t ∈ ts, Meets d minT minP t) → l'.map (fun h => (h.maxTick, h.minTick)) =
        l.map (fun h => (h.maxTick, h.minTick)) ++ ts.map (fun t => (R + t.2.1, R + t.2.2.1))) ∧
      ((¬ ∃ t ∈ ts, Meets d minT minP t) → l' = l) := by
  obtain ⟨flag, new, h1, h2, h3, h4⟩ := listCands_spec n d minT minT minP (n + 1) a b [] (by omega) hab.le hb (by omega)
  rw [List.nil_append] at h1
  unfold diffHits
  rw [h1]
  simp only [andThen]
  by_cases hf : flag = true
  · obtain ⟨⟨hi', g1, g2⟩, g3⟩ := addCand_fold (a := a) hb new l hi hl h2 h3 fun t ht => by
      have := (h2 t ht).order
      omega
    refine ⟨new, _, by rw [if_pos hf], h2, h3, g2.mono ?_, fun _ => g3, fun h => absurd (h4.1 hf) h⟩
    rcases lt_sup_iff.1 g1 with g | g <;> omega
  · exact ⟨new, l, by rw [if_neg hf], h2, h3, hl.mono (by omega), fun h => absurd (h4.2 h) hf, fun _ => rfl⟩

/-- **C135, refuted: not every candidate meets the thresholds.** The second pair differs by 1/50 only, but comes along
with the first. -/
theorem C135_threshold_refuted :
    (diffHits 9 (at' [0, 2, 0, -2, 0, 1 / 100, 0, -1 / 100, 0]) 0 (1 / 40) 0 9 0 []).map (fun r => r.bind fun l =>
      .ok (l.map fun h => ((h.maxTick, h.minTick), h.maxDerivative - h.minDerivative))) =
      some (.ok [((1, 3), 4), ((5, 7), 1 / 50)]) := by decide +kernel

theorem regionBack_spec (d e : Nat → ℚ) (cut : ℚ) (a : Nat) (k : Nat) : ∀ i prev, a ≤ i →
    a ≤ regionBack d e cut a k i prev ∧ regionBack d e cut a k i prev ≤ i := by
  induction k with
  | zero => intro i prev h; exact ⟨h, le_refl _⟩
  | succ k ih =>
    intro i prev h
    rw [regionBack]
    split
    · exact ⟨h, le_refl _⟩
    · split
      · exact ⟨h, le_refl _⟩
      · next h1 _ =>
        have := ih (i - 1) (d i) (by omega)
        omega

theorem regionFwd_spec (d e : Nat → ℚ) (cut : ℚ) (b : Nat) (k : Nat) : ∀ i prev, i ≤ b → b - i < k →
    i ≤ regionFwd d e cut b k i prev ∧ regionFwd d e cut b k i prev ≤ b ∧ (i < b → 0 ≤ prev → i < regionFwd d e cut b k i prev) := by
  induction k with
  | zero => intro i prev h1 h2; omega
  | succ k ih =>
    intro i prev h1 h2
    rw [regionFwd]
    split
    · next h => exact ⟨le_refl _, h1, fun h3 => by omega⟩
    · split
      · next h3 => exact ⟨le_refl _, h1, fun h4 h5 => absurd h3.2.2 (not_lt.2 h5)⟩
      · next h3 _ =>
        have := ih (i + 1) (d i) (by omega) (by omega)
        refine ⟨by omega, this.2.1, fun _ _ => by omega⟩

theorem regions_spec (n : Nat) (d e l : Nat → ℚ) (c : Cfg) (hT : 0 ≤ c.minT) (R : Nat) (fuel : Nat) :
    ∀ a b hi out, b - a < fuel → a < b → b ≤ n → hi ≤ a → MInv n d R hi out →
    ∃ out', regions n d e l c fuel a b (R + a) out = some (.ok out') ∧ MInv n d R (b - 1) out' ∧ out.length ≤ out'.length ∧
      ((∀ k, a ≤ k → k < b → l k < c.dilThr) → out' = out) := by
  induction fuel with
  | zero => intro a b hi out h; omega
  | succ fuel ih =>
    intro a b hi out hfuel hab hbn hhi hinv
    rw [regions]
    split
    · exact ⟨out, rfl, hinv.mono (by omega), le_refl _, fun _ => rfl⟩
    rw [if_neg (by omega)]
    dsimp only
    have hm := bestElt_best strict_max l a (b - a) (by omega)
    rw [show a + (b - a) = b by omega] at hm
    generalize bestElt ltMax l a (b - a) = m at *
    obtain ⟨m1, m2, -⟩ := hm
    split
    · exact ⟨out, rfl, hinv.mono (by omega), le_refl _, fun _ => rfl⟩
    next hthr =>
    obtain ⟨b1, b2⟩ := regionBack_spec d e (c.eroFrac * l m) a (m - a + 1) m (-1) m1
    obtain ⟨f1, f2, f3⟩ := regionFwd_spec d e (c.eroFrac * l m) b (b - m + 1) m 1 m2.le (by omega)
    have f4 := f3 m2 (by norm_num)
    generalize regionBack d e (c.eroFrac * l m) a (m - a + 1) m (-1) = rs at *
    generalize regionFwd d e (c.eroFrac * l m) b (b - m + 1) m 1 = re at *
    have hleft : ∃ out1, (if c.minT < (rs : Int) - a then regions n d e l c fuel a rs (R + a) out else some (.ok out)) = some (.ok out1) ∧
        MInv n d R rs out1 ∧ out.length ≤ out1.length := by
      split
      · next h =>
        obtain ⟨o, g1, g2, g3, -⟩ := ih a rs hi out (by omega) (by omega) (by omega) hhi hinv
        exact ⟨o, g1, g2.mono (by omega), g3⟩
      · exact ⟨out, rfl, hinv.mono (by omega), le_refl _⟩
    obtain ⟨out1, g1, g2, g3⟩ := hleft
    rw [g1]
    simp only [andThen]
    rw [show R + a + (rs - a) = R + rs by omega]
    obtain ⟨ts, out2, k1, -, -, k2, k3, k4⟩ := C135_region (d := d) c.minT c.minP (R := R) (show rs < re by omega) (by omega) g2 (le_refl _)
    have k5 : out1.length ≤ out2.length := by
      by_cases hc : ∃ t ∈ ts, Meets d c.minT c.minP t
      · have := congrArg List.length (k3 hc)
        simp at this
        omega
      · rw [k4 hc]
    rw [k1]
    simp only [andThen]
    have hno : (∀ k, a ≤ k → k < b → l k < c.dilThr) → ∀ o, o = out := fun h => absurd (h m m1 m2) hthr
    split
    · next h =>
      rw [show R + a + (re - a) = R + re by omega]
      obtain ⟨o, j1, j2, j3, -⟩ := ih re b (re - 1) out2 (by omega) (by omega) hbn (by omega) k2
      exact ⟨o, j1, j2, by omega, fun h => hno h o⟩
    · exact ⟨out2, rfl, k2.mono (by omega), by omega, fun h => hno h out2⟩

/-- a candidate returned by the morphological tool: a pulse of at least two ticks inside the region; start and stop lie around
the centre, no further out than the limit, and the height is the sample at the tick of the centre -/
structure MHit (w : List ℚ) (d : Nat → ℚ) (ns : ℚ) (h : Hit) (mx c mn : Nat) : Prop where
  pulse : Pulse w.length d 0 h mx c mn
  wide : mx + 2 ≤ mn
  around : h.startTick ≤ c ∧ c ≤ h.stopTick ∧ h.stopTick < w.length
  near : 0 < ns → h.hitCenter - ns * h.hitSigma < h.startTick + 1 ∧ (h.stopTick : ℚ) ≤ h.hitCenter + ns * h.hitSigma
  height : w[c]? = some h.hitHeight

theorem limit_ticks (ns : ℚ) (h : Hit) : h.startTick ≤ (limit ns h).startTick ∧ (limit ns h).stopTick ≤ h.stopTick := by
  unfold limit
  split
  · constructor
    · simp only
      split
      · exact le_max_left _ _
      · exact le_refl _
    · exact min_le_left _ _
  · exact ⟨le_refl _, le_refl _⟩

theorem limit_near {n : Nat} {d : Nat → ℚ} {ns : ℚ} {h : Hit} {hi mx c mn : Nat} (hc : MCand n d 0 hi h mx c mn) :
    Pulse n d 0 (limit ns h) mx c mn ∧ (limit ns h).startTick ≤ c ∧ c ≤ (limit ns h).stopTick ∧
    (0 < ns → (limit ns h).hitCenter - ns * (limit ns h).hitSigma < (limit ns h).startTick + 1 ∧
      ((limit ns h).stopTick : ℚ) ≤ (limit ns h).hitCenter + ns * (limit ns h).hitSigma) := by
  obtain ⟨r1, r2, r3, r4⟩ := hc.range
  obtain ⟨t1, t2⟩ := hc.pulse.ticks
  obtain ⟨c1, c2, c3, c4⟩ := hc.pulse.centre
  have hw := hc.wide
  rw [Nat.zero_add] at t1 t2 c1
  unfold limit
  split
  · next hns =>
    have hs : 0 < ns * h.hitSigma := by
      refine mul_pos hns ?_
      rw [hc.pulse.sigma]
      have : (mx : ℚ) + 2 ≤ mn := by exact_mod_cast hw
      linarith
    have hup : 0 ≤ h.hitCenter + ns * h.hitSigma := by
      rw [c1]
      positivity
    refine ⟨⟨hc.pulse.order, hc.pulse.ticks, hc.pulse.centre, hc.pulse.sigma, hc.pulse.values, hc.pulse.fall, hc.pulse.peak⟩,
      ?_, ?_, fun _ => ⟨?_, ?_⟩⟩
    · simp only
      split
      · next hp =>
        refine max_le (by omega) ?_
        have : ⌊h.hitCenter - ns * h.hitSigma⌋ ≤ ⌊((c : ℚ) + 1 / 2)⌋ := Int.floor_le_floor (by rw [c1]; linarith)
        have h2 := Int.toNat_le_toNat this
        rwa [floor_half] at h2
      · omega
    · simp only
      refine le_min (by omega) ?_
      have : ⌊((c : ℚ) + 1 / 2)⌋ ≤ ⌊h.hitCenter + ns * h.hitSigma⌋ := Int.floor_le_floor (by rw [c1]; linarith)
      have h2 := Int.toNat_le_toNat this
      rwa [floor_half] at h2
    · simp only
      split
      · next hp =>
        have h1 := Int.lt_floor_add_one (h.hitCenter - ns * h.hitSigma)
        have h2 : ((⌊h.hitCenter - ns * h.hitSigma⌋.toNat : ℕ) : ℚ) = (⌊h.hitCenter - ns * h.hitSigma⌋ : ℤ) := by
          have := Int.toNat_of_nonneg (Int.floor_nonneg.2 hp)
          exact_mod_cast this
        have h3 : ((⌊h.hitCenter - ns * h.hitSigma⌋.toNat : ℕ) : ℚ) ≤
            ((max h.startTick ⌊h.hitCenter - ns * h.hitSigma⌋.toNat : ℕ) : ℚ) := by exact_mod_cast le_max_right _ _
        linarith
      · next hp =>
        have : (0 : ℚ) ≤ h.startTick := by positivity
        linarith
    · simp only
      have h2 : ((⌊h.hitCenter + ns * h.hitSigma⌋.toNat : ℕ) : ℚ) = (⌊h.hitCenter + ns * h.hitSigma⌋ : ℤ) := by
        have := Int.toNat_of_nonneg (Int.floor_nonneg.2 hup)
        exact_mod_cast this
      have h3 := Int.floor_le (h.hitCenter + ns * h.hitSigma)
      have h4 : ((min h.stopTick ⌊h.hitCenter + ns * h.hitSigma⌋.toNat : ℕ) : ℚ) ≤
          ((⌊h.hitCenter + ns * h.hitSigma⌋.toNat : ℕ) : ℚ) := by exact_mod_cast min_le_right _ _
      linarith
  · next hns => exact ⟨hc.pulse, by omega, by omega, fun h => absurd h hns⟩

theorem limit_ordered (ns : ℚ) {l : List Hit} (h : Ordered l) : Ordered (l.map (limit ns)) := by
  unfold Ordered at *
  rw [List.pairwise_map]
  refine h.imp ?_
  intro a b hab
  exact (limit_ticks ns a).2.trans (hab.trans (limit_ticks ns b).1)

/-- **C136.** With `MinDeltaTicks` not negative and a structuring element of at least 2, the morphological tool ends on every
non-empty region, reads nothing outside it, and gives sound candidates in time order that overlap at most in a boundary
tick. It gives none if all samples are below the dilation threshold. -/
theorem C136_candidates (w : List ℚ) (c : Cfg) (hT : 0 ≤ c.minT) (hse : 2 ≤ c.se) (hw : w ≠ []) :
    ∃ d hits, smoothed w = .ok d ∧ d.length = w.length ∧ morphological w c 0 [] = some (.ok hits) ∧ Ordered hits ∧
      (∀ h ∈ hits, ∃ mx c' mn : Nat, MHit w (at' d) c.nSigma h mx c' mn) ∧
      ((∀ x ∈ w, x < c.dilThr) → hits = []) := by
  obtain ⟨d, hd1, hd2⟩ := smoothed_ok hw
  have hn : 0 < w.length := List.length_pos_iff.2 hw
  obtain ⟨e, l, av, df, he1, he2, he3, -, he5, -⟩ := C35_erosion_dilation c.se w hse hw
  obtain ⟨raw, h1, h2, -, h4⟩ := regions_spec d.length (at' d) (at' e) (at' l) c hT 0 (d.length + 1) 0 d.length 0 [] (by omega)
    (by omega) (le_refl _) (le_refl _) ⟨by simp, List.Pairwise.nil⟩
  have hc : ∀ h ∈ raw.map (limit c.nSigma), ∃ c : Nat, h.hitCenter = (c : ℚ) + 1 / 2 ∧ c < w.length := by
    intro h hh
    obtain ⟨x, hx, rfl⟩ := List.mem_map.1 hh
    obtain ⟨mx, c', mn, g⟩ := h2.cand x hx
    obtain ⟨p, -⟩ := limit_near (ns := c.nSigma) g
    have := p.centre
    have := p.order
    exact ⟨c', by rw [p.centre.1, Nat.zero_add], by omega⟩
  obtain ⟨hits, k1, k2⟩ := setHeights_ok hc
  refine ⟨d, hits, hd1, hd2, ?_, ?_, ?_, ?_⟩
  · unfold morphological
    rw [hd1]
    simp only
    rw [he1]
    simp only
    rw [h1]
    simp only [Option.map_some, Res.bind, k1]
  · exact forall2_ordered k2 (fun x y hxy => by rw [hxy.1]; exact ⟨rfl, rfl⟩) (limit_ordered _ h2.ordered)
  · intro h' hh'
    obtain ⟨h, hh, hq, hv⟩ := forall2_mem k2 h' hh'
    obtain ⟨x, hx, rfl⟩ := List.mem_map.1 hh
    obtain ⟨mx, c', mn, g⟩ := h2.cand x hx
    obtain ⟨p, q1, q2, q3⟩ := limit_near (ns := c.nSigma) g
    refine ⟨mx, c', mn, ?_⟩
    have hst := (limit_ticks c.nSigma x).2
    have := g.range
    rw [p.centre.1, Nat.zero_add, floor_half] at hv
    rw [hq]
    exact ⟨by rw [← hd2]; exact ⟨p.order, p.ticks, p.centre, p.sigma, p.values, p.fall, p.peak⟩, g.wide,
      ⟨q1, q2, by simp only; omega⟩, q3, hv⟩
  · intro hlow
    have hr : raw = [] := by
      refine h4 ?_
      intro k _ hk
      have hkl : k < l.length := by omega
      have := he5 k (at' l k) (some_at hkl)
      obtain ⟨⟨j, -, -, hj⟩, -⟩ := this
      exact hlow _ (List.mem_of_getElem? hj)
    subst hr
    simp only [List.map_nil, setHeights] at k1
    cases k1
    rfl

/-- two pulses with the default settings -/
example : (morphological [0, 0, 2, 6, 2, 0, 0, 0, 0, 3, 9, 3, 0, 0, 0] { se := 4 } 0 []).map (fun r => r.bind fun l =>
    .ok (l.map fun h => ([h.startTick, h.maxTick, h.minTick, h.stopTick], h.hitCenter, h.hitHeight))) =
    some (.ok [([1, 1, 5, 6], 7 / 2, 6), ([6, 8, 12, 12], 21 / 2, 9)]) := by decide +kernel

/-- **C136, refuted for a vector that is not empty.** The tool does not clear its output as the derivative tool does: it moves
the stop and resets the height of a candidate that was there before. -/
theorem C136_old_refuted :
    (morphological [0, 0, 0, 0, 0, 0, 2, 6, 2, 0, 0, 0, 0, 0, 0] { se := 4 } 0 [⟨0, 0, 0, 0, 1, -1, 1 / 2, 9, 77⟩]).map (fun r => r.bind fun l =>
      .ok (l.map fun h => ([h.startTick, h.stopTick], h.hitHeight))) = some (.ok [([0, 1], 0), ([2, 11], 6)]) ∧
    (derivative [0, 0, 0, 0, 0, 0, 2, 6, 2, 0, 0, 0, 0, 0, 0] 1 (1 / 40) 0 [⟨0, 0, 0, 0, 1, -1, 1 / 2, 9, 77⟩]).map (fun r => r.bind fun l =>
      .ok (l.map fun h => h.hitHeight)) = some (.ok [6]) := by constructor <;> decide +kernel

end Verif.CandShape

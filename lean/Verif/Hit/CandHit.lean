import Verif.Hit.WaveProps
import Mathlib.Data.List.Chain
/-!
# `reco_tool::CandHitStandard` (C38, C39, C40)

Source: `/repo/larreco/HitFinder/HitFinderTools/CandHitStandard_tool.cc`. Samples are exact rationals (`float` in the code);
iterators are positions in the waveform; `size_t`/`int` conversions of ticks are assumed not to wrap. Not modelled: the channel
to plane lookup (`planeIdx` is unused).
-/
namespace Verif.CandHit
open Verif Verif.Wave

/-- `HitCandidate`, larreco/HitFinder/HitFinderTools/ICandidateHitFinder.h:24-35 -/
structure Hit where
  startTick : Nat
  stopTick : Nat
  maxTick : Nat
  minTick : Nat
  maxDerivative : ℚ
  minDerivative : ℚ
  hitCenter : ℚ
  hitSigma : ℚ
  hitHeight : ℚ
deriving DecidableEq, Repr

/-- backward search of the first bin, CandHitStandard_tool.cc:90-98; reading outside the waveform is undefined -/
def backLoop (w : List ℚ) (thr next : ℚ) (start : Nat) : Nat → Nat → Res Nat
  | 0, _ => .ub
  | fuel + 1, f =>
    if f = start then .ok f
    else if f = 0 ∨ w.length ≤ f + 1 then .ub
    else if at' w f < -thr then .ok f
    else if at' w f < at' w (f + 1) ∧ at' w (f - 1) - at' w f ≥ next then .ok f
    else backLoop w thr next start fuel (f - 1)

/-- forward search of the last bin, CandHitStandard_tool.cc:108-116 -/
def fwdLoop (w : List ℚ) (thr next : ℚ) (stop : Nat) : Nat → Nat → Res Nat
  | 0, _ => .ub
  | fuel + 1, l =>
    if l = stop - 1 then .ok l
    else if l = 0 ∨ w.length ≤ l + 1 then .ub
    else if at' w l < -thr then .ok l
    else if at' w (l + 1) - at' w l ≥ next ∧ at' w l < at' w (l - 1) then .ok l
    else fwdLoop w thr next stop fuel (l + 1)

/-- the candidate saved, CandHitStandard_tool.cc:121-132 -/
def mkHit (w : List ℚ) (start tick first m last : Nat) : Hit where
  startTick := tick + (first - start)
  stopTick := tick + (last - start)
  maxTick := tick + (first - start)
  minTick := tick + (last - start)
  maxDerivative := at' w first
  minDerivative := at' w last
  hitCenter := ((tick + (m - start) : Nat) : ℚ)
  hitSigma := max 2 (((last : ℚ) - first) / 6)
  hitHeight := at' w m

/-- recursive `findHitCandidates` on `[start, stop)`, CandHitStandard_tool.cc:70-142. `none` = recursion budget exhausted. -/
def findHits (w : List ℚ) (thr next : ℚ) : Nat → Nat → Nat → Nat → List Hit → Option (Res (List Hit))
  | 0, _, _, _, _ => none
  | fuel + 1, start, stop, tick, out =>
    if stop - start > 4 then
      let m := bestElt ltMax (at' w) start (stop - start)
      if at' w m > thr then
        match backLoop w thr next start (w.length + 1) (if m - start > 2 then m - 1 else start) with
        | .ok first =>
          match findHits w thr next fuel start (first + 1) tick out with
          | some (.ok out1) =>
            match fwdLoop w thr next stop (w.length + 1) (if stop - m > 2 then m + 1 else stop - 1) with
            | .ok last =>
              findHits w thr next fuel (last + 1) stop (tick + (last + 1 - start)) (out1 ++ [mkHit w start tick first m last])
            | _ => some .ub
          | some .throw => some .throw
          | some .ub => some .ub
          | none => none
        | _ => some .ub
      else some (.ok out)
    else some (.ok out)

/-- public `findHitCandidates`, CandHitStandard_tool.cc:52-68, appending to `out`; the budget covers every recursion (C39) -/
def findHitCandidates (w : List ℚ) (thr next : ℚ) (roi : Nat) (out : List Hit) : Option (Res (List Hit)) :=
  findHits w thr next (w.length + 1) 0 w.length roi out

/-- the loop of `MergeHitCandidates`, CandHitStandard_tool.cc:157-169 -/
def mergeLoop : List Hit → List Hit → Int → List (List Hit) → List (List Hit)
  | [], grouped, _, merged => if grouped ≠ [] then merged ++ [grouped] else merged
  | h :: hs, grouped, lastTick, merged =>
    if (h.startTick : Int) - lastTick > 1 then mergeLoop hs [h] h.stopTick (merged ++ [grouped])
    else mergeLoop hs (grouped ++ [h]) h.stopTick merged

/-- `MergeHitCandidates`, CandHitStandard_tool.cc:144-173 -/
def mergeHitCandidates (hits : List Hit) (merged : List (List Hit)) : List (List Hit) :=
  match hits with
  | [] => merged
  | h :: _ => mergeLoop hits [] h.stopTick merged

/-! ## Specification -/

/-- a sound candidate of the waveform `w` whose first sample is tick `roi`: its ticks are inside the region, its centre is a tick
between start and stop, its height is the sample there, above the threshold and the largest sample of the candidate -/
def Sound (w : List ℚ) (thr : ℚ) (roi : Nat) (h : Hit) : Prop :=
  ∃ a m b, a ≤ m ∧ m ≤ b ∧ b < w.length ∧ h.startTick = roi + a ∧ h.stopTick = roi + b ∧ h.hitCenter = (roi + m : Nat) ∧
    w[m]? = some h.hitHeight ∧ thr < h.hitHeight ∧ (∀ (k : Nat) x, a ≤ k → k ≤ b → w[k]? = some x → x ≤ h.hitHeight) ∧
    2 ≤ h.hitSigma ∧ w[a]? = some h.maxDerivative ∧ w[b]? = some h.minDerivative

/-- time order, sharing at most the boundary tick -/
def Ordered (l : List Hit) : Prop := l.Pairwise (fun p q => p.stopTick ≤ q.startTick)

/-- the tick of position `t` lies inside a candidate -/
def Covered (l : List Hit) (roi t : Nat) : Prop := ∃ h ∈ l, h.startTick ≤ roi + t ∧ roi + t ≤ h.stopTick

/-- position `t` lies in a remnant of at most four ticks between the ends of the region and/or the candidates -/
def InRemnant (l : List Hit) (roi n t : Nat) : Prop :=
  ∃ a b, a ≤ t ∧ t < b ∧ b ≤ a + 4 ∧ (a = 0 ∨ ∃ h ∈ l, h.stopTick + 1 = roi + a) ∧ (b = n ∨ ∃ h ∈ l, h.startTick + 1 = roi + b)

/-! ## Proof -/

theorem backLoop_spec (w : List ℚ) (thr next : ℚ) (start m : Nat) (hm : m < w.length) (fuel : Nat) : ∀ f, start ≤ f → f + 1 ≤ m ∨ f = start →
    f - start < fuel → ∃ r, backLoop w thr next start fuel f = .ok r ∧ start ≤ r ∧ r ≤ f := by
  induction fuel with
  | zero => intro f _ _ h; omega
  | succ fuel ih =>
    intro f h1 h2 h3
    unfold backLoop
    by_cases hf : f = start
    · rw [if_pos hf]; exact ⟨f, rfl, h1, le_refl _⟩
    · rw [if_neg hf, if_neg (show ¬ (f = 0 ∨ w.length ≤ f + 1) by omega)]
      by_cases hc : at' w f < -thr
      · rw [if_pos hc]; exact ⟨f, rfl, h1, le_refl _⟩
      · rw [if_neg hc]
        by_cases hc2 : at' w f < at' w (f + 1) ∧ at' w (f - 1) - at' w f ≥ next
        · rw [if_pos hc2]; exact ⟨f, rfl, h1, le_refl _⟩
        · rw [if_neg hc2]
          obtain ⟨r, e, a, b⟩ := ih (f - 1) (by omega) (by omega) (by omega)
          exact ⟨r, e, a, by omega⟩

theorem fwdLoop_spec (w : List ℚ) (thr next : ℚ) (stop : Nat) (hs : stop ≤ w.length) (fuel : Nat) : ∀ l, l < stop → 0 < l ∨ l + 1 = stop →
    stop - l < fuel + 1 → ∃ r, fwdLoop w thr next stop fuel l = .ok r ∧ l ≤ r ∧ r < stop := by
  induction fuel with
  | zero => intro l h _ h3; omega
  | succ fuel ih =>
    intro l h1 h2 h3
    unfold fwdLoop
    by_cases hf : l = stop - 1
    · rw [if_pos hf]; exact ⟨l, rfl, le_refl _, h1⟩
    · rw [if_neg hf, if_neg (show ¬ (l = 0 ∨ w.length ≤ l + 1) by omega)]
      by_cases hc : at' w l < -thr
      · rw [if_pos hc]; exact ⟨l, rfl, le_refl _, h1⟩
      · rw [if_neg hc]
        by_cases hc2 : at' w (l + 1) - at' w l ≥ next ∧ at' w l < at' w (l - 1)
        · rw [if_pos hc2]; exact ⟨l, rfl, le_refl _, h1⟩
        · rw [if_neg hc2]
          obtain ⟨r, e, a, b⟩ := ih (l + 1) (by omega) (by omega) (by omega)
          exact ⟨r, e, by omega, b⟩

/-- what one call on `[start, stop)` appends -/
structure Appends (w : List ℚ) (thr : ℚ) (roi start stop : Nat) (new : List Hit) : Prop where
  sound : ∀ h ∈ new, Sound w thr roi h
  inside : ∀ h ∈ new, roi + start ≤ h.startTick ∧ h.stopTick < roi + stop
  ordered : Ordered new
  top : ∀ m, 4 < stop - start → m = bestElt ltMax (at' w) start (stop - start) → thr < at' w m →
    ∃ h ∈ new, h.hitCenter = (roi + m : Nat) ∧ h.hitHeight = at' w m
  quiet : (∀ k, start ≤ k → k < stop → at' w k ≤ thr) → new = []
  covers : ∀ t, start ≤ t → t < stop → thr < at' w t → Covered new roi t ∨
    ∃ a b, a ≤ t ∧ t < b ∧ b ≤ a + 4 ∧ (a = start ∨ ∃ h ∈ new, h.stopTick + 1 = roi + a) ∧ (b = stop ∨ ∃ h ∈ new, h.startTick + 1 = roi + b)

theorem findHits_spec (w : List ℚ) (thr next : ℚ) (roi : Nat) (fuel : Nat) : ∀ start stop out, stop - start < fuel → stop ≤ w.length →
    ∃ new, findHits w thr next fuel start stop (roi + start) out = some (.ok (out ++ new)) ∧ Appends w thr roi start stop new := by
  induction fuel with
  | zero => intro _ _ _ h; omega
  | succ fuel ih =>
    intro start stop out hf hstop
    unfold findHits
    by_cases hd : stop - start > 4
    swap
    · rw [if_neg hd]
      refine ⟨[], by simp, by simp, by simp, List.Pairwise.nil, fun m h => by omega, fun _ => rfl, fun t h1 h2 _ => ?_⟩
      exact Or.inr ⟨start, stop, h1, h2, by omega, Or.inl rfl, Or.inl rfl⟩
    rw [if_pos hd]
    simp only []
    have hbest := bestElt_best strict_max (at' w) start (stop - start) (by omega)
    rw [show start + (stop - start) = stop by omega] at hbest
    generalize hmdef : bestElt ltMax (at' w) start (stop - start) = m at hbest
    obtain ⟨m1, m2, m3⟩ := hbest
    have hmax : ∀ k, start ≤ k → k < stop → at' w k ≤ at' w m := by
      intro k h1 h2
      have := m3 k h1 h2
      simpa [ltMax] using this
    by_cases hthr : at' w m > thr
    swap
    · rw [if_neg hthr]
      refine ⟨[], by simp, by simp, by simp, List.Pairwise.nil, fun m' _ h hlt => ?_, fun _ => rfl, fun t h1 h2 ht => ?_⟩
      · rw [h, hmdef] at hlt; exact absurd hlt hthr
      · exact absurd (lt_of_lt_of_le ht (hmax t h1 h2)) hthr
    rw [if_pos hthr]
    obtain ⟨first, hfirst, f1, f2⟩ := backLoop_spec w thr next start m (by omega) (w.length + 1)
      (if m - start > 2 then m - 1 else start) (by split <;> omega) (by split <;> omega) (by split <;> omega)
    rw [hfirst]
    simp only []
    have f3 : first ≤ m := by
      have : (if m - start > 2 then m - 1 else start) ≤ m := by split <;> omega
      omega
    have f4 : first + 1 ≤ m ∨ (first = start ∧ m = start) := by
      by_cases h : m - start > 2
      · rw [if_pos h] at f2; omega
      · rw [if_neg h] at f2; omega
    obtain ⟨new1, e1, A1⟩ := ih start (first + 1) out (by omega) (by omega)
    rw [e1]
    simp only []
    obtain ⟨last, hlast, l1, l2⟩ := fwdLoop_spec w thr next stop hstop (w.length + 1)
      (if stop - m > 2 then m + 1 else stop - 1) (by split <;> omega) (by split <;> omega) (by split <;> omega)
    rw [hlast]
    simp only []
    have l3 : m ≤ last := by
      have : m ≤ (if stop - m > 2 then m + 1 else stop - 1) := by split <;> omega
      omega
    obtain ⟨new2, e2, A2⟩ := ih (last + 1) stop ((out ++ new1) ++ [mkHit w start (roi + start) first m last]) (by omega) hstop
    rw [show roi + start + (last + 1 - start) = roi + (last + 1) by omega, e2]
    have hs1 : (mkHit w start (roi + start) first m last).startTick = roi + first := by simp only [mkHit]; omega
    have hs2 : (mkHit w start (roi + start) first m last).stopTick = roi + last := by simp only [mkHit]; omega
    have hs3 : (mkHit w start (roi + start) first m last).hitCenter = (roi + m : Nat) := by
      simp only [mkHit]; congr 1; omega
    have hs4 : (mkHit w start (roi + start) first m last).hitHeight = at' w m := rfl
    have hs5 : 2 ≤ (mkHit w start (roi + start) first m last).hitSigma := le_max_left _ _
    have hs6 : (mkHit w start (roi + start) first m last).maxDerivative = at' w first := rfl
    have hs7 : (mkHit w start (roi + start) first m last).minDerivative = at' w last := rfl
    generalize mkHit w start (roi + start) first m last = H at hs1 hs2 hs3 hs4 hs5 hs6 hs7
    have mem : ∀ h, h ∈ new1 ++ H :: new2 ↔ h ∈ new1 ∨ h = H ∨ h ∈ new2 := by
      intro h; rw [List.mem_append, List.mem_cons]
    refine ⟨new1 ++ H :: new2, by simp, ?_, ?_, ?_, ?_, ?_, ?_⟩
    · intro h hh
      rcases (mem h).1 hh with hh | hh | hh
      · exact A1.sound h hh
      · subst hh
        refine ⟨first, m, last, f3, l3, by omega, hs1, hs2, hs3, by rw [hs4]; exact some_at (by omega), by rw [hs4]; exact hthr,
          ?_, hs5, by rw [hs6]; exact some_at (by omega), by rw [hs7]; exact some_at (by omega)⟩
        intro k x k1 k2 hx
        rw [hs4, ← at_some hx]
        exact hmax k (by omega) (by omega)
      · exact A2.sound h hh
    · intro h hh
      rcases (mem h).1 hh with hh | hh | hh
      · have := A1.inside h hh; omega
      · subst hh; omega
      · have := A2.inside h hh; omega
    · unfold Ordered
      rw [List.pairwise_append, List.pairwise_cons]
      refine ⟨A1.ordered, ⟨fun q hq => ?_, A2.ordered⟩, fun p hp q hq => ?_⟩
      · have := A2.inside q hq; omega
      · have h1 := A1.inside p hp
        rw [List.mem_cons] at hq
        rcases hq with hq | hq
        · subst hq; omega
        · have := A2.inside q hq; omega
    · intro m' _ hm' _
      rw [hmdef] at hm'
      subst hm'
      exact ⟨H, (mem H).2 (Or.inr (Or.inl rfl)), hs3, hs4⟩
    · intro hq
      exact absurd hthr (not_lt.2 (hq m m1 m2))
    · intro t h1 h2 ht
      by_cases hin : first ≤ t ∧ t ≤ last
      · exact Or.inl ⟨H, (mem H).2 (Or.inr (Or.inl rfl)), by omega, by omega⟩
      · by_cases hlow : t < first
        · rcases A1.covers t h1 (by omega) ht with ⟨h, hh, c1, c2⟩ | ⟨a, b, c1, c2, c3, c4, c5⟩
          · exact Or.inl ⟨h, (mem h).2 (Or.inl hh), c1, c2⟩
          · refine Or.inr ⟨a, b, c1, c2, c3, ?_, ?_⟩
            · rcases c4 with c4 | ⟨h, hh, c4⟩
              · exact Or.inl c4
              · exact Or.inr ⟨h, (mem h).2 (Or.inl hh), c4⟩
            · rcases c5 with c5 | ⟨h, hh, c5⟩
              · exact Or.inr ⟨H, (mem H).2 (Or.inr (Or.inl rfl)), by omega⟩
              · exact Or.inr ⟨h, (mem h).2 (Or.inl hh), c5⟩
        · rcases A2.covers t (by omega) h2 ht with ⟨h, hh, c1, c2⟩ | ⟨a, b, c1, c2, c3, c4, c5⟩
          · exact Or.inl ⟨h, (mem h).2 (Or.inr (Or.inr hh)), c1, c2⟩
          · refine Or.inr ⟨a, b, c1, c2, c3, ?_, ?_⟩
            · rcases c4 with c4 | ⟨h, hh, c4⟩
              · exact Or.inr ⟨H, (mem H).2 (Or.inr (Or.inl rfl)), by omega⟩
              · exact Or.inr ⟨h, (mem h).2 (Or.inr (Or.inr hh)), c4⟩
            · rcases c5 with c5 | ⟨h, hh, c5⟩
              · exact Or.inl c5
              · exact Or.inr ⟨h, (mem h).2 (Or.inr (Or.inr hh)), c5⟩

/-! ## C38, C39 -/

/-- C38: the search returns without reading outside the waveform, only appends, every appended candidate is sound, and the
candidates are in time order sharing at most the boundary tick. -/
theorem C38_candidates (w : List ℚ) (thr next : ℚ) (roi : Nat) (out : List Hit) :
    ∃ new, findHitCandidates w thr next roi out = some (.ok (out ++ new)) ∧ (∀ h ∈ new, Sound w thr roi h) ∧ Ordered new := by
  obtain ⟨new, e, A⟩ := findHits_spec w thr next roi (w.length + 1) 0 w.length out (by omega) (le_refl _)
  exact ⟨new, e, A.sound, A.ordered⟩

/-- C39: with at least five ticks and a sample over the threshold, one candidate is centred on the first largest sample; with
none over the threshold nothing is found. -/
theorem C39_global_maximum (w : List ℚ) (thr next : ℚ) (roi : Nat) (out : List Hit) :
    ∃ new, findHitCandidates w thr next roi out = some (.ok (out ++ new)) ∧
      ((∀ v ∈ w, v ≤ thr) → new = []) ∧
      (∀ m v, 4 < w.length → w[m]? = some v → thr < v → (∀ x ∈ w, x ≤ v) → (∀ k x, k < m → w[k]? = some x → x < v) →
        ∃ h ∈ new, h.hitCenter = (roi + m : Nat) ∧ h.hitHeight = v) := by
  obtain ⟨new, e, A⟩ := findHits_spec w thr next roi (w.length + 1) 0 w.length out (by omega) (le_refl _)
  refine ⟨new, e, fun hq => A.quiet (fun k _ hk => hq _ (List.mem_of_getElem? (some_at hk))), ?_⟩
  intro m v hn hm hv hall hfirst
  have hml : m < w.length := (List.getElem?_eq_some_iff.1 hm).1
  -- the first maximum found by the code is `m`
  have hb : bestElt ltMax (at' w) 0 w.length = m := by
    have hbest := bestElt_best strict_max (at' w) 0 w.length (by omega)
    rw [Nat.zero_add] at hbest
    have hbest2 : ∀ k, k < bestElt ltMax (at' w) 0 w.length → at' w k < at' w (bestElt ltMax (at' w) 0 w.length) := by
      have key : ∀ (j a b : Nat), (∀ k, k < a → at' w k ≤ at' w b) → (∀ k, k < b → at' w k < at' w b) →
          ∀ k, k < ((List.range' a j).foldl (fun b k => if ltMax (at' w k) (at' w b) then k else b) b) →
            at' w k < at' w ((List.range' a j).foldl (fun b k => if ltMax (at' w k) (at' w b) then k else b) b) := by
        intro j
        induction j with
        | zero => intro a b _ h2; simpa using h2
        | succ j ih =>
          intro a b h1 h2
          rw [List.range'_succ, List.foldl_cons]
          by_cases h : at' w b < at' w a
          · rw [if_pos (by simpa [ltMax] using h)]
            refine ih (a + 1) a (fun k hk => ?_) (fun k hk => lt_of_le_of_lt (h1 k hk) h)
            by_cases hka : k = a
            · rw [hka]
            · exact (h1 k (by omega)).trans h.le
          · rw [if_neg (by simpa [ltMax] using h)]
            refine ih (a + 1) b (fun k hk => ?_) h2
            by_cases hka : k = a
            · rw [hka]; exact not_lt.1 h
            · exact h1 k (by omega)
      exact key _ 1 0 (fun k hk => by rw [show k = 0 by omega]) (fun k hk => by omega)
    obtain ⟨-, b2, b3⟩ := hbest
    rcases lt_trichotomy (bestElt ltMax (at' w) 0 w.length) m with h | h | h
    · have h1 := hfirst _ _ h (some_at b2)
      have h2 := b3 m (by omega) hml
      simp only [ltMax, decide_eq_false_iff_not, not_lt, at_some hm] at h2
      exact absurd h1 (not_lt.2 h2)
    · exact h
    · have h1 := hbest2 m h
      rw [at_some hm] at h1
      exact absurd (hall _ (List.mem_of_getElem? (some_at b2))) (not_le.2 h1)
  have hv' := at_some hm
  obtain ⟨h, hh, c1, c2⟩ := A.top m (by omega) (by rw [Nat.sub_zero]; exact hb.symm) (by rw [hv']; exact hv)
  exact ⟨h, hh, c1, by rw [c2, hv']⟩

/-- C39: every sample over the threshold is inside a candidate or in a remnant of at most four ticks. -/
theorem C39_nothing_missed (w : List ℚ) (thr next : ℚ) (roi : Nat) (out : List Hit) :
    ∃ new, findHitCandidates w thr next roi out = some (.ok (out ++ new)) ∧
      ∀ t v, w[t]? = some v → thr < v → Covered new roi t ∨ InRemnant new roi w.length t := by
  obtain ⟨new, e, A⟩ := findHits_spec w thr next roi (w.length + 1) 0 w.length out (by omega) (le_refl _)
  refine ⟨new, e, fun t v ht hv => ?_⟩
  exact A.covers t (by omega) ((List.getElem?_eq_some_iff.1 ht).1) (by rw [at_some ht]; exact hv)

/-- the hypotheses of C38/C39 are met by a two-pulse waveform -/
example : (match findHitCandidates [0, 1, 9, 2, 0, 1, 7, 0, 0, 0] 5 0 100 [] with
    | some (.ok l) => l.map (fun h => (h.startTick, h.stopTick, h.hitHeight)) == [(100, 104, 9), (105, 107, 7)] | _ => false) = true := by
  decide +kernel

/-! ## C40 -/

/-- two neighbouring candidates belong together: at most one tick from the end of the first to the start of the second -/
def Close (a b : Hit) : Prop := (b.startTick : Int) - a.stopTick ≤ 1

/-- the groups cut the list exactly at the gaps -/
structure Groups (l : List Hit) (gs : List (List Hit)) : Prop where
  whole : gs.flatten = l
  nonempty : ∀ g ∈ gs, g ≠ []
  close : ∀ g ∈ gs, g.IsChain Close
  apart : gs.IsChain (fun g g' => ∀ a ∈ g.getLast?, ∀ b ∈ g'.head?, ¬ Close a b)

theorem mergeLoop_spec (hs : List Hit) : ∀ (merged : List (List Hit)) (grp : List Hit) (lastHit : Hit), grp.getLast? = some lastHit → grp.IsChain Close →
    ∃ gs, mergeLoop hs grp lastHit.stopTick merged = merged ++ gs ∧ gs.flatten = grp ++ hs ∧ (∀ x ∈ gs, x ≠ []) ∧
      (∀ x ∈ gs, x.IsChain Close) ∧ gs.IsChain (fun g g' => ∀ a ∈ g.getLast?, ∀ b ∈ g'.head?, ¬ Close a b) ∧
      ∃ tl, gs.head? = some (grp ++ tl) := by
  intro merged
  induction hs generalizing merged with
  | nil =>
    intro grp lastHit hl hc
    have hne : grp ≠ [] := by rintro rfl; simp at hl
    refine ⟨[grp], ?_, by simp, by simpa using hne, by simpa using hc, by simp, [], by simp⟩
    unfold mergeLoop
    rw [if_pos hne]
  | cons h hs ih =>
    intro grp lastHit hl hc
    have hne : grp ≠ [] := by rintro rfl; simp at hl
    unfold mergeLoop
    by_cases hgap : (h.startTick : Int) - lastHit.stopTick > 1
    · rw [if_pos hgap]
      obtain ⟨gs, e, f, n, c, ap, tl, hd⟩ := ih (merged ++ [grp]) [h] h (by simp) (by simp)
      refine ⟨grp :: gs, by rw [e]; simp, by simp [f], ?_, ?_, ?_, [], by simp⟩
      · intro x hx
        rcases List.mem_cons.1 hx with hx | hx
        · rw [hx]; exact hne
        · exact n x hx
      · intro x hx
        rcases List.mem_cons.1 hx with hx | hx
        · rw [hx]; exact hc
        · exact c x hx
      · cases gs with
        | nil => simp
        | cons g0 gs =>
          rw [List.isChain_cons_cons]
          refine ⟨?_, ap⟩
          simp only [List.head?_cons, Option.some.injEq] at hd
          subst hd
          intro a ha b hb
          rw [hl] at ha
          simp only [Option.mem_def, Option.some.injEq] at ha
          simp only [List.singleton_append, List.head?_cons, Option.mem_def, Option.some.injEq] at hb
          subst ha hb
          unfold Close
          omega
    · rw [if_neg hgap]
      obtain ⟨gs, e, f, n, c, ap, tl, hd⟩ := ih merged (grp ++ [h]) h (by simp) (by
        rw [List.isChain_append]
        refine ⟨hc, by simp, ?_⟩
        intro a ha b hb
        rw [hl] at ha
        simp only [Option.mem_def, Option.some.injEq] at ha
        simp only [List.head?_cons, Option.mem_def, Option.some.injEq] at hb
        subst ha hb
        unfold Close; omega)
      exact ⟨gs, e, by rw [f]; simp, n, c, ap, h :: tl, by rw [hd]; simp⟩

/-- C40: for candidates whose first one does not end more than a tick before it starts (as all sound ones), the groups appended
to the output cut the candidate list exactly at the gaps of more than one tick. -/
theorem C40_groups (hits : List Hit) (merged : List (List Hit)) (h0 : ∀ h ∈ hits.head?, h.startTick ≤ h.stopTick + 1) :
    ∃ gs, mergeHitCandidates hits merged = merged ++ gs ∧ Groups hits gs := by
  cases hits with
  | nil => exact ⟨[], by simp [mergeHitCandidates], by simp, by simp, by simp, by simp⟩
  | cons h hs =>
    have := h0 h (by simp)
    unfold mergeHitCandidates
    simp only []
    unfold mergeLoop
    rw [if_neg (by omega)]
    obtain ⟨gs, e, f, n, c, ap, -⟩ := mergeLoop_spec hs merged ([] ++ [h]) h (by simp) (by simp)
    exact ⟨gs, e, by simpa using f, n, c, ap⟩

/-- C40 applies to everything the search returns: the grouping keeps the candidates of the search. -/
theorem C40_after_search (w : List ℚ) (thr next : ℚ) (roi : Nat) (hits : List Hit)
    (h : findHitCandidates w thr next roi [] = some (.ok hits)) : ∃ gs, mergeHitCandidates hits [] = gs ∧ Groups hits gs := by
  obtain ⟨new, e, s, -⟩ := C38_candidates w thr next roi []
  rw [h] at e
  injection e with e; injection e with e
  rw [List.nil_append] at e
  subst e
  obtain ⟨gs, e, G⟩ := C40_groups hits [] (fun x hx => by
    obtain ⟨a, m, b, h1, h2, _, h4, h5, _⟩ := s x (List.mem_of_mem_head? hx)
    omega)
  exact ⟨gs, by simpa using e, G⟩

/-- C40, the excluded case: a first candidate ending before it starts opens with an empty group. -/
theorem C40_reversed_first (h : Hit) (hrev : h.stopTick + 1 < h.startTick) : mergeHitCandidates [h] [] = [[], [h]] := by
  unfold mergeHitCandidates
  simp only []
  unfold mergeLoop
  rw [if_pos (by omega)]
  rfl

def exHit (a b : Nat) : Hit := ⟨a, b, a, b, 0, 0, 0, 2, 9⟩

example : mergeHitCandidates [exHit 0 4, exHit 5 8, exHit 10 12, exHit 12 15] [] = [[exHit 0 4, exHit 5 8], [exHit 10 12, exHit 12 15]] := by
  decide +kernel
example : mergeHitCandidates [exHit 5 3] [] = [[], [exHit 5 3]] := by decide +kernel

end Verif.CandHit

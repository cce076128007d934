import Verif.DPHit.Thm3

/-! # C360: the groups of a region are as required -/

namespace Verif.DPHit

/-- An interval covers a non-empty block of candidates from the start of the first to the end of the last. -/
theorem block_bounds (B : List Cand) (h1 : B.Pairwise fun p q => p.stop < q.start) (h2 : ∀ p ∈ B, p.start ≤ p.max ∧ p.max ≤ p.stop) (a b : Int)
    (ha : B.head?.map Cand.start = some a) (hb : B.getLast?.map Cand.stop = some b) : ∀ x ∈ B, a ≤ x.start ∧ x.stop ≤ b := by
  intro x hx
  constructor
  · cases B with
    | nil => simp at hx
    | cons y r =>
      simp at ha
      rcases List.mem_cons.1 hx with rfl | hx
      · omega
      · have := (List.pairwise_cons.1 h1).1 x hx
        have := h2 y List.mem_cons_self
        omega
  · rcases List.eq_nil_or_concat B with rfl | ⟨r, y, rfl⟩
    · simp at hx
    · simp at hb
      rw [List.concat_eq_append] at hx h1 h2
      rcases List.mem_append.1 hx with hx | hx
      · have := (List.pairwise_append.1 h1).2.2 x hx y (by simp)
        have := h2 y (by simp)
        omega
      · simp at hx; subst hx; omega

/-- Things that stand for blocks of candidates, as intervals. -/
theorem blocks_order {α : Type} (f g : α → Int) (L : List α) (bs : List (List Cand))
    (h : List.Forall₂ (fun x B => ∃ y ∈ B, ∃ z ∈ B, f x = y.start ∧ g x = z.stop) L bs)
    (h1 : bs.flatten.Pairwise fun p q => p.stop < q.start) : L.Pairwise fun x y => g x < f y := by
  induction h with
  | nil => exact List.Pairwise.nil
  | cons hx hL ih =>
    rename_i x B L bs
    rw [List.flatten_cons, List.pairwise_append] at h1
    refine List.pairwise_cons.2 ⟨fun y hy => ?_, ih h1.2.1⟩
    obtain ⟨_, _, z, hz, _, e⟩ := hx
    obtain ⟨B', hB', y', hy', _, _, e', _⟩ : ∃ B' ∈ bs, ∃ y' ∈ B', ∃ z' ∈ B', f y = y'.start ∧ g y = z'.stop := by
      clear ih h1
      induction hL with
      | nil => simp at hy
      | cons hu hL ih =>
        rename_i u C L cs
        rcases List.mem_cons.1 hy with rfl | hy
        · exact ⟨C, List.mem_cons_self, hu⟩
        · obtain ⟨B', hB', h⟩ := ih hy
          exact ⟨B', List.mem_cons_of_mem _ hB', h⟩
    rw [e, e']
    exact h1.2.2 z hz y' (List.mem_flatten.2 ⟨B', hB', hy'⟩)

theorem forall2_mem {α β : Type} {R : α → β → Prop} {L : List α} {M : List β} (h : List.Forall₂ R L M) : ∀ x ∈ L, ∃ y ∈ M, R x y := by
  induction h with
  | nil => simp
  | cons hu hL ih =>
    intro x hx
    rcases List.mem_cons.1 hx with rfl | hx
    · exact ⟨_, List.mem_cons_self, hu⟩
    · obtain ⟨y, hy, h⟩ := ih x hx
      exact ⟨y, List.mem_cons_of_mem _ hy, h⟩

theorem pick (B : List Cand) (a b : Int) (ha : B.head?.map Cand.start = some a) (hb : B.getLast?.map Cand.stop = some b) :
    ∃ y ∈ B, ∃ z ∈ B, a = y.start ∧ b = z.stop := by
  obtain ⟨y, hy, e⟩ := Option.map_eq_some_iff.1 ha
  obtain ⟨z, hz, e'⟩ := Option.map_eq_some_iff.1 hb
  exact ⟨y, List.mem_of_head? hy, z, List.mem_of_getLast? hz, e.symm, e'.symm⟩

theorem sub_pairwise (bs : List (List Cand)) (h : bs.flatten.Pairwise fun p q => p.stop < q.start) : ∀ B ∈ bs, B.Pairwise fun p q => p.stop < q.start :=
  fun _ hB => h.sublist (List.sublist_flatten_of_mem hB)

/-- The groups of candidates that are in order satisfy what `produce` needs. -/
theorem groups_ok (c : GCfg) (s : Int → ℚ) (l : List Cand) (h1 : l.Pairwise fun p q => p.stop < q.start) (h2 : ∀ p ∈ l, p.start ≤ p.max ∧ p.max ≤ p.stop) :
    GroupsOk (allGroups c s l) := by
  obtain ⟨bs, e, hF, _, _⟩ := C350_groups c s l
  subst e
  refine ⟨?_, ?_⟩
  · exact blocks_order Grp.start Grp.stop _ bs (hF.imp fun g B h => pick B _ _ h.start h.stop) h1
  · intro g hg
    obtain ⟨B, hB, hgB⟩ := forall2_mem hF g hg
    have hBp := sub_pairwise bs h1 B hB
    have hBi : ∀ p ∈ B, p.start ≤ p.max ∧ p.max ≤ p.stop := fun p hp => h2 p (List.mem_flatten.2 ⟨B, hB, hp⟩)
    have hbd := block_bounds B hBp hBi g.start g.stop hgB.start hgB.stop
    obtain ⟨S, eS, hS⟩ := hgB.peaks
    subst eS
    refine ⟨?_, ⟨?_, ?_⟩, ?_⟩
    · obtain ⟨y, hy, _⟩ := pick _ _ _ hgB.start hgB.stop
      have := hbd y hy
      have := hBi y hy
      omega
    · exact blocks_order Pk.start Pk.stop _ S (hS.imp fun p C h => pick C _ _ h.start h.stop) hBp
    · intro p hp
      obtain ⟨C, hC, hpC⟩ := forall2_mem hS p hp
      have hCi : ∀ q ∈ C, q.start ≤ q.max ∧ q.max ≤ q.stop := fun q hq => hBi q (List.mem_flatten.2 ⟨C, hC, hq⟩)
      have hcb := block_bounds C (sub_pairwise S hBp C hC) hCi p.start p.stop hpC.start hpC.stop
      obtain ⟨x, hx, hxm, _⟩ := hpC.max
      have := hcb x hx
      have := hCi x hx
      omega
    · intro p hp
      obtain ⟨C, hC, hpC⟩ := forall2_mem hS p hp
      obtain ⟨y, hy, z, hz, e1, e2⟩ := pick C _ _ hpC.start hpC.stop
      rw [e1, e2]
      exact ⟨(hbd y (List.mem_flatten.2 ⟨C, hC, hy⟩)).1, (hbd z (List.mem_flatten.2 ⟨C, hC, hz⟩)).2⟩

/-- **C356.** A group of an integer signal has no hits if and only if it is too short, or its charge or its mean is too small, or it is fitted and the fit failed.  It is fitted if
it has at most the given number of peaks, of ticks and of fluctuations. -/
theorem C356_hits_partial (c : PCfg) (hm : 0 < c.maxHits) (fit : List Pk → Fit) (ok : List Pk → Bool) (s : Int → ℚ) (hi : ∀ t, ∃ z : Int, s t = z) (width : Int)
    (hw : 0 < width) (g : Grp) (hg : g.start ≤ g.stop) (hp : g.peaks ≠ []) (ht : Tiles g.peaks) :
    (groupHits c fit ok s width g).1 = [] ↔
      (g.stop + 1 - g.start < c.minWidth ∨ ratSum s g.start (g.stop + 1 - g.start).toNat < c.minSum ∨
        ratSum s g.start (g.stop + 1 - g.start).toNat / ((g.stop + 1 - g.start : Int) : ℚ) < c.minMean) ∨
      (g.peaks.length ≤ c.maxMulti ∧ g.stop + 1 - g.start ≤ c.maxLen ∧ g.fluct ≤ c.maxFluct ∧ ok g.peaks = false) := by
  rw [← C356_noise_partial c s g hi]
  have hnum : ∀ l, number s l = [] ↔ l = [] := fun l => by
    rw [← List.length_eq_zero_iff, ← List.length_eq_zero_iff]; unfold number; simp
  unfold groupHits
  by_cases hn : noise c s g = true
  · simp [hn]
  · rw [if_neg hn]
    by_cases hf : g.peaks.length ≤ c.maxMulti ∧ g.stop + 1 - g.start ≤ c.maxLen ∧ g.fluct ≤ c.maxFluct
    · rw [if_pos hf]
      by_cases ho : ok g.peaks = true
      · rw [if_pos ho]
        dsimp only
        rw [hnum, List.map_eq_nil_iff]
        constructor
        · intro h
          exfalso
          split at h
          · have hr := C354_refit fit c.retry c.factor g.peaks ht
            dsimp only at hr
            have h5 := hr.2.2.2.2.1
            rw [h, List.length_nil] at h5
            have := List.length_pos_iff.2 hp
            omega
          · exact hp h
        · rintro (h | h)
          · exact absurd h hn
          · rw [ho] at h; exact absurd h.2.2.2 (by simp)
      · rw [if_neg ho]
        simp at ho
        simp [hf, ho]
    · rw [if_neg hf]
      dsimp only
      rw [hnum]
      constructor
      · intro h
        obtain ⟨_, h2, ⟨e, he, h3⟩, h4⟩ := longHits_divides width c.maxHits g.start g.stop hw hm hg
        rw [h] at h3
        cases h3
      · rintro (h | h)
        · exact absurd h hn
        · exact absurd ⟨h.1, h.2.1, h.2.2.1⟩ hf

example : (groupHits ⟨3, 5, 0, 3, 100, 3, 3, false, 1, 1⟩ (fun _ => ⟨1, fun _ => 0, fun _ => 0⟩) (fun _ => true) (fun _ => 9) 4 ⟨0, 1, [⟨0, 1, 0, 1⟩], 0⟩).1 = [] ∧
    (groupHits ⟨2, 5, 0, 3, 100, 3, 3, false, 1, 1⟩ (fun _ => ⟨1, fun _ => 0, fun _ => 0⟩) (fun _ => true) (fun _ => 9) 4 ⟨0, 1, [⟨0, 1, 0, 1⟩], 0⟩).1 = [⟨0, 1, 1, 0, 18⟩] := by
  decide +kernel

/-- All hits of a region of interest with `n` ticks, larreco/HitFinder/DPRawHitFinder_module.cc:429-1027: candidates, groups, hits. -/
def produceROI (g : GCfg) (c : PCfg) (fit : List Pk → Fit) (ok : List Pk → Bool) (T : Nat) (minSig : ℚ) (s : Int → ℚ) (n : Nat) (width : Int) : List Hit :=
  roiHits c fit ok s width (allGroups g s (candidates s T minSig n))

/-- **C360.** For every signal, fit, setting and region: the hits of the region are in order and do not overlap, none is empty, each is within the ticks `0 .. n`
of the region (`n` itself only because of C347), its summed ADC is the sum of the signal over its ticks, and its number in the group is less than its multiplicity. -/
theorem C360_region (g : GCfg) (c : PCfg) (hm : 0 < c.maxHits) (fit : List Pk → Fit) (ok : List Pk → Bool) (T : Nat) (minSig : ℚ) (s : Int → ℚ) (n : Nat) (width : Int)
    (hw : 0 < width) :
    ((produceROI g c fit ok T minSig s n width).Pairwise fun p q => p.stop < q.start) ∧
    ∀ p ∈ produceROI g c fit ok T minSig s n width, 0 ≤ p.start ∧ p.start ≤ p.stop ∧ p.stop ≤ n ∧ p.idx < p.mult ∧
      p.sumADC = ratSum s p.start (p.stop + 1 - p.start).toNat := by
  obtain ⟨k1, k2⟩ := C347_candidates_partial s T minSig n
  have hG := groups_ok g s _ k1 fun p hp => by have := k2 p hp; omega
  obtain ⟨a1, a2⟩ := C360_hits c hm fit ok s width hw _ hG
  refine ⟨a1, fun p hp => ?_⟩
  obtain ⟨b1, ⟨G, hG', b2, b3⟩, b4, b5⟩ := a2 p hp
  obtain ⟨bs, e, hF, _, _⟩ := C350_groups g s (candidates s T minSig n)
  obtain ⟨B, hB, hgB⟩ := forall2_mem hF G hG'
  obtain ⟨y, hy, z, hz, e1, e2⟩ := pick B _ _ hgB.start hgB.stop
  have hy' := k2 y (e ▸ List.mem_flatten.2 ⟨B, hB, hy⟩)
  have hz' := k2 z (e ▸ List.mem_flatten.2 ⟨B, hB, hz⟩)
  exact ⟨by omega, b1, by omega, b4, b5⟩

example : produceROI ⟨1, 3, true, 1/2, 1/2, 1/10, 1/10, 100⟩ ⟨1, 5, 0, 3, 100, 3, 3, false, 1, 1⟩ (fun _ => ⟨1, fun _ => 0, fun _ => 0⟩) (fun _ => true) 1 5
    (sig [0, 1, 9, 5, 2, 0, 0, 0, 3, 8, 7, 0, 0, 0, 0]) 15 10 = [⟨0, 5, 1, 0, 17⟩, ⟨7, 11, 1, 0, 18⟩] := by decide +kernel

end Verif.DPHit

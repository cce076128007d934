import Verif.Cluster.BlurProps
/-!
# C137, C140, C141: from hits to the image and back
-/
namespace Verif.Blur
open Verif

/-! ## C137: the image -/

theorem trunc_le_of_le {q : ℚ} {n : Int} (h : q ≤ n) : trunc q ≤ n := by
  unfold trunc
  split_ifs with h0
  · exact_mod_cast le_trans (Int.floor_le q) h
  · exact Int.ceil_le.mpr h

theorem le_trunc_of_le {q : ℚ} {n : Int} (h : (n : ℚ) ≤ q) : n ≤ trunc q := by
  unfold trunc
  split_ifs with h0
  · exact Int.le_floor.mpr h
  · exact_mod_cast le_trans h (Int.le_ceil q)

/-- the bounds hold of the hits seen so far -/
structure BInv (b : Bounds) (hs : List Hit) : Prop where
  tick : ∀ h ∈ hs, b.loT ≤ trunc h.peak ∧ trunc h.peak ≤ b.hiT
  wire : ∀ h ∈ hs, b.loW ≤ h.wire ∧ h.wire ≤ b.hiW

theorem boundStep_spec (b : Bounds) (h : Hit) :
    (boundStep b h).loT ≤ b.loT ∧ b.hiT ≤ (boundStep b h).hiT ∧ (boundStep b h).loW ≤ b.loW ∧ b.hiW ≤ (boundStep b h).hiW ∧
    (boundStep b h).loT ≤ trunc h.peak ∧ trunc h.peak ≤ (boundStep b h).hiT ∧ (boundStep b h).loW ≤ h.wire ∧
      h.wire ≤ (boundStep b h).hiW := by
  simp only [boundStep]
  have hlo : (if h.peak < b.loT then trunc h.peak else b.loT) ≤ b.loT ∧
      (if h.peak < b.loT then trunc h.peak else b.loT) ≤ trunc h.peak := by
    split_ifs with h1
    · exact ⟨trunc_le_of_le (le_of_lt h1), le_refl _⟩
    · exact ⟨le_refl _, le_trunc_of_le (not_lt.mp h1)⟩
  have hhi : b.hiT ≤ (if h.peak > b.hiT then trunc h.peak else b.hiT) ∧
      trunc h.peak ≤ (if h.peak > b.hiT then trunc h.peak else b.hiT) := by
    split_ifs with h1
    · exact ⟨le_trunc_of_le (le_of_lt h1), le_refl _⟩
    · exact ⟨le_refl _, trunc_le_of_le (not_lt.mp h1)⟩
  refine ⟨hlo.1, hhi.1, ?_, ?_, hlo.2, hhi.2, ?_, ?_⟩ <;> split_ifs <;> omega

theorem bounds_inv (hs : List Hit) : ∀ b : Bounds,
    (hs.foldl boundStep b).loT ≤ b.loT ∧ b.hiT ≤ (hs.foldl boundStep b).hiT ∧ (hs.foldl boundStep b).loW ≤ b.loW ∧
      b.hiW ≤ (hs.foldl boundStep b).hiW ∧ BInv (hs.foldl boundStep b) hs := by
  induction hs with
  | nil => intro b; exact ⟨le_refl _, le_refl _, le_refl _, le_refl _, ⟨by simp, by simp⟩⟩
  | cons h hs ih =>
    intro b
    rw [List.foldl_cons]
    obtain ⟨a1, a2, a3, a4, a5, a6, a7, a8⟩ := boundStep_spec b h
    obtain ⟨b1, b2, b3, b4, b5⟩ := ih (boundStep b h)
    refine ⟨by omega, by omega, by omega, by omega, ⟨?_, ?_⟩⟩
    · intro g hg
      rw [List.mem_cons] at hg
      rcases hg with rfl | hg
      · exact ⟨by omega, by omega⟩
      · exact b5.tick g hg
    · intro g hg
      rw [List.mem_cons] at hg
      rcases hg with rfl | hg
      · exact ⟨by omega, by omega⟩
      · exact b5.wire g hg

/-- a hit belongs to wire bin `i`, tick bin `j` of an image that starts at wire `loW` and tick `loT` -/
def At (loW loT : Int) (h : Hit) (i j : Nat) : Prop := h.wire = loW + i ∧ trunc h.peak = loT + j

/-- what an image and a hit map hold after some hits have been filled in -/
def Filled (loW loT : Int) (hs : List Hit) (val : Nat → Nat → ℚ) (hm : HitMap) : Prop :=
  ∀ i j, (hm i j = none ∧ val i j = 0 ∧ ∀ h ∈ hs, At loW loT h i j → h.charge ≤ 0) ∨
    (∃ h ∈ hs, At loW loT h i j ∧ hm i j = some h ∧ val i j = h.charge ∧ 0 < h.charge ∧
      ∀ g ∈ hs, At loW loT g i j → g.charge ≤ h.charge)

theorem fillLoop_spec (b : Bounds) (nx ny : Nat) (hs : List Hit) : ∀ (done : List Hit) (f : Fill),
    (∀ h ∈ hs, b.loW ≤ h.wire ∧ h.wire - b.loW < nx ∧ b.loT ≤ trunc h.peak ∧ trunc h.peak - b.loT < ny) →
    Filled b.loW b.loT done f.val f.map →
    ∃ f', fillLoop b nx ny hs f = .ok f' ∧ Filled b.loW b.loT (done ++ hs) f'.val f'.map := by
  induction hs with
  | nil => intro done f _ h; exact ⟨f, rfl, by simpa using h⟩
  | cons h hs ih =>
    intro done f hr hf
    obtain ⟨r1, r2, r3, r4⟩ := hr h List.mem_cons_self
    have hat : ∀ i j : Nat, At b.loW b.loT h i j ↔ i = (h.wire - b.loW).toNat ∧ j = (trunc h.peak - b.loT).toNat := by
      intro i j
      unfold At
      constructor
      · rintro ⟨h1, h2⟩; omega
      · rintro ⟨h1, h2⟩; omega
    have hstep : ∃ f', fillStep b nx ny f h = .ok f' ∧ Filled b.loW b.loT (done ++ [h]) f'.val f'.map := by
      unfold fillStep
      simp only
      rw [if_pos ⟨by omega, r2, by omega, r4⟩]
      by_cases hc : f.val (h.wire - b.loW).toNat (trunc h.peak - b.loT).toNat < h.charge
      · rw [if_pos hc]
        refine ⟨_, rfl, ?_⟩
        intro i j
        by_cases hij : i = (h.wire - b.loW).toNat ∧ j = (trunc h.peak - b.loT).toNat
        · refine Or.inr ⟨h, by simp, (hat i j).mpr hij, by simp only [if_pos hij], by simp only [if_pos hij], ?_, ?_⟩
          · rw [← hij.1, ← hij.2] at hc
            rcases hf i j with ⟨_, h2, _⟩ | ⟨g, _, _, _, h2, h3, _⟩
            · rwa [h2] at hc
            · rw [h2] at hc; exact lt_trans h3 hc
          · intro g hg hga
            rw [List.mem_append, List.mem_singleton] at hg
            rcases hg with hg | rfl
            · rw [← hij.1, ← hij.2] at hc
              rcases hf i j with ⟨_, h2, h4⟩ | ⟨k, _, _, _, h2, h3, h4⟩
              · rw [h2] at hc; exact le_trans (h4 g hg hga) (le_of_lt hc)
              · rw [h2] at hc; exact le_trans (h4 g hg hga) (le_of_lt hc)
            · exact le_refl _
        · simp only [if_neg hij]
          have hn : ¬ At b.loW b.loT h i j := fun h' => hij ((hat i j).mp h')
          rcases hf i j with ⟨h1, h2, h4⟩ | ⟨k, h0, h1, h2, h3, h4, h5⟩
          · refine Or.inl ⟨h1, h2, fun g hg hga => ?_⟩
            rw [List.mem_append, List.mem_singleton] at hg
            rcases hg with hg | rfl
            · exact h4 g hg hga
            · exact absurd hga hn
          · refine Or.inr ⟨k, List.mem_append_left _ h0, h1, h2, h3, h4, fun g hg hga => ?_⟩
            rw [List.mem_append, List.mem_singleton] at hg
            rcases hg with hg | rfl
            · exact h5 g hg hga
            · exact absurd hga hn
      · rw [if_neg hc]
        refine ⟨f, rfl, ?_⟩
        intro i j
        have hcmp : At b.loW b.loT h i j → h.charge ≤ f.val i j := by
          intro ha
          obtain ⟨rfl, rfl⟩ := (hat i j).mp ha
          exact not_lt.mp hc
        rcases hf i j with ⟨h1, h2, h4⟩ | ⟨k, h0, h1, h2, h3, h4, h5⟩
        · refine Or.inl ⟨h1, h2, fun g hg hga => ?_⟩
          rw [List.mem_append, List.mem_singleton] at hg
          rcases hg with hg | rfl
          · exact h4 g hg hga
          · rw [← h2]; exact hcmp hga
        · refine Or.inr ⟨k, List.mem_append_left _ h0, h1, h2, h3, h4, fun g hg hga => ?_⟩
          rw [List.mem_append, List.mem_singleton] at hg
          rcases hg with hg | rfl
          · exact h5 g hg hga
          · rw [← h3]; exact hcmp hga
    obtain ⟨f1, e1, i1⟩ := hstep
    obtain ⟨f2, e2, i2⟩ := ih (done ++ [h]) f1 (fun g hg => hr g (List.mem_cons_of_mem _ hg)) i1
    refine ⟨f2, ?_, by simpa using i2⟩
    unfold fillLoop
    rw [e1]; exact e2

/-- **C137.** For any hits the image is built without an access out of range; every hit lies at least 20 bins from its borders, and
each bin holds the hit of largest charge among the hits of its wire and tick, or nothing when none of them has positive charge. -/
theorem C137_image (window maxWires : Int) (hs : List Hit) (hne : hs ≠ []) :
    ∃ im hm loW loT, toVector window maxWires hs = .ok (im, hm) ∧ Filled loW loT hs im.val hm ∧
      ∀ h ∈ hs, 20 ≤ h.wire - loW ∧ h.wire - loW + 20 ≤ im.nx ∧ 20 ≤ trunc h.peak - loT ∧ trunc h.peak - loT + 20 ≤ im.ny := by
  obtain ⟨_, _, _, _, hb⟩ := bounds_inv hs ⟨window, 0, maxWires, 0⟩
  unfold toVector
  simp only
  have hbo : bounds window maxWires hs = ⟨(hs.foldl boundStep ⟨window, 0, maxWires, 0⟩).loT - 20,
    (hs.foldl boundStep ⟨window, 0, maxWires, 0⟩).hiT + 20, (hs.foldl boundStep ⟨window, 0, maxWires, 0⟩).loW - 20,
    (hs.foldl boundStep ⟨window, 0, maxWires, 0⟩).hiW + 20⟩ := rfl
  generalize hs.foldl boundStep ⟨window, 0, maxWires, 0⟩ = b at hb hbo
  rw [hbo]
  obtain ⟨h0, t0, rfl⟩ : ∃ h t, hs = h :: t := by
    cases hs with
    | nil => exact absurd rfl hne
    | cons h t => exact ⟨h, t, rfl⟩
  have q1 := hb.tick h0 List.mem_cons_self
  have q2 := hb.wire h0 List.mem_cons_self
  rw [if_neg (by simp only; omega)]
  obtain ⟨f, e, i⟩ := fillLoop_spec ⟨b.loT - 20, b.hiT + 20, b.loW - 20, b.hiW + 20⟩ (b.hiW + 20 - (b.loW - 20)).toNat
    (b.hiT + 20 - (b.loT - 20)).toNat (h0 :: t0) [] ⟨fun _ _ => 0, fun _ _ => none⟩ (by
      intro h hh
      have w1 := hb.tick h hh
      have w2 := hb.wire h hh
      simp only
      omega) (by
      intro i j; exact Or.inl ⟨rfl, rfl, by simp⟩)
  simp only
  rw [e]
  simp only [reduceCtorEq, if_false]
  refine ⟨_, _, b.loW - 20, b.loT - 20, rfl, i, ?_⟩
  intro h hh
  have w1 := hb.tick h hh
  have w2 := hb.wire h hh
  simp only
  omega

/-- **C137, refuted in part.** A hit can be lost: of two hits on one wire and tick only the first of largest charge is kept, and a
hit without positive charge is never kept. -/
theorem C137_lost_refuted : ∃ (hs : List Hit) (im : Img) (hm : HitMap), toVector 100 10 hs = .ok (im, hm) ∧ hs.Nodup ∧
    ∃ h ∈ hs, 0 < h.charge ∧ ¬ ∃ i j, hm i j = some h := by
  obtain ⟨im, hm, loW, loT, e, hf, _⟩ := C137_image 100 10 [⟨0, 5, 7, 3, 1⟩, ⟨1, 5, 15 / 2, 2, 1⟩] (by simp)
  refine ⟨_, im, hm, e, by decide, ⟨1, 5, 15 / 2, 2, 1⟩, by simp, by norm_num, ?_⟩
  rintro ⟨i, j, hij⟩
  rcases hf i j with ⟨h1, _⟩ | ⟨g, hg, ha, h1, h2, h3, h4⟩
  · rw [hij] at h1; cases h1
  · rw [hij] at h1
    injection h1 with h1
    subst h1
    have := h4 ⟨0, 5, 7, 3, 1⟩ (by simp) ⟨ha.1, by
      have h5 : trunc (7 : ℚ) = trunc (15 / 2) := by decide +kernel
      have h6 := ha.2
      simp only at h6 ⊢
      rw [h5]; exact h6⟩
    norm_num at this

/-- no hits: the code reads the front of an empty vector, or throws -/
example : toVector 100 10 [] = .throw := rfl
example : toVector 30 10 [] = .ub := rfl

/-! ## C141: clusters of hits -/

theorem filled_inj {loW loT : Int} {hs : List Hit} {val : Nat → Nat → ℚ} {hm : HitMap} (hf : Filled loW loT hs val hm)
    {nx b b' : Nat} {h : Hit} (h1 : hitOf nx hm b = some h) (h2 : hitOf nx hm b' = some h) : b = b' := by
  unfold hitOf at h1 h2
  have key : ∀ i j, hm i j = some h → At loW loT h i j := by
    intro i j hij
    rcases hf i j with ⟨h3, _⟩ | ⟨g, _, ha, h3, _⟩
    · rw [hij] at h3; cases h3
    · rw [hij] at h3; injection h3 with h3; subst h3; exact ha
  have a1 := key _ _ h1
  have a2 := key _ _ h2
  unfold At at a1 a2
  rw [← bin_eq nx b, ← bin_eq nx b']
  have e1 : b % nx = b' % nx := by omega
  have e2 : b / nx = b' / nx := by omega
  rw [e1, e2]

theorem sublist_flatten {α : Type} {l l' : List (List α)} (h : l.Sublist l') : l.flatten.Sublist l'.flatten := by
  induction h with
  | slnil => exact List.Sublist.refl _
  | cons a _ ih => exact ih.trans (by rw [List.flatten_cons]; exact List.sublist_append_right _ _)
  | cons_cons a _ ih => rw [List.flatten_cons, List.flatten_cons]; exact ih.append_left _

theorem flatten_map_filterMap {α β : Type} (f : α → Option β) (l : List (List α)) :
    (l.map (fun x => x.filterMap f)).flatten = l.flatten.filterMap f := by
  induction l with
  | nil => rfl
  | cons a l ih =>
    rw [List.map_cons, List.flatten_cons, ih, List.flatten_cons, List.filterMap_append]

/-- **C141.** From hits to clusters: whatever the blurring did to the charges, the clusters made hold hits of the input only, no
hit twice and no cluster smaller than the minimum, and each is made of the hits in the bins of one cluster of bins. -/
theorem C141_hits (P : Cfg) (window maxWires : Int) (hs : List Hit) (im bl : Img) (hm : HitMap) (cs : List (List Nat))
    (hv : toVector window maxWires hs = .ok (im, hm)) (hnx : bl.nx = im.nx) (hc : findClusters P bl hm = .ok cs) :
    (toClusters P im.nx hm cs).flatten.Nodup ∧
    ∀ c ∈ toClusters P im.nx hm cs, P.minSize ≤ c.length ∧ (∀ h ∈ c, h ∈ hs) ∧
      ∃ bins ∈ cs, ∀ h, h ∈ c ↔ ∃ b ∈ bins, hitOf bl.nx hm b = some h := by
  have hne : hs ≠ [] := by
    rintro rfl
    unfold toVector at hv
    simp only [fillLoop] at hv
    split_ifs at hv <;> cases hv
  obtain ⟨im', hm', loW, loT, e, hf, _⟩ := C137_image window maxWires hs hne
  rw [hv] at e
  injection e with e
  injection e with e1 e2
  subst e1 e2
  obtain ⟨hnd, _⟩ := C138_partition P bl hm cs hc
  refine ⟨?_, ?_⟩
  · have hsub : (toClusters P im.nx hm cs).Sublist (cs.map (binsToHits im.nx hm)) := List.filter_sublist
    refine List.Nodup.sublist (sublist_flatten hsub) ?_
    have : cs.map (binsToHits im.nx hm) = cs.map (fun x => x.filterMap (hitOf im.nx hm)) := rfl
    rw [this, flatten_map_filterMap]
    exact hnd.filterMap (fun a a' h h1 h2 => filled_inj hf h1 h2)
  · intro c hcm
    unfold toClusters at hcm
    rw [List.mem_filter, List.mem_map, decide_eq_true_eq] at hcm
    obtain ⟨⟨bins, hb, rfl⟩, hsz⟩ := hcm
    refine ⟨hsz, ?_, bins, hb, ?_⟩
    · intro h hh
      obtain ⟨b, _, hbh⟩ := List.mem_filterMap.mp hh
      unfold hitOf at hbh
      rcases hf (b % im.nx) (b / im.nx) with ⟨h3, _⟩ | ⟨g, hg, _, h3, _⟩
      · rw [hbh] at h3; cases h3
      · rw [hbh] at h3; injection h3 with h3; subst h3; exact hg
    · intro h
      unfold binsToHits
      rw [List.mem_filterMap, hnx]

/-- two hits next to each other make one cluster of two hits -/
example : (match toVector 100 10 [⟨0, 5, 7, 3, 1⟩, ⟨1, 6, 15 / 2, 2, 1⟩] with
    | .ok (im, hm) => match findClusters {} im hm with
      | .ok cs => (toClusters {} im.nx hm cs).map (fun c => c.map Hit.id)
      | _ => []
    | _ => []) = [[0, 1]] := by decide +kernel

end Verif.Blur

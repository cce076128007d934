import Verif.Geometry.HullProofs
import Mathlib.Analysis.Convex.Hull
/-!
# C54, C73: the convex hull encloses its points; its area
-/
namespace Verif.Hull
open Verif

/-- position of a point -/
def pos (p : Pt) : ℚ × ℚ := (p.x, p.y)

/-! ### Small lemmas -/

theorem lastSameX_spec (p : Pt) (rest : List Pt) (q : Pt) (hq : p.x = q.x) : lastSameX q (p :: rest) ∈ p :: rest ∧ (lastSameX q (p :: rest)).x = q.x := by
  unfold lastSameX
  have hne : (p :: rest).takeWhile (fun e => decide (e.x = q.x)) ≠ [] := by
    rw [List.takeWhile_cons_of_pos (by simpa using hq)]; simp
  have e : ((p :: rest).takeWhile (fun e => decide (e.x = q.x))).getLastD q = ((p :: rest).takeWhile (fun e => decide (e.x = q.x))).getLast hne := by
    rw [List.getLastD_eq_getLast?, List.getLast?_eq_some_getLast hne]; rfl
  have hm : ((p :: rest).takeWhile (fun e => decide (e.x = q.x))).getLast hne ∈ (p :: rest).takeWhile (fun e => decide (e.x = q.x)) := List.getLast_mem hne
  rw [e]
  exact ⟨(List.takeWhile_prefix _).subset hm, by simpa using List.mem_takeWhile_imp hm⟩

theorem chain_switch {α : Type} {R : α → α → Prop} (P : α → Prop) : ∀ (l : List α), l.IsChain R → ∀ a z, l.head? = some a → P a →
    l.getLast? = some z → ¬ P z → ∃ c ∈ l, ∃ d ∈ l, R c d ∧ P c ∧ ¬ P d := by
  intro l
  induction l with
  | nil => intro _ a z h; simp at h
  | cons b l ih =>
    intro hc a z ha hPa hz hPz
    simp only [List.head?_cons, Option.some.injEq] at ha
    subst ha
    cases l with
    | nil => simp only [List.getLast?_singleton, Option.some.injEq] at hz; subst hz; exact absurd hPa hPz
    | cons d l =>
      rw [List.isChain_cons_cons] at hc
      rw [List.getLast?_cons_cons] at hz
      by_cases hd : P d
      · obtain ⟨c, hcm, e, hem, h⟩ := ih hc.2 d z rfl hd hz hPz
        exact ⟨c, List.mem_cons_of_mem _ hcm, e, List.mem_cons_of_mem _ hem, h⟩
      · exact ⟨b, by simp, d, by simp, hc.1, hPa, hd⟩

theorem seg_mem {C : Set (ℚ × ℚ)} (hC : Convex ℚ C) {a b : ℚ × ℚ} (ha : a ∈ C) (hb : b ∈ C) {v : ℚ} (hlt : a.1 < b.1) (h1 : a.1 ≤ v) (h2 : v ≤ b.1) :
    (v, a.2 + (b.2 - a.2) * ((v - a.1) / (b.1 - a.1))) ∈ C := by
  have hd : 0 < b.1 - a.1 := by linarith
  have ht0 : 0 ≤ (v - a.1) / (b.1 - a.1) := div_nonneg (by linarith) hd.le
  have ht1 : (v - a.1) / (b.1 - a.1) ≤ 1 := by rw [div_le_one hd]; linarith
  have := hC ha hb (show 0 ≤ 1 - (v - a.1) / (b.1 - a.1) by linarith) ht0 (by ring)
  convert this using 1
  ext
  · simp only [Prod.fst_add, Prod.smul_fst, smul_eq_mul]
    field_simp; ring
  · simp only [Prod.snd_add, Prod.smul_snd, smul_eq_mul]
    ring

theorem vert_mem {C : Set (ℚ × ℚ)} (hC : Convex ℚ C) {x y1 y2 y : ℚ} (ha : (x, y1) ∈ C) (hb : (x, y2) ∈ C) (h1 : y1 ≤ y) (h2 : y ≤ y2) : (x, y) ∈ C := by
  rcases lt_or_eq_of_le (h1.trans h2) with hlt | heq
  · have hd : 0 < y2 - y1 := by linarith
    have ht0 : 0 ≤ (y - y1) / (y2 - y1) := div_nonneg (by linarith) hd.le
    have ht1 : (y - y1) / (y2 - y1) ≤ 1 := by rw [div_le_one hd]; linarith
    have := hC ha hb (show 0 ≤ 1 - (y - y1) / (y2 - y1) by linarith) ht0 (by ring)
    convert this using 1
    ext
    · simp only [Prod.fst_add, Prod.smul_fst, smul_eq_mul]; ring
    · simp only [Prod.snd_add, Prod.smul_snd, smul_eq_mul]
      field_simp; ring
  · have : y = y1 := by linarith
    rw [this]; exact ha

theorem sandwich {C : Set (ℚ × ℚ)} (hC : Convex ℚ C) {a b c d r : Pt} (ha : pos a ∈ C) (hb : pos b ∈ C) (hc : pos c ∈ C) (hd : pos d ∈ C)
    (h1 : a.x ≤ r.x) (h2 : r.x ≤ b.x) (hlt : a.x < b.x) (h3 : d.x ≤ r.x) (h4 : r.x ≤ c.x) (hlt' : d.x < c.x)
    (hl : 0 ≤ cross a b r) (hu : 0 ≤ cross c d r) : pos r ∈ C := by
  have m1 := seg_mem hC ha hb (v := r.x) hlt h1 h2
  have m2 := seg_mem hC hd hc (v := r.x) hlt' h3 h4
  refine vert_mem hC m1 m2 ?_ ?_
  · have hp : 0 < b.x - a.x := by linarith
    unfold cross at hl
    simp only [pos]
    have : (b.y - a.y) * ((r.x - a.x) / (b.x - a.x)) ≤ r.y - a.y := by
      rw [← mul_div_assoc, div_le_iff₀ hp]; nlinarith
    linarith
  · have hp : 0 < c.x - d.x := by linarith
    unfold cross at hu
    simp only [pos]
    have : r.y - d.y ≤ (c.y - d.y) * ((r.x - d.x) / (c.x - d.x)) := by
      rw [← mul_div_assoc, le_div_iff₀ hp]; nlinarith
    linarith

theorem cross_vert {a b r : Pt} (hx : a.x = b.x) (h : 0 ≤ (b.y - a.y) * (b.x - r.x)) : 0 ≤ cross a b r := by
  unfold cross
  have : (b.x - a.x) * (r.y - a.y) - (b.y - a.y) * (r.x - a.x) = (b.y - a.y) * (b.x - r.x) := by rw [hx]; ring
  linarith

theorem cross_congr {a a' b b' r : Pt} (h1 : a.x = a'.x ∧ a.y = a'.y) (h2 : b.x = b'.x ∧ b.y = b'.y) : cross a b r = cross a' b' r := by
  unfold cross; rw [h1.1, h1.2, h2.1, h2.2]

/-! ### Assembly -/

/-- everything the proofs need about the hull of a sorted list -/
theorem hull_facts (pts : List Pt) (hs : pts.Pairwise lexle) (hne : pts ≠ []) : ∃ lower up hull tail, ∃ pmin ∈ pts, ∃ pmax ∈ pts,
    getConvexHull pts = .ok hull ∧ hull = lower ++ up ++ tail ∧
    (∀ r ∈ pts, lexle pmin r) ∧ (∀ r ∈ pts, lexle r pmax) ∧
    (∀ v ∈ hull, v ∈ pts) ∧
    hull.IsChain (Good pts) ∧ hull.head? = some pmin ∧ (∃ z, hull.getLast? = some z ∧ z.x = pmin.x ∧ z.y = pmin.y) ∧
    (∃ q, lower.getLast? = some q ∧ q.x = pmax.x) ∧ lower.IsChain (fun a b => Good pts a b ∧ a.x ≤ b.x) ∧
    lower.head? = some pmin ∧
    ∃ upper : List Pt, upper.IsChain (fun a b => Good pts a b ∧ b.x ≤ a.x) ∧ upper.head? = some pmax ∧ (∃ q, upper.getLast? = some q ∧ q.x = pmin.x) ∧
      (∀ v ∈ upper, ∃ v' ∈ hull, v'.x = v.x ∧ v'.y = v.y) := by
  obtain ⟨p, rest, rfl⟩ := List.exists_cons_of_ne_nil hne
  -- extremes
  have hmin : ∀ r ∈ p :: rest, lexle p r := by
    intro r hr
    rcases List.mem_cons.1 hr with rfl | hr
    · exact lexle_refl _
    · exact (List.pairwise_cons.1 hs).1 r hr
  have hlast : (p :: rest).getLastD p = (p :: rest).getLast (by simp) := by
    rw [List.getLastD_eq_getLast?, List.getLast?_eq_some_getLast (by simp)]; rfl
  have hmaxm : (p :: rest).getLastD p ∈ p :: rest := by rw [hlast]; exact List.getLast_mem _
  have hmax : ∀ r ∈ p :: rest, lexle r ((p :: rest).getLastD p) := by
    intro r hr
    rw [hlast]
    have e := List.dropLast_append_getLast (show p :: rest ≠ [] by simp)
    rw [← e] at hr
    rcases List.mem_append.1 hr with hr | hr
    · rw [← e, List.pairwise_append] at hs
      exact hs.2.2 r hr _ (by simp)
    · simp only [List.mem_singleton] at hr; rw [hr]; exact lexle_refl _
  have hrev : ∃ t, (p :: rest).reverse = (p :: rest).getLastD p :: t := by
    rw [hlast]
    refine ⟨(p :: rest).dropLast.reverse, ?_⟩
    conv_lhs => rw [← List.dropLast_append_getLast (show p :: rest ≠ [] by simp)]
    simp
  obtain ⟨m1, x1⟩ := lastSameX_spec p rest p rfl
  have m2x2 : lastSameX ((p :: rest).getLastD p) (p :: rest).reverse ∈ p :: rest ∧
      (lastSameX ((p :: rest).getLastD p) (p :: rest).reverse).x = ((p :: rest).getLastD p).x := by
    obtain ⟨t, ht⟩ := hrev
    have := lastSameX_spec ((p :: rest).getLastD p) t ((p :: rest).getLastD p) rfl
    rw [← ht] at this
    exact ⟨List.mem_reverse.1 this.1, this.2⟩
  obtain ⟨m2, x2⟩ := m2x2
  -- name the four corner points and the list
  have hdef : getConvexHull (p :: rest) = .ok (half p (lastSameX ((p :: rest).getLastD p) (p :: rest).reverse) (p :: rest) ++
      (if lastSameX ((p :: rest).getLastD p) (p :: rest).reverse = (p :: rest).getLastD p then
        (half ((p :: rest).getLastD p) (lastSameX p (p :: rest)) (p :: rest).reverse).tail
        else half ((p :: rest).getLastD p) (lastSameX p (p :: rest)) (p :: rest).reverse) ++
      (if p ≠ lastSameX p (p :: rest) then [p] else [])) := rfl
  have hp0 : p ∈ p :: rest := by simp
  rw [hdef]
  clear hrev hlast hdef
  generalize (p :: rest).getLastD p = pmax at *
  generalize lastSameX p (p :: rest) = pMinMax at *
  generalize lastSameX pmax (p :: rest).reverse = pMaxMin at *
  generalize p :: rest = pts at *
  have hmaxx : ∀ r ∈ pts, r.x ≤ pmax.x := fun r hr => by rcases hmax r hr with h | ⟨h, -⟩ <;> linarith
  have hminx : ∀ r ∈ pts, p.x ≤ r.x := fun r hr => by rcases hmin r hr with h | ⟨h, -⟩ <;> linarith
  obtain ⟨lc, lh, ll, q, hqm, lq, lqf⟩ := half_spec (p0 := p) (far := pMaxMin) hs hp0 m2 hmin (fun r hr => by rw [x2]; exact hmaxx r hr)
  have hrg : ∀ a b, Good pts.reverse a b ↔ Good pts a b := fun a b => by unfold Good; simp
  obtain ⟨uc, uh, ul, q', hqm', uq, uqf⟩ := half_spec_upper (p0 := pmax) (far := pMinMax) (pts := pts.reverse)
    (by rw [List.pairwise_reverse]; exact hs) (by simpa using hmaxm) (by simpa using m1) (fun r hr => hmax r (List.mem_reverse.1 hr))
    (fun r hr => by rw [x1]; exact hminx r (List.mem_reverse.1 hr))
  have lsub := half_sub p pMaxMin pts hp0
  have usub := half_sub pmax pMinMax pts.reverse (by simpa using hmaxm)
  generalize half p pMaxMin pts = lower at *
  generalize half pmax pMinMax pts.reverse = upper at *
  have uc' : upper.IsChain (fun a b => Good pts a b ∧ b.x ≤ a.x) := uc.imp (fun a b h => ⟨(hrg a b).1 h.1, h.2⟩)
  have hqx : q.x = pmax.x := by
    have h1 := hmaxx q hqm
    rcases lqf with h | ⟨h, -⟩ <;> linarith
  have hqx' : q'.x = p.x := by
    have h1 := hminx q' (List.mem_reverse.1 hqm')
    rcases uqf with h | ⟨h, -⟩ <;> linarith
  -- the upper part actually copied
  obtain ⟨v1, v2, us, hup⟩ : ∃ v1 v2 us, upper = v1 :: v2 :: us := by
    cases upper with
    | nil => simp at ul
    | cons a t => cases t with
      | nil => simp at ul
      | cons b u => exact ⟨a, b, u, rfl⟩
  have hv1 : v1 = pmax := by rw [hup] at uh; simpa using uh
  have hedge : ∀ a, a.x = pmax.x → a ∈ pts → Good pts a pmax := by
    intro a hax ham r hr
    refine cross_vert hax ?_
    have : a.y ≤ pmax.y := by
      rcases hmax a ham with h | ⟨-, h⟩
      · linarith
      · exact h
    exact mul_nonneg (by linarith) (by linarith [hmaxx r hr])
  have hedge' : ∀ a, a.x = p.x → a ∈ pts → Good pts a p := by
    intro a hax ham r hr
    refine cross_vert hax ?_
    have : p.y ≤ a.y := by
      rcases hmin a ham with h | ⟨-, h⟩
      · linarith
      · exact h
    exact mul_nonneg_of_nonpos_of_nonpos (by linarith) (by linarith [hminx r hr])
  have hmid : ∃ w ws, (if pMaxMin = pmax then upper.tail else upper) = w :: ws ∧ Good pts q w := by
    by_cases he : pMaxMin = pmax
    · rw [if_pos he]
      refine ⟨v2, us, by rw [hup]; rfl, ?_⟩
      have hqe : q.x = pmax.x ∧ q.y = pmax.y := lexle_antisymm (hmax q hqm) (by rw [he] at lqf; exact lqf)
      rw [hup, List.isChain_cons_cons, hv1] at uc'
      intro r hr
      rw [cross_congr hqe ⟨rfl, rfl⟩]
      exact uc'.1.1 r hr
    · rw [if_neg he]
      exact ⟨v1, v2 :: us, hup, by rw [hv1]; exact hedge q hqx hqm⟩
  have hupchain : (if pMaxMin = pmax then upper.tail else upper).IsChain (Good pts) := by
    have h := uc'.imp (fun a b h => h.1)
    by_cases he : pMaxMin = pmax
    · rw [if_pos he]; exact h.tail
    · rw [if_neg he]; exact h
  have huplast : (if pMaxMin = pmax then upper.tail else upper).getLast? = some q' := by
    by_cases he : pMaxMin = pmax
    · rw [if_pos he]; rw [hup] at uq ⊢; rw [List.getLast?_cons_cons] at uq; exact uq
    · rw [if_neg he]; exact uq
  have hupmem : ∀ v ∈ (if pMaxMin = pmax then upper.tail else upper), v ∈ upper := by
    intro v hv
    by_cases he : pMaxMin = pmax
    · rw [if_pos he] at hv; exact List.mem_of_mem_tail hv
    · rw [if_neg he] at hv; exact hv
  have hcov : ∀ v ∈ upper, (∃ v' ∈ lower ++ (if pMaxMin = pmax then upper.tail else upper), v'.x = v.x ∧ v'.y = v.y) := by
    intro v hv
    by_cases he : pMaxMin = pmax
    · rw [if_pos he]
      rw [hup] at hv
      rcases List.mem_cons.1 hv with rfl | hv
      · refine ⟨q, List.mem_append_left _ (List.mem_of_getLast? lq), ?_⟩
        rw [hv1]
        exact lexle_antisymm (hmax q hqm) (by rw [he] at lqf; exact lqf)
      · exact ⟨v, List.mem_append_right _ (by rw [hup]; exact hv), rfl, rfl⟩
    · rw [if_neg he]; exact ⟨v, List.mem_append_right _ hv, rfl, rfl⟩
  generalize (if pMaxMin = pmax then upper.tail else upper) = up at *
  obtain ⟨w, ws, rfl, hqw⟩ := hmid
  have hch2 : (lower ++ w :: ws).IsChain (Good pts) := by
    rw [List.isChain_append]
    refine ⟨lc.imp (fun a b h => h.1), hupchain, ?_⟩
    intro a ha b hb
    rw [lq] at ha
    simp only [Option.mem_def, Option.some.injEq, List.head?_cons] at ha hb
    subst ha; subst hb; exact hqw
  have hl2 : (lower ++ w :: ws).getLast? = some q' := by rw [List.getLast?_append, huplast]; rfl
  have hh2 : (lower ++ w :: ws).head? = some p := by rw [List.head?_append, lh]; rfl
  have hsub2 : ∀ v ∈ lower ++ w :: ws, v ∈ pts := by
    intro v hv
    rcases List.mem_append.1 hv with hv | hv
    · exact lsub v hv
    · exact List.mem_reverse.1 (usub v (hupmem v hv))
  refine ⟨lower, w :: ws, _, if p ≠ pMinMax then [p] else [], p, hp0, pmax, hmaxm, rfl, rfl, hmin, hmax, ?_, ?_, ?_, ?_, ⟨q, lq, hqx⟩, lc, lh, upper, uc', uh,
    ⟨q', uq, hqx'⟩, ?_⟩
  · intro v hv
    rcases List.mem_append.1 hv with hv | hv
    · exact hsub2 v hv
    · by_cases he : p ≠ pMinMax
      · rw [if_pos he] at hv; simp only [List.mem_singleton] at hv; rw [hv]; exact hp0
      · rw [if_neg he] at hv; simp at hv
  · by_cases he : p ≠ pMinMax
    · rw [if_pos he, List.isChain_append]
      refine ⟨hch2, List.IsChain.singleton _, ?_⟩
      intro a ha b hb
      rw [hl2] at ha
      simp only [Option.mem_def, Option.some.injEq, List.head?_cons] at ha hb
      subst ha; subst hb
      exact hedge' _ hqx' (List.mem_reverse.1 hqm')
    · rw [if_neg he, List.append_nil]; exact hch2
  · rw [List.head?_append, hh2]; rfl
  · by_cases he : p ≠ pMinMax
    · rw [if_pos he]; exact ⟨p, by rw [List.getLast?_append]; rfl, rfl, rfl⟩
    · rw [if_neg he, List.append_nil]
      refine ⟨q', hl2, ?_⟩
      simp only [ne_eq, not_not] at he
      have := lexle_antisymm (hmin q' (List.mem_reverse.1 hqm')) (by rw [← he] at uqf; exact uqf)
      exact ⟨this.1.symm, this.2.symm⟩
  · intro v hv
    obtain ⟨v', hv', h⟩ := hcov v hv
    exact ⟨v', List.mem_append_left _ hv', h⟩

/-! ### C54 -/

/-- C54. For every nonempty lexicographically sorted point list: the call succeeds; every vertex is an input point; every input point lies in
the convex hull of the vertices; no input point lies strictly to the right of a hull edge; the boundary is closed. -/
theorem C54_encloses (pts : List Pt) (hs : pts.Pairwise lexle) (hne : pts ≠ []) : ∃ hull, getConvexHull pts = .ok hull ∧
    (∀ v ∈ hull, v ∈ pts) ∧
    (∀ r ∈ pts, pos r ∈ convexHull ℚ (pos '' {v | v ∈ hull})) ∧
    (∀ i a b, hull[i]? = some a → hull[i + 1]? = some b → ∀ r ∈ pts, 0 ≤ cross a b r) ∧
    (hull.head?.map pos = hull.getLast?.map pos) := by
  obtain ⟨lower, up, hull, tail, pmin, hpmin, pmax, hpmax, he, hh, hmin, hmax, hsub, hch, hhead, ⟨z, hz, hzx, hzy⟩, ⟨q, hq, hqx⟩, lc, lh, upper, uc, uh,
    ⟨q', hq', hqx'⟩, hcov⟩ := hull_facts pts hs hne
  refine ⟨hull, he, hsub, ?_, ?_, ?_⟩
  · intro r hr
    have hC := convex_convexHull ℚ (pos '' {v | v ∈ hull})
    have hlow : ∀ v ∈ lower, pos v ∈ convexHull ℚ (pos '' {v | v ∈ hull}) := fun v hv =>
      subset_convexHull ℚ _ ⟨v, by rw [hh]; exact List.mem_append_left _ (List.mem_append_left _ hv), rfl⟩
    have hupp : ∀ v ∈ upper, pos v ∈ convexHull ℚ (pos '' {v | v ∈ hull}) := fun v hv => by
      obtain ⟨v', hv', h⟩ := hcov v hv
      exact subset_convexHull ℚ _ ⟨v', hv', by unfold pos; rw [h.1, h.2]⟩
    have hx1 : pmin.x ≤ r.x := by rcases hmin r hr with h | ⟨h, -⟩ <;> linarith
    have hx2 : r.x ≤ pmax.x := by rcases hmax r hr with h | ⟨h, -⟩ <;> linarith
    have mmin := hlow pmin (List.mem_of_mem_head? lh)
    have mmax := hupp pmax (List.mem_of_mem_head? uh)
    rcases lt_or_eq_of_le hx2 with hlt | heq
    · obtain ⟨a, ha, b, hb, ⟨g, -⟩, h1, h2⟩ := chain_switch (fun v => v.x ≤ r.x) lower lc pmin q lh hx1 hq (by rw [hqx]; linarith)
      obtain ⟨c, hc, d, hd, ⟨g', -⟩, h3, h4⟩ := chain_switch (fun v => r.x < v.x) upper uc pmax q' uh hlt hq' (by rw [hqx']; linarith)
      exact sandwich hC (hlow a ha) (hlow b hb) (hupp c hc) (hupp d hd) h1 (by linarith) (by linarith) (by linarith) h3.le (by linarith) (g r hr) (g' r hr)
    · rcases lt_or_eq_of_le hx1 with hlt | heq'
      · obtain ⟨a, ha, b, hb, ⟨g, -⟩, h1, h2⟩ := chain_switch (fun v => v.x < r.x) lower lc pmin q lh hlt hq (by rw [hqx]; linarith)
        obtain ⟨c, hc, d, hd, ⟨g', -⟩, h3, h4⟩ := chain_switch (fun v => r.x ≤ v.x) upper uc pmax q' uh hx2 hq' (by rw [hqx']; linarith)
        exact sandwich hC (hlow a ha) (hlow b hb) (hupp c hc) (hupp d hd) h1.le (by linarith) (by linarith) (by linarith) h3 (by linarith) (g r hr) (g' r hr)
      · have m1 : (r.x, pmin.y) ∈ convexHull ℚ (pos '' {v | v ∈ hull}) := by rw [← heq']; exact mmin
        have m2 : (r.x, pmax.y) ∈ convexHull ℚ (pos '' {v | v ∈ hull}) := by rw [heq]; exact mmax
        refine vert_mem hC m1 m2 ?_ ?_
        · rcases hmin r hr with h | ⟨-, h⟩
          · linarith
          · exact h
        · rcases hmax r hr with h | ⟨-, h⟩
          · linarith
          · exact h
  · intro i a b ha hb
    rw [List.getElem?_eq_some_iff] at ha hb
    obtain ⟨hi, rfl⟩ := ha
    obtain ⟨hi', rfl⟩ := hb
    exact List.isChain_iff_getElem.1 hch i hi'
  · rw [hhead, hz]; simp [pos, hzx, hzy]

/-- the hull of an empty list is undefined behaviour -/
theorem C54_empty : getConvexHull [] = .ub := rfl

/-- C54: a triangle with an interior point, a point on an edge and a duplicate -/
example : [(⟨0, 0, 1⟩ : Pt), ⟨1, 1, 2⟩, ⟨2, 0, 3⟩, ⟨2, 4, 4⟩, ⟨4, 0, 5⟩, ⟨4, 0, 6⟩].Pairwise lexle ∧
    getConvexHull [⟨0, 0, 1⟩, ⟨1, 1, 2⟩, ⟨2, 0, 3⟩, ⟨2, 4, 4⟩, ⟨4, 0, 5⟩, ⟨4, 0, 6⟩] = .ok [⟨0, 0, 1⟩, ⟨4, 0, 6⟩, ⟨4, 0, 6⟩, ⟨2, 4, 4⟩, ⟨0, 0, 1⟩] := by
  refine ⟨?_, by decide +kernel⟩
  simp only [List.pairwise_cons, List.mem_cons, List.not_mem_nil, or_false, forall_eq_or_imp, forall_eq, lexle]
  norm_num

/-! ### C73: area -/

/-- twice the area enclosed by a closed vertex list (shoelace formula) -/
def shoelace : List Pt → ℚ
  | a :: b :: l => (a.x * b.y - a.y * b.x) + shoelace (b :: l)
  | _ => 0

theorem areaLoop_eq (center : Pt) : ∀ (l : List Pt) (last : Pt) (A : ℚ), ∃ z, (last :: l).getLast? = some z ∧
    areaLoop center last l A = A + (1 / 2) * (shoelace (last :: l) - center.x * (z.y - last.y) + center.y * (z.x - last.x)) := by
  intro l
  induction l with
  | nil => intro last A; exact ⟨last, rfl, by simp [areaLoop, shoelace]⟩
  | cons p l ih =>
    intro last A
    unfold areaLoop
    obtain ⟨z, hz, e⟩ := ih p (if p ≠ last then A + (1 / 2) * cross center last p else A)
    refine ⟨z, by rw [List.getLast?_cons_cons]; exact hz, ?_⟩
    rw [e]
    have : (if p ≠ last then A + (1 / 2) * cross center last p else A) = A + (1 / 2) * cross center last p := by
      by_cases h : p ≠ last
      · rw [if_pos h]
      · rw [if_neg h]
        simp only [ne_eq, not_not] at h
        subst h
        have : cross center p p = 0 := by unfold cross; ring
        rw [this]; ring
    rw [this]
    simp only [shoelace, cross]
    ring

theorem areaLoop_nonneg (center : Pt) : ∀ (l : List Pt) (last : Pt) (A : ℚ), 0 ≤ A → (last :: l).IsChain (fun a b => 0 ≤ cross a b center) →
    0 ≤ areaLoop center last l A := by
  intro l
  induction l with
  | nil => intro last A hA _; exact hA
  | cons p l ih =>
    intro last A hA hc
    rw [List.isChain_cons_cons] at hc
    unfold areaLoop
    refine ih p _ ?_ hc.2
    by_cases h : p ≠ last
    · rw [if_pos h]
      have : cross center last p = cross last p center := by unfold cross; ring
      rw [this]; linarith [hc.1]
    · rw [if_neg h]; exact hA

theorem cross_sum (a b : Pt) (l : List Pt) : (l.map (fun r => cross a b r)).sum = (b.x - a.x) * ((l.map (·.y)).sum - l.length * a.y) - (b.y - a.y) * ((l.map (·.x)).sum - l.length * a.x) := by
  induction l with
  | nil => simp
  | cons r l ih =>
    simp only [List.map_cons, List.sum_cons, List.length_cons, ih]
    push_cast
    unfold cross; ring

/-- `Area` of a closed list is the enclosed area, wherever the centre is -/
theorem area_closed (p : Pt) (rest : List Pt) (z : Pt) (hz : (p :: rest).getLast? = some z) (hx : z.x = p.x) (hy : z.y = p.y) :
    area (p :: rest) = .ok ((1 / 2) * shoelace (p :: rest)) := by
  unfold area
  simp only [Res.ok.injEq]
  generalize (⟨((p :: rest).map (·.x)).sum / ((p :: rest).length : ℚ), ((p :: rest).map (·.y)).sum / ((p :: rest).length : ℚ), 0⟩ : Pt) = center
  obtain ⟨z', hz', e⟩ := areaLoop_eq center rest p (if p ≠ p then 0 + (1 / 2) * cross center p p else 0)
  rw [hz] at hz'
  cases hz'
  unfold areaLoop
  rw [e, hx, hy]
  simp

/-- C73. The area reported for the hull of any nonempty sorted point list is the area its boundary encloses (counter-clockwise, hence not
negative). -/
theorem C73_area (pts : List Pt) (hs : pts.Pairwise lexle) (hne : pts ≠ []) : ∃ hull, getConvexHull pts = .ok hull ∧
    area hull = .ok ((1 / 2) * shoelace hull) ∧ 0 ≤ (1 / 2) * shoelace hull := by
  obtain ⟨lower, up, hull, tail, pmin, hpmin, pmax, hpmax, he, hh, hmin, hmax, hsub, hch, hhead, ⟨z, hz, hzx, hzy⟩, -⟩ := hull_facts pts hs hne
  refine ⟨hull, he, ?_⟩
  clear hh
  obtain ⟨p, rest, rfl⟩ : ∃ p rest, hull = p :: rest := by
    cases hull with
    | nil => simp at hhead
    | cons p rest => exact ⟨p, rest, rfl⟩
  have hp : p = pmin := by simpa using hhead
  subst hp
  have harea := area_closed p rest z hz hzx hzy
  refine ⟨harea, ?_⟩
  have hn : (0 : ℚ) < ((p :: rest).length : ℚ) := by simp only [List.length_cons]; push_cast; positivity
  have hc : ∀ a b, Good pts a b → 0 ≤ cross a b ⟨((p :: rest).map (·.x)).sum / ((p :: rest).length : ℚ), ((p :: rest).map (·.y)).sum / ((p :: rest).length : ℚ), 0⟩ := by
    intro a b hg
    have hsum : 0 ≤ ((p :: rest).map (fun r => cross a b r)).sum := by
      apply List.sum_nonneg
      intro t ht
      obtain ⟨r, hr, rfl⟩ := List.mem_map.1 ht
      exact hg r (hsub r hr)
    rw [cross_sum] at hsum
    generalize ((p :: rest).map (·.x)).sum = sx at *
    generalize ((p :: rest).map (·.y)).sum = sy at *
    generalize ((p :: rest).length : ℚ) = n at *
    have : cross a b ⟨sx / n, sy / n, 0⟩ = ((b.x - a.x) * (sy - n * a.y) - (b.y - a.y) * (sx - n * a.x)) / n := by
      unfold cross; simp only []; field_simp
    rw [this]
    exact div_nonneg hsum hn.le
  have hge : ∀ A, area (p :: rest) = .ok A → 0 ≤ A := by
    intro A hA
    unfold area at hA
    simp only [Res.ok.injEq] at hA
    rw [← hA]
    unfold areaLoop
    refine areaLoop_nonneg _ _ _ _ (by simp) (hch.imp (fun a b h => hc a b h))
  exact hge _ harea

/-- C73: hypotheses met by a triangle, whose area comes out right -/
example : area [⟨0, 0, 1⟩, ⟨4, 0, 6⟩, ⟨4, 0, 6⟩, ⟨2, 4, 4⟩, ⟨0, 0, 1⟩] = .ok 8 := by decide +kernel

end Verif.Hull

import Verif.Geometry.HullModel
import Mathlib.Data.List.Chain
import Mathlib.Data.List.TakeWhile
/-!
# Proofs about the convex hull
-/
namespace Verif.Hull
open Verif

/-- strict lexicographic order -/
def lexlt (p q : Pt) : Prop := p.x < q.x ∨ p.x = q.x ∧ p.y < q.y

theorem lexle_refl (p : Pt) : lexle p p := Or.inr ⟨rfl, le_refl _⟩

theorem lexle_trans {p q r : Pt} (h1 : lexle p q) (h2 : lexle q r) : lexle p r := by
  unfold lexle at *
  rcases h1 with h1 | ⟨h1, h1'⟩ <;> rcases h2 with h2 | ⟨h2, h2'⟩
  · left; linarith
  · left; linarith
  · left; linarith
  · right; exact ⟨by linarith, by linarith⟩

theorem lexlt_of_lt_le {p q r : Pt} (h1 : lexlt p q) (h2 : lexle q r) : lexlt p r := by
  unfold lexle lexlt at *
  rcases h1 with h1 | ⟨h1, h1'⟩ <;> rcases h2 with h2 | ⟨h2, h2'⟩
  · left; linarith
  · left; linarith
  · left; linarith
  · right; exact ⟨by linarith, by linarith⟩

theorem lexle_of_lt {p q : Pt} (h : lexlt p q) : lexle p q := by
  rcases h with h | ⟨h, h'⟩
  · exact Or.inl h
  · exact Or.inr ⟨h, h'.le⟩

theorem lexle_antisymm {p q : Pt} (h1 : lexle p q) (h2 : lexle q p) : p.x = q.x ∧ p.y = q.y := by
  unfold lexle at *
  rcases h1 with h1 | ⟨h1, h1'⟩ <;> rcases h2 with h2 | ⟨h2, h2'⟩
  · exact absurd h1 (by linarith)
  · exact absurd h1 (by linarith)
  · exact absurd h2 (by linarith)
  · exact ⟨h1, by linarith⟩

theorem lexle_or_lt (p q : Pt) : lexle p q ∨ lexlt q p := by
  unfold lexle lexlt
  rcases lt_trichotomy p.x q.x with h | h | h
  · exact Or.inl (Or.inl h)
  · rcases le_or_gt p.y q.y with h' | h'
    · exact Or.inl (Or.inr ⟨h, h'⟩)
    · exact Or.inr (Or.inr ⟨h.symm, h'⟩)
  · exact Or.inr (Or.inl h)

theorem lexle_total (p q : Pt) : lexle p q ∨ lexle q p := (lexle_or_lt p q).imp id lexle_of_lt

theorem lexlt_or_eq {p q : Pt} (h : lexle p q) : lexlt p q ∨ (p.x = q.x ∧ p.y = q.y) := by
  unfold lexle at h; unfold lexlt
  rcases h with h | ⟨h, h'⟩
  · exact Or.inl (Or.inl h)
  · rcases lt_or_eq_of_le h' with h'' | h''
    · exact Or.inl (Or.inr ⟨h, h''⟩)
    · exact Or.inr ⟨h, h''⟩

/-- turning left is transitive among vectors pointing to the right -/
theorem tri {ux uy vx vy wx wy : ℚ} (hu : 0 < ux ∨ 0 = ux ∧ 0 ≤ uy) (hv : 0 < vx ∨ 0 = vx ∧ 0 < vy) (hw : 0 < wx ∨ 0 = wx ∧ 0 ≤ wy)
    (h1 : 0 ≤ ux * vy - uy * vx) (h2 : 0 ≤ vx * wy - vy * wx) : 0 ≤ ux * wy - uy * wx := by
  have hux : 0 ≤ ux := by rcases hu with h | ⟨h, -⟩ <;> linarith
  have hwx : 0 ≤ wx := by rcases hw with h | ⟨h, -⟩ <;> linarith
  rcases hv with hv | ⟨hv, hvy⟩
  · have e : vx * (ux * wy - uy * wx) = wx * (ux * vy - uy * vx) + ux * (vx * wy - vy * wx) := by ring
    have : 0 ≤ vx * (ux * wy - uy * wx) := by rw [e]; exact add_nonneg (mul_nonneg hwx h1) (mul_nonneg hux h2)
    exact nonneg_of_mul_nonneg_right this hv
  · subst hv
    have hz : wx = 0 := by
      have : vy * wx ≤ 0 := by linarith
      by_contra hne
      have : 0 < vy * wx := mul_pos hvy (lt_of_le_of_ne hwx (Ne.symm hne))
      linarith
    subst hz
    have hwy : 0 ≤ wy := by rcases hw with h | ⟨-, h⟩ <;> linarith
    have := mul_nonneg hux hwy
    linarith

/-- stack (top first) of the half hull, for the processed points `S` -/
def SC (S : List Pt) (p0 : Pt) : List Pt → Prop
  | [] => False
  | [p] => p = p0
  | b :: a :: rest => lexlt a b ∧ (∀ r ∈ S, 0 ≤ cross a b r) ∧ (∀ a' ∈ rest.head?, 0 < cross a' a b) ∧ SC S p0 (a :: rest)

theorem diff_lt {a b : Pt} (h : lexlt a b) : 0 < b.x - a.x ∨ 0 = b.x - a.x ∧ 0 < b.y - a.y := by
  rcases h with h | ⟨h, h'⟩
  · left; linarith
  · right; exact ⟨by linarith, by linarith⟩

theorem diff_le {a b : Pt} (h : lexle a b) : 0 < b.x - a.x ∨ 0 = b.x - a.x ∧ 0 ≤ b.y - a.y := by
  rcases h with h | ⟨h, h'⟩
  · left; linarith
  · right; exact ⟨by linarith, by linarith⟩

/-- a point to the right of the stack and left of its top edge is left of all its edges -/
theorem SC_new {S : List Pt} {p0 : Pt} (c : Pt) : ∀ (rest : List Pt) (b a : Pt), SC S p0 (b :: a :: rest) → lexle b c → 0 ≤ cross a b c →
    SC (c :: S) p0 (b :: a :: rest) := by
  intro rest
  induction rest with
  | nil =>
    intro b a h hbc hc
    obtain ⟨h1, h2, h3, h4⟩ := h
    refine ⟨h1, fun r hr => ?_, h3, h4⟩
    rcases List.mem_cons.1 hr with rfl | hr
    · exact hc
    · exact h2 r hr
  | cons a' rest ih =>
    intro b a h hbc hc
    obtain ⟨h1, h2, h3, h4⟩ := h
    refine ⟨h1, fun r hr => ?_, h3, ?_⟩
    · rcases List.mem_cons.1 hr with rfl | hr
      · exact hc
      · exact h2 r hr
    · have h4' := h4
      obtain ⟨g1, g2, g3, g4⟩ := h4'
      have hturn : 0 < cross a' a b := h3 a' (by simp)
      refine ih a a' h4 (lexle_trans (lexle_of_lt h1) hbc) ?_
      have ht := tri (diff_le (lexle_of_lt g1)) (diff_lt h1) (diff_le hbc) (ux := a.x - a'.x) (uy := a.y - a'.y) (vx := b.x - a.x)
        (vy := b.y - a.y) (wx := c.x - b.x) (wy := c.y - b.y)
        (by unfold cross at hturn; nlinarith [hturn]) (by unfold cross at hc; nlinarith [hc])
      unfold cross at hturn ⊢
      nlinarith [hturn, ht]

/-- the pop loop keeps a good stack, and all processed points are left of the edge to the new point -/
theorem popLoop_spec {S : List Pt} {p0 : Pt} (c : Pt) (hmin : ∀ r ∈ S, lexle p0 r) : ∀ (rest : List Pt) (p : Pt), SC S p0 (p :: rest) →
    lexle p c → (lexlt p c ∨ rest ≠ []) → (∀ r ∈ S, lexle p r → 0 ≤ cross p c r) →
    ∃ q rest', popLoop c (p :: rest) = q :: rest' ∧ SC (c :: S) p0 (q :: rest') ∧ lexlt q c ∧ (∀ r ∈ S, 0 ≤ cross q c r) ∧
      (∀ a' ∈ rest'.head?, 0 < cross a' q c) := by
  intro rest
  induction rest with
  | nil =>
    intro p h hpc hl hH
    refine ⟨p, [], rfl, h, ?_, fun r hr => hH r hr ?_, by simp⟩
    · rcases hl with hl | hl
      · exact hl
      · exact absurd rfl hl
    · have : p = p0 := h
      rw [this]; exact hmin r hr
  | cons a rest ih =>
    intro p h hpc hl hH
    obtain ⟨h1, h2, h3, h4⟩ := h
    unfold popLoop
    by_cases hleft : isLeft a p c = true
    · rw [if_pos hleft]
      have hpos : 0 < cross a p c := by unfold isLeft at hleft; exact of_decide_eq_true hleft
      have hlt : lexlt p c := by
        rcases lexlt_or_eq hpc with h | ⟨hx, hy⟩
        · exact h
        · exfalso
          unfold cross at hpos; rw [← hx, ← hy] at hpos
          have : (p.x - a.x) * (p.y - a.y) - (p.y - a.y) * (p.x - a.x) = 0 := by ring
          linarith
      refine ⟨p, a :: rest, rfl, SC_new c rest p a ⟨h1, h2, h3, h4⟩ hpc hpos.le, hlt, fun r hr => ?_, ?_⟩
      · rcases lexle_or_lt p r with hpr | hrp
        · exact hH r hr hpr
        · have hr2 := h2 r hr
          have ht := tri (diff_le (lexle_of_lt hrp)) (diff_lt h1) (diff_le hpc) (ux := p.x - r.x) (uy := p.y - r.y) (vx := p.x - a.x)
            (vy := p.y - a.y) (wx := c.x - p.x) (wy := c.y - p.y)
            (by unfold cross at hr2; nlinarith [hr2]) (by unfold cross at hpos; nlinarith [hpos])
          unfold cross
          nlinarith [ht]
      · intro a' ha'
        simp only [List.head?_cons, Option.mem_def, Option.some.injEq] at ha'
        subst ha'; exact hpos
    · rw [if_neg hleft]
      have hnp : cross a p c ≤ 0 := by
        unfold isLeft at hleft
        by_contra hh; exact hleft (decide_eq_true (by linarith))
      have hac : lexlt a c := lexlt_of_lt_le h1 hpc
      refine ih a h4 (lexle_of_lt hac) (Or.inl hac) (fun r hr har => ?_)
      have hr2 := h2 r hr
      have ht := tri (diff_le (lexle_of_lt hac)) (diff_lt h1) (diff_le har) (ux := c.x - a.x) (uy := c.y - a.y) (vx := p.x - a.x)
        (vy := p.y - a.y) (wx := r.x - a.x) (wy := r.y - a.y)
        (by unfold cross at hnp; nlinarith [hnp]) (by unfold cross at hr2; nlinarith [hr2])
      unfold cross
      nlinarith [ht]

/-- state of the half-hull loop after considering the points `S` (most recent first) -/
def Inv (p0 : Pt) (S st : List Pt) : Prop :=
  ((∀ r ∈ S, r.x = p0.x ∧ r.y = p0.y) ∧ ((S = [] ∧ st = [p0]) ∨ ∃ q, S.head? = some q ∧ st = [q, p0])) ∨
  (∃ q a rest, S.head? = some q ∧ st = q :: a :: rest ∧ SC S p0 st ∧ (∀ r ∈ S, lexle r q))

theorem inv_step {p0 : Pt} {S st : List Pt} (h : Inv p0 S st) (hmin : ∀ r ∈ S, lexle p0 r) (c : Pt) (hc : lexle p0 c)
    (hord : ∀ r ∈ S, lexle r c) : Inv p0 (c :: S) (c :: popLoop c st) := by
  rcases h with ⟨hall, hst⟩ | ⟨q, a, rest, hq, rfl, hsc, hle⟩
  · have hpop : popLoop c st = [p0] := by
      rcases hst with ⟨-, rfl⟩ | ⟨q, hq, rfl⟩
      · rfl
      · have hq' := hall q (List.mem_of_mem_head? hq)
        unfold popLoop
        have : isLeft p0 q c = false := by
          unfold isLeft cross
          rw [hq'.1, hq'.2]
          simp
        rw [this]; simp [popLoop]
    rw [hpop]
    rcases lexlt_or_eq hc with hlt | heq
    · right
      refine ⟨c, p0, [], rfl, rfl, ⟨hlt, fun r hr => ?_, by simp, rfl⟩, fun r hr => ?_⟩
      · rcases List.mem_cons.1 hr with rfl | hr
        · unfold cross; nlinarith
        · have := hall r hr
          unfold cross; rw [this.1, this.2]; nlinarith
      · rcases List.mem_cons.1 hr with rfl | hr
        · exact lexle_refl _
        · exact hord r hr
    · left
      refine ⟨fun r hr => ?_, Or.inr ⟨c, rfl, rfl⟩⟩
      rcases List.mem_cons.1 hr with rfl | hr
      · exact ⟨heq.1.symm, heq.2.symm⟩
      · exact hall r hr
  · right
    have hqS : q ∈ S := List.mem_of_mem_head? hq
    obtain ⟨p, rest', e, hs, hlt, hall, hturn⟩ := popLoop_spec c hmin (a :: rest) q hsc (hord q hqS) (Or.inr (by simp)) (fun r hr hqr => by
      have := lexle_antisymm hqr (hle r hr)
      unfold cross; rw [← this.1, ← this.2]; nlinarith)
    refine ⟨c, p, rest', rfl, by rw [e], ?_, fun r hr => ?_⟩
    · rw [e]
      refine ⟨hlt, fun r hr => ?_, hturn, hs⟩
      rcases List.mem_cons.1 hr with rfl | hr
      · unfold cross; nlinarith
      · exact hall r hr
    · rcases List.mem_cons.1 hr with rfl | hr
      · exact lexle_refl _
      · exact hord r hr

/-- the whole loop -/
theorem inv_fold (p0 far : Pt) (pts : List Pt) : ∀ (S st : List Pt), Inv p0 S st → (∀ r ∈ S, lexle p0 r) → (∀ r ∈ pts, lexle p0 r) →
    (∀ r ∈ S, ∀ c ∈ pts, lexle r c) → pts.Pairwise lexle →
    Inv p0 ((pts.filter (fun c => !isLeft p0 far c)).reverse ++ S) (pts.foldl (halfStep p0 far) st) := by
  induction pts with
  | nil => intro S st h _ _ _ _; simpa using h
  | cons c pts ih =>
    intro S st h hmin hmin' hord hp
    rw [List.pairwise_cons] at hp
    rw [List.foldl_cons]
    by_cases hl : isLeft p0 far c = true
    · have e1 : halfStep p0 far st c = st := by unfold halfStep; rw [if_pos hl]
      rw [e1, List.filter_cons_of_neg (by simp [hl])]
      exact ih S st h hmin (fun r hr => hmin' r (List.mem_cons_of_mem _ hr)) (fun r hr c' hc' => hord r hr c' (List.mem_cons_of_mem _ hc')) hp.2
    · have e1 : halfStep p0 far st c = c :: popLoop c st := by unfold halfStep; rw [if_neg hl]
      rw [e1, List.filter_cons_of_pos (by simp [hl]), List.reverse_cons, List.append_assoc, List.singleton_append]
      refine ih (c :: S) _ (inv_step h hmin c (hmin' c (by simp)) (fun r hr => hord r hr c (by simp))) ?_ ?_ ?_ hp.2
      · intro r hr
        rcases List.mem_cons.1 hr with rfl | hr
        · exact hmin' _ (by simp)
        · exact hmin r hr
      · exact fun r hr => hmin' r (List.mem_cons_of_mem _ hr)
      · intro r hr c' hc'
        rcases List.mem_cons.1 hr with rfl | hr
        · exact hp.1 c' hc'
        · exact hord r hr c' (List.mem_cons_of_mem _ hc')

/-- edge predicate: no point strictly right of `a → b` -/
def Good (pts : List Pt) (a b : Pt) : Prop := ∀ r ∈ pts, 0 ≤ cross a b r

/-- the processed points say everything about the skipped ones -/
theorem good_of_considered {p0 far : Pt} {pts : List Pt} (h0 : p0 ∈ pts) (hf : far ∈ pts) (hmin : ∀ r ∈ pts, lexle p0 r)
    (hmax : ∀ r ∈ pts, r.x ≤ far.x) {a b : Pt} (hab : a.x ≤ b.x)
    (h : ∀ r ∈ pts.filter (fun c => !isLeft p0 far c), 0 ≤ cross a b r) : Good pts a b := by
  intro r hr
  by_cases hl : isLeft p0 far r = true
  · have hpos : 0 < cross p0 far r := by unfold isLeft at hl; exact of_decide_eq_true hl
    have hz : ∀ q, cross p0 far q = 0 → q ∈ pts → 0 ≤ cross a b q := fun q hq hqm =>
      h q (List.mem_filter.2 ⟨hqm, by simp [isLeft, hq]⟩)
    have a0 := hz p0 (by unfold cross; ring) h0
    have af := hz far (by unfold cross; ring) hf
    have hminx : ∀ q ∈ pts, p0.x ≤ q.x := by
      intro q hq
      rcases hmin q hq with h | ⟨h, -⟩ <;> linarith
    have hx1 := hminx r hr
    have hx2 := hmax r hr
    have hx3 := hminx far hf
    have key : (far.x - p0.x) * cross a b r = (far.x - r.x) * cross a b p0 + (r.x - p0.x) * cross a b far + (b.x - a.x) * cross p0 far r := by
      unfold cross; ring
    have hge : 0 ≤ (far.x - p0.x) * cross a b r := by
      rw [key]
      have b1 := mul_nonneg (show 0 ≤ far.x - r.x by linarith) a0
      have b2 := mul_nonneg (show 0 ≤ r.x - p0.x by linarith) af
      have b3 := mul_nonneg (show 0 ≤ b.x - a.x by linarith) hpos.le
      linarith
    rcases lt_or_eq_of_le hx3 with hlt | heq
    · exact nonneg_of_mul_nonneg_right hge (by linarith)
    · exfalso
      have e : r.x = p0.x := by linarith
      unfold cross at hpos; rw [← heq, e] at hpos
      simp at hpos
  · exact h r (List.mem_filter.2 ⟨hr, by simpa using hl⟩)

theorem SC_chain {p0 far : Pt} {pts : List Pt} (h0 : p0 ∈ pts) (hf : far ∈ pts) (hmin : ∀ r ∈ pts, lexle p0 r)
    (hmax : ∀ r ∈ pts, r.x ≤ far.x) {S : List Pt} (hS : ∀ r ∈ pts.filter (fun c => !isLeft p0 far c), r ∈ S) : ∀ st, SC S p0 st →
    st.IsChain (fun b a => Good pts a b ∧ a.x ≤ b.x) := by
  intro st
  induction st with
  | nil => intro h; exact List.IsChain.nil
  | cons b st ih =>
    intro h
    cases st with
    | nil => exact List.IsChain.singleton _
    | cons a rest =>
      obtain ⟨h1, h2, h3, h4⟩ := h
      refine List.IsChain.cons_cons ⟨?_, ?_⟩ (ih h4)
      · exact good_of_considered h0 hf hmin hmax (by rcases h1 with h | ⟨h, -⟩ <;> linarith) (fun r hr => h2 r (hS r hr))
      · rcases h1 with h | ⟨h, -⟩ <;> linarith

theorem SC_last {S : List Pt} {p0 : Pt} : ∀ st, SC S p0 st → st.getLast? = some p0 := by
  intro st
  induction st with
  | nil => intro h; exact absurd h (by simp [SC])
  | cons b st ih =>
    intro h
    cases st with
    | nil => have : b = p0 := h; simp [this]
    | cons a rest => rw [List.getLast?_cons_cons]; exact ih h.2.2.2

/-- what half of the hull guarantees -/
theorem half_spec {p0 far : Pt} {pts : List Pt} (hs : pts.Pairwise lexle) (h0 : p0 ∈ pts) (hf : far ∈ pts) (hmin : ∀ r ∈ pts, lexle p0 r)
    (hmax : ∀ r ∈ pts, r.x ≤ far.x) :
    (half p0 far pts).IsChain (fun a b => Good pts a b ∧ a.x ≤ b.x) ∧ (half p0 far pts).head? = some p0 ∧ 2 ≤ (half p0 far pts).length ∧
    ∃ q ∈ pts, (half p0 far pts).getLast? = some q ∧ lexle far q := by
  have hinv := inv_fold p0 far pts [] [p0] (Or.inl ⟨by simp, Or.inl ⟨rfl, rfl⟩⟩) (by simp) hmin (by simp) hs
  rw [List.append_nil] at hinv
  unfold half
  have hfm : far ∈ (pts.filter (fun c => !isLeft p0 far c)).reverse := by
    rw [List.mem_reverse, List.mem_filter]
    refine ⟨hf, ?_⟩
    have : cross p0 far far = 0 := by unfold cross; ring
    simp [isLeft, this]
  generalize hS : (pts.filter (fun c => !isLeft p0 far c)).reverse = S at *
  generalize pts.foldl (halfStep p0 far) [p0] = st at *
  have hSp : ∀ r ∈ S, r ∈ pts := by
    intro r hr; rw [← hS, List.mem_reverse] at hr; exact (List.mem_filter.1 hr).1
  rcases hinv with ⟨hall, hst⟩ | ⟨q, a, rest, hq, rfl, hsc, hle⟩
  · rcases hst with ⟨hS0, -⟩ | ⟨q, hq, rfl⟩
    · rw [hS0] at hfm; exact absurd hfm (by simp)
    · have hq' := hall q (List.mem_of_mem_head? hq)
      have hf' := hall far hfm
      refine ⟨?_, by simp, by simp, q, hSp q (List.mem_of_mem_head? hq), by simp, Or.inr ⟨by rw [hf'.1, hq'.1], by rw [hf'.2, hq'.2]⟩⟩
      refine List.IsChain.cons_cons ⟨fun r _ => ?_, by rw [hq'.1]⟩ (List.IsChain.singleton _)
      unfold cross; rw [hq'.1, hq'.2]; simp
  · refine ⟨?_, ?_, by simp, q, hSp q (List.mem_of_mem_head? hq), by simp, hle far hfm⟩
    · rw [List.isChain_reverse]
      exact SC_chain h0 hf hmin hmax (fun r hr => by rw [← hS, List.mem_reverse]; exact hr) _ hsc
    · rw [List.head?_reverse]; exact SC_last _ hsc

/-- vertices are given points -/
theorem popLoop_sub (c : Pt) : ∀ st, ∀ v ∈ popLoop c st, v ∈ st := by
  intro st
  induction st with
  | nil => intro v hv; exact hv
  | cons a st ih =>
    intro v hv
    cases st with
    | nil => exact hv
    | cons b rest =>
      unfold popLoop at hv
      by_cases hl : isLeft b a c = true
      · rw [if_pos hl] at hv; exact hv
      · rw [if_neg hl] at hv; exact List.mem_cons_of_mem _ (ih v hv)

theorem half_sub (p0 far : Pt) (pts : List Pt) (h0 : p0 ∈ pts) : ∀ v ∈ half p0 far pts, v ∈ pts := by
  unfold half
  suffices H : ∀ (l st : List Pt), (∀ c ∈ l, c ∈ pts) → (∀ v ∈ st, v ∈ pts) → ∀ v ∈ l.foldl (halfStep p0 far) st, v ∈ pts by
    intro v hv
    rw [List.mem_reverse] at hv
    exact H pts [p0] (fun _ h => h) (by simpa using h0) v hv
  intro l
  induction l with
  | nil => intro st _ h v hv; exact h v hv
  | cons c l ih =>
    intro st hl hst
    rw [List.foldl_cons]
    refine ih _ (fun c' hc' => hl c' (List.mem_cons_of_mem _ hc')) ?_
    intro v hv
    unfold halfStep at hv
    by_cases h : isLeft p0 far c = true
    · rw [if_pos h] at hv; exact hst v hv
    · rw [if_neg h] at hv
      rcases List.mem_cons.1 hv with rfl | hv
      · exact hl _ (by simp)
      · exact hst v (popLoop_sub c st v hv)

/-! ### Reflection -/

/-- reflection at the origin -/
def neg (p : Pt) : Pt := ⟨-p.x, -p.y, p.hit⟩

@[simp] theorem neg_neg' (p : Pt) : neg (neg p) = p := by cases p; simp [neg]

theorem cross_neg (a b c : Pt) : cross (neg a) (neg b) (neg c) = cross a b c := by unfold cross neg; simp; ring

theorem isLeft_neg (a b c : Pt) : isLeft (neg a) (neg b) (neg c) = isLeft a b c := by unfold isLeft; rw [cross_neg]

theorem popLoop_neg (c : Pt) : ∀ st : List Pt, popLoop (neg c) (st.map neg) = (popLoop c st).map neg := by
  intro st
  induction st with
  | nil => rfl
  | cons a st ih =>
    cases st with
    | nil => rfl
    | cons b rest =>
      simp only [List.map_cons] at ih ⊢
      unfold popLoop
      rw [isLeft_neg]
      by_cases h : isLeft b a c = true
      · rw [if_pos h, if_pos h]; rfl
      · rw [if_neg h, if_neg h]; exact ih

theorem foldl_neg (p0 far : Pt) (l : List Pt) : ∀ st : List Pt, (l.map neg).foldl (halfStep (neg p0) (neg far)) (st.map neg) =
    (l.foldl (halfStep p0 far) st).map neg := by
  induction l with
  | nil => intro st; rfl
  | cons c l ih =>
    intro st
    rw [List.map_cons, List.foldl_cons, List.foldl_cons, ← ih]
    congr 1
    unfold halfStep
    rw [isLeft_neg]
    by_cases h : isLeft p0 far c = true
    · rw [if_pos h, if_pos h]
    · rw [if_neg h, if_neg h, popLoop_neg]; rfl

theorem half_neg (p0 far : Pt) (l : List Pt) : half (neg p0) (neg far) (l.map neg) = (half p0 far l).map neg := by
  unfold half
  have := foldl_neg p0 far l [p0]
  simp only [List.map_cons, List.map_nil] at this
  rw [this, List.map_reverse]

theorem lexle_neg {p q : Pt} : lexle (neg p) (neg q) ↔ lexle q p := by
  unfold lexle neg; simp only []
  constructor
  · rintro (h | ⟨h, h'⟩)
    · left; linarith
    · right; exact ⟨by linarith, by linarith⟩
  · rintro (h | ⟨h, h'⟩)
    · left; linarith
    · right; exact ⟨by linarith, by linarith⟩

/-- the other half of the hull -/
theorem half_spec_upper {p0 far : Pt} {pts : List Pt} (hs : pts.Pairwise (fun a b => lexle b a)) (h0 : p0 ∈ pts) (hf : far ∈ pts)
    (hmin : ∀ r ∈ pts, lexle r p0) (hmax : ∀ r ∈ pts, far.x ≤ r.x) :
    (half p0 far pts).IsChain (fun a b => Good pts a b ∧ b.x ≤ a.x) ∧ (half p0 far pts).head? = some p0 ∧ 2 ≤ (half p0 far pts).length ∧
    ∃ q ∈ pts, (half p0 far pts).getLast? = some q ∧ lexle q far := by
  have hmem : ∀ r ∈ pts.map neg, ∃ r' ∈ pts, neg r' = r := fun r hr => by simpa using hr
  obtain ⟨h1, h2, h3, q, hq, h4, h5⟩ := half_spec (p0 := neg p0) (far := neg far) (pts := pts.map neg)
    (by rw [List.pairwise_map]; exact hs.imp (fun h => lexle_neg.2 h)) (List.mem_map_of_mem h0) (List.mem_map_of_mem hf)
    (fun r hr => by obtain ⟨r', hr', rfl⟩ := hmem r hr; exact lexle_neg.2 (hmin r' hr'))
    (fun r hr => by obtain ⟨r', hr', rfl⟩ := hmem r hr; have := hmax r' hr'; simp only [neg]; linarith)
  rw [half_neg] at h1 h2 h3 h4
  refine ⟨?_, ?_, by simpa using h3, neg q, ?_, ?_, ?_⟩
  · rw [List.isChain_map] at h1
    refine h1.imp ?_
    rintro a b ⟨hg, hx⟩
    refine ⟨fun r hr => ?_, by simp only [neg] at hx; linarith⟩
    rw [← cross_neg]; exact hg _ (List.mem_map_of_mem hr)
  · rw [List.head?_map] at h2
    cases hh : (half p0 far pts).head? with
    | none => rw [hh] at h2; simp at h2
    | some v => rw [hh] at h2; simp only [Option.map_some, Option.some.injEq] at h2; rw [← neg_neg' v, h2, neg_neg']
  · obtain ⟨r', hr', rfl⟩ := hmem q hq; rw [neg_neg']; exact hr'
  · rw [List.getLast?_map] at h4
    cases hh : (half p0 far pts).getLast? with
    | none => rw [hh] at h4; simp at h4
    | some v => rw [hh] at h4; simp only [Option.map_some, Option.some.injEq] at h4; rw [← neg_neg' v, h4]
  · rw [← neg_neg' q] at h5; exact lexle_neg.1 h5

end Verif.Hull

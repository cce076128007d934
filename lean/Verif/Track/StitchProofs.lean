import Verif.Track.StitchModel
import Mathlib.Data.List.GetD
import Mathlib.Data.List.Flatten
import Mathlib.Data.List.InsertIdx
import Mathlib.Tactic.Common
/-!
# `StitchAlg`: the tables of links, the walks, the removal of repeats
-/
namespace Verif.Stitch

/-! ## Links -/

/-- some end of `a` matches some end of `b` -/
def AnyMatch (c : Cfg) (a b : Trk) : Prop := c12 c a b = true ∨ c21 c a b = true ∨ c11 c a b = true ∨ c22 c a b = true

/-- a link of track `k`: either none, or to a later track some end of which matches -/
def Good (c : Cfg) (trks : List Trk) (k : Nat) (l : Link) : Prop :=
  (l.lab = .NA ∧ l.tgt = none) ∨
  (l.lab ≠ .NA ∧ ∃ j a b, l.tgt = some j ∧ k < j ∧ trks[k]? = some a ∧ trks[j]? = some b ∧ AnyMatch c a b)

theorem good_noLink (c : Cfg) (trks : List Trk) (k : Nat) : Good c trks k noLink := Or.inl ⟨rfl, rfl⟩

/-- a table of links -/
def GoodTab (c : Cfg) (trks : List Trk) (n : Nat) (tab : List Link) : Prop :=
  tab.length = n ∧ ∀ k (h : k < tab.length), Good c trks k tab[k]

theorem resolve_keep (b : Link) (tab : List Link) :
    (resolve b tab).1.length = tab.length ∧ ∀ k (h : k < (resolve b tab).1.length) (h' : k < tab.length),
      (resolve b tab).1[k] = tab[k] ∨ (resolve b tab).1[k] = noLink := by
  induction tab with
  | nil => simp [resolve]
  | cons l r ih =>
    have aux : ∀ (x : Link) (q : Bool), (x = l ∨ x = noLink) → ((x :: (resolve b r).1, q) : List Link × Bool).1.length = (l :: r).length ∧
        ∀ k (h : k < ((x :: (resolve b r).1, q) : List Link × Bool).1.length) (h' : k < (l :: r).length),
          ((x :: (resolve b r).1, q) : List Link × Bool).1[k] = (l :: r)[k] ∨ ((x :: (resolve b r).1, q) : List Link × Bool).1[k] = noLink := by
      intro x q hx
      refine ⟨by simp [ih.1], ?_⟩
      intro k h h'
      cases k with
      | zero => simpa using hx
      | succ k =>
        simp only [List.getElem_cons_succ]
        exact ih.2 k (by simpa using h) (by simpa using h')
    unfold resolve
    split
    · split
      · exact aux noLink _ (Or.inr rfl)
      · split
        · exact ⟨rfl, fun k h h' => Or.inl rfl⟩
        · exact aux l _ (Or.inl rfl)
    · exact aux l _ (Or.inl rfl)

theorem settle_tab {c : Cfg} {trks : List Trk} {n : Nat} {vv tab : List Link} (h : GoodTab c trks n tab) :
    GoodTab c trks n (settle vv tab).2 := by
  unfold settle
  split
  · exact h
  next b _ =>
    obtain ⟨h1, h2⟩ := resolve_keep b tab
    refine ⟨by rw [h1]; exact h.1, ?_⟩
    intro k hk
    rcases h2 k hk (by rw [← h1]; exact hk) with e | e
    · simp only; rw [e]; exact h.2 k _
    · simp only; rw [e]; exact good_noLink _ _ _

theorem settle_vv {P : Link → Prop} {vv tab : List Link} (h : ∀ l ∈ vv, P l) : ∀ l ∈ (settle vv tab).1, P l := by
  unfold settle
  split
  · exact h
  · simp only
    split
    · exact fun l hl => h l (List.dropLast_subset _ hl)
    · exact h

theorem pushLink_all {P : Link → Prop} {vv : List Link} {x : Link} (h : ∀ l ∈ vv, P l) (hx : P x) : ∀ l ∈ pushLink vv x, P l := by
  intro l hl
  unfold pushLink at hl
  rcases List.mem_append.1 hl with hl | hl
  · split at hl
    · exact h l (List.mem_of_mem_drop hl)
    · exact h l hl
  · rw [List.mem_singleton.1 hl]; exact hx

theorem sHT2_ne {c : Cfg} {a b : Trk} (h : AnyMatch c a b) : sHT2 c a b ≠ .NA := by
  unfold sHT2
  rcases h with h | h | h | h <;> simp only [h, if_true] <;> (repeat' split) <;> simp_all

/-- the invariant of the inner loop -/
structure InInv (c : Cfg) (trks : List Trk) (ii : Nat) (s : In) : Prop where
  hv : ∀ l ∈ s.hv, Good c trks ii l
  tv : ∀ l ∈ s.tv, Good c trks ii l
  fh : GoodTab c trks ii s.fh
  ft : GoodTab c trks ii s.ft

theorem tryPair_inv {c : Cfg} {trks : List Trk} {ii jj : Nat} {a b : Trk} {s : In} (h : InInv c trks ii s) (ha : trks[ii]? = some a)
    (hb : trks[jj]? = some b) (hij : ii < jj) : InInv c trks ii (tryPair c a b jj s) := by
  unfold tryPair
  split
  next hm =>
    have hAny : AnyMatch c a b := by
      simp only [Bool.or_eq_true] at hm
      unfold AnyMatch; tauto
    have hg : ∀ q : ℚ, Good c trks ii ⟨sHT2 c a b, some jj, q⟩ := fun q => Or.inr ⟨sHT2_ne hAny, jj, a, b, rfl, hij, ha, hb, hAny⟩
    dsimp only
    generalize (if (s.head || c12 c a b || c11 c a b) && (s.tail || c21 c a b || c22 c a b) then tieHead a b
      else (s.head || c12 c a b || c11 c a b)) = hd
    generalize (if (s.head || c12 c a b || c11 c a b) && (s.tail || c21 c a b || c22 c a b) then !tieHead a b
      else (s.tail || c21 c a b || c22 c a b)) = tl
    split
    · split
      · exact ⟨pushLink_all h.hv (hg _), h.tv, h.fh, h.ft⟩
      · exact ⟨h.hv, h.tv, h.fh, h.ft⟩
    · split
      · split
        · exact ⟨h.hv, pushLink_all h.tv (hg _), h.fh, h.ft⟩
        · exact ⟨h.hv, h.tv, h.fh, h.ft⟩
      · exact ⟨h.hv, h.tv, h.fh, h.ft⟩
  · exact h

theorem inner_inv {c : Cfg} {trks : List Trk} {ii jj : Nat} {a : Trk} {s : In} (h : InInv c trks ii s) (ha : trks[ii]? = some a)
    (hij : ii < jj) : InInv c trks ii (inner c trks a s jj) := by
  unfold inner
  split
  · exact h
  next b hb =>
    have h' := tryPair_inv h ha hb hij
    exact ⟨settle_vv h'.hv, settle_vv h'.tv, settle_tab h'.fh, settle_tab h'.ft⟩

theorem goodTab_snoc {c : Cfg} {trks : List Trk} {n : Nat} {tab : List Link} {l : Link} (h : GoodTab c trks n tab) (hl : Good c trks n l) :
    GoodTab c trks (n + 1) (tab ++ [l]) := by
  refine ⟨by simp [h.1], ?_⟩
  intro k hk
  by_cases hk2 : k < tab.length
  · rw [List.getElem_append_left hk2]; exact h.2 k hk2
  · have : k = tab.length := by simp at hk; omega
    subst this
    rw [List.getElem_append_right (le_refl _)]
    simp only [Nat.sub_self, List.getElem_singleton]
    rw [h.1]; exact hl

theorem last_good {c : Cfg} {trks : List Trk} {ii : Nat} {vv : List Link} (h : ∀ l ∈ vv, Good c trks ii l) :
    Good c trks ii (vv.getLast?.getD noLink) := by
  cases e : vv.getLast? with
  | none => exact good_noLink _ _ _
  | some l => exact h l (List.mem_of_getLast? e)

theorem outer_inv {c : Cfg} {trks : List Trk} {ii : Nat} {tab : List Link × List Link} (hii : ii < trks.length)
    (h1 : GoodTab c trks ii tab.1) (h2 : GoodTab c trks ii tab.2) :
    GoodTab c trks (ii + 1) (outer c trks tab ii).1 ∧ GoodTab c trks (ii + 1) (outer c trks tab ii).2 := by
  unfold outer
  rw [List.getElem?_eq_getElem hii]
  dsimp only
  have ha : trks[ii]? = some trks[ii] := List.getElem?_eq_getElem hii
  generalize trks[ii] = a at ha
  have key : ∀ (l : List Nat) (s : In), (∀ j ∈ l, ii < j) → InInv c trks ii s → InInv c trks ii (l.foldl (inner c trks a) s) := by
    intro l
    induction l with
    | nil => intro s _ h; exact h
    | cons j l ih => intro s hl h; exact ih _ (fun q hq => hl q (by simp [hq])) (inner_inv h ha (hl j (by simp)))
  have := key (List.range' (ii + 1) (trks.length - (ii + 1))) ⟨false, false, none, none, [], [], tab.1, tab.2⟩
    (by intro j hj; rw [List.mem_range'_1] at hj; omega) ⟨by simp, by simp, h1, h2⟩
  generalize (List.range' (ii + 1) (trks.length - (ii + 1))).foldl (inner c trks a) ⟨false, false, none, none, [], [], tab.1, tab.2⟩ = s at this
  exact ⟨goodTab_snoc this.fh (last_good this.hv), goodTab_snoc this.ft (last_good this.tv)⟩

theorem findLinks_good (c : Cfg) (trks : List Trk) :
    GoodTab c trks trks.length (findLinks c trks).1 ∧ GoodTab c trks trks.length (findLinks c trks).2 := by
  unfold findLinks
  have : ∀ n, n ≤ trks.length → GoodTab c trks n ((List.range n).foldl (outer c trks) ([], [])).1 ∧
      GoodTab c trks n ((List.range n).foldl (outer c trks) ([], [])).2 := by
    intro n
    induction n with
    | zero => intro _; exact ⟨⟨rfl, by simp⟩, ⟨rfl, by simp⟩⟩
    | succ n ih =>
      intro hn
      obtain ⟨i1, i2⟩ := ih (by omega)
      rw [List.range_succ, List.foldl_append]
      exact outer_inv (by omega) i1 i2
  exact this _ (le_refl _)

/-! ## Walks -/

/-- tables whose links lead to later tracks of the event -/
def Fwd (n : Nat) (tab : List Link) : Prop :=
  ∀ k, k < n → ((at' tab k).lab ≠ .NA → ∃ j, (at' tab k).tgt = some j ∧ k < j ∧ j < n)

theorem goodTab_fwd {c : Cfg} {trks : List Trk} {tab : List Link} (h : GoodTab c trks trks.length tab) : Fwd trks.length tab := by
  intro k hk hl
  have hk' : k < tab.length := by rw [h.1]; exact hk
  unfold at' at hl ⊢
  rw [List.getD_eq_getElem _ _ hk'] at hl ⊢
  rcases h.2 k hk' with ⟨e, _⟩ | ⟨_, j, a, b, e, hj, _, hb, _⟩
  · exact absurd e hl
  · refine ⟨j, e, hj, ?_⟩
    by_contra hge
    rw [List.getElem?_eq_none (by omega)] at hb
    cases hb

/-- what a walk that began with composite `comp0`, links `ht0` and marks `done0` keeps -/
structure WInv (n ii : Nat) (fh ft : List Link) (done0 comp0 : List Nat) (w : W) : Prop where
  lt : w.walk < n
  ge : ii ≤ w.walk
  first : w.walk = ii → (w.sh = .NA ∨ w.sh = (at' fh ii).lab) ∧ (w.st = .NA ∨ w.st = (at' ft ii).lab)
  len : w.ht.length + 1 = w.comp.length
  mem : w.walk ∈ w.comp
  keep : ∀ t ∈ comp0, t ∈ w.comp
  all : ∀ t ∈ w.comp, t < n
  done : ∀ t ∈ w.done, t ∈ done0 ∨ t ∈ w.comp
  old : ∀ t ∈ done0, t ∈ w.done

theorem turn_inv {n ii : Nat} {fh ft : List Link} {done0 comp0 : List Nat} {w : W} (front : Bool) (hf : Fwd n fh) (ht : Fwd n ft)
    (h : WInv n ii fh ft done0 comp0 w) :
    WInv n ii fh ft done0 comp0 (turn front fh ft ii w) ∧
    (¬ ((turn front fh ft ii w).sh = .NA ∧ (turn front fh ft ii w).st = .NA) → w.walk < (turn front fh ft ii w).walk) := by
  unfold turn
  dsimp only
  generalize esh : (if w.walk ≠ ii then (at' fh w.walk).lab else w.sh) = sh
  generalize est : (if w.walk ≠ ii then (at' ft w.walk).lab else w.st) = st
  have hsh : sh = .NA ∨ sh = (at' fh w.walk).lab := by
    rw [← esh]
    by_cases e : w.walk = ii
    · rw [if_neg (by simpa using e), e]; exact (h.first e).1
    · rw [if_pos e]; exact Or.inr rfl
  have hst : st = .NA ∨ st = (at' ft w.walk).lab := by
    rw [← est]
    by_cases e : w.walk = ii
    · rw [if_neg (by simpa using e), e]; exact (h.first e).2
    · rw [if_pos e]; exact Or.inr rfl
  generalize ehi : (if sh ≠ .NA then (at' fh w.walk).tgt else none) = hi
  generalize eti : (if st ≠ .NA then (at' ft w.walk).tgt else none) = ti
  have hhi : (sh = .NA ∧ hi = none) ∨ (sh ≠ .NA ∧ ∃ j, hi = some j ∧ w.walk < j ∧ j < n) := by
    by_cases e : sh = .NA
    · left; rw [if_neg (by simpa using e)] at ehi; exact ⟨e, ehi.symm⟩
    · right; rw [if_pos e] at ehi
      obtain ⟨j, h1, h2⟩ := hf w.walk h.lt (by rcases hsh with e' | e'; exact absurd e' e; rw [← e']; exact e)
      exact ⟨e, j, by rw [← ehi, h1], h2⟩
  have hti : (st = .NA ∧ ti = none) ∨ (st ≠ .NA ∧ ∃ j, ti = some j ∧ w.walk < j ∧ j < n) := by
    by_cases e : st = .NA
    · left; rw [if_neg (by simpa using e)] at eti; exact ⟨e, eti.symm⟩
    · right; rw [if_pos e] at eti
      obtain ⟨j, h1, h2⟩ := ht w.walk h.lt (by rcases hst with e' | e'; exact absurd e' e; rw [← e']; exact e)
      exact ⟨e, j, by rw [← eti, h1], h2⟩
  have hcm : ∀ t, t ∈ (if front = true then ti.toList ++ (hi.toList ++ w.comp) else w.comp ++ hi.toList ++ ti.toList) ↔
      t ∈ w.comp ∨ hi = some t ∨ ti = some t := by
    intro t
    cases front <;> simp only [Bool.false_eq_true, if_false, if_true, List.mem_append, Option.mem_toList, Option.mem_def] <;> tauto
  generalize hcomp : (if front = true then ti.toList ++ (hi.toList ++ w.comp) else w.comp ++ hi.toList ++ ti.toList) = comp at hcm
  generalize hht : (if front = true then ti.toList.map (fun _ => (st, Lab.T)) ++ (hi.toList.map (fun _ => (sh, Lab.H)) ++ w.ht)
    else w.ht ++ hi.toList.map (fun _ => (Lab.H, sh)) ++ ti.toList.map (fun _ => (Lab.T, st))) = htl
  have hlen : htl.length + 1 = comp.length := by
    rw [← hht, ← hcomp]
    have := h.len
    cases front <;> simp only [Bool.false_eq_true, if_false, if_true, List.length_append, List.length_map] <;> omega
  have hwalk : ti.getD (hi.getD w.walk) ∈ comp ∧ w.walk ≤ ti.getD (hi.getD w.walk) ∧ ti.getD (hi.getD w.walk) < n ∧
      (¬ (sh = .NA ∧ st = .NA) → w.walk < ti.getD (hi.getD w.walk)) := by
    rcases hti with ⟨e1, e2⟩ | ⟨e1, j, e2, e3, e4⟩
    · rw [e2]
      rcases hhi with ⟨f1, f2⟩ | ⟨f1, j, f2, f3, f4⟩
      · rw [f2]
        exact ⟨(hcm _).2 (Or.inl h.mem), le_refl _, h.lt, fun hn => absurd ⟨f1, e1⟩ hn⟩
      · rw [f2]
        exact ⟨(hcm _).2 (Or.inr (Or.inl f2)), le_of_lt f3, f4, fun _ => f3⟩
    · rw [e2]
      exact ⟨(hcm _).2 (Or.inr (Or.inr e2)), le_of_lt e3, e4, fun _ => e3⟩
  refine ⟨⟨hwalk.2.2.1, le_trans h.ge hwalk.2.1, ?_, hlen, hwalk.1, fun t ht => (hcm t).2 (Or.inl (h.keep t ht)), ?_, ?_, ?_⟩, hwalk.2.2.2⟩
  · intro e
    have hwi : w.walk = ii := le_antisymm (by simp only at e; omega) h.ge
    rw [hwi] at hsh hst
    exact ⟨hsh, hst⟩
  · intro t ht'
    rcases (hcm t).1 ht' with ht' | ht' | ht'
    · exact h.all t ht'
    · rcases hhi with ⟨_, f2⟩ | ⟨_, j, f2, _, f4⟩
      · rw [f2] at ht'; cases ht'
      · rw [f2] at ht'; cases ht'; exact f4
    · rcases hti with ⟨_, f2⟩ | ⟨_, j, f2, _, f4⟩
      · rw [f2] at ht'; cases ht'
      · rw [f2] at ht'; cases ht'; exact f4
  · intro t ht'
    rcases List.mem_cons.1 ht' with rfl | ht'
    · exact Or.inr hwalk.1
    · rcases h.done t ht' with hd | hd
      · exact Or.inl hd
      · exact Or.inr ((hcm t).2 (Or.inl hd))
  · intro t ht'
    exact List.mem_cons_of_mem _ (h.old t ht')

theorem walkLoop_ends {n ii : Nat} {fh ft : List Link} {done0 comp0 : List Nat} (front : Bool) (hf : Fwd n fh) (ht : Fwd n ft) (fuel : Nat) (w : W)
    (h : WInv n ii fh ft done0 comp0 w) (hfuel : n < fuel + w.walk) :
    ∃ w', walkLoop front fh ft ii fuel w = some w' ∧ WInv n ii fh ft done0 comp0 w' := by
  induction fuel generalizing w with
  | zero => have := h.lt; omega
  | succ fuel ih =>
    obtain ⟨h1, h2⟩ := turn_inv front hf ht h
    rw [walkLoop]
    split
    next => exact ⟨_, rfl, h1⟩
    next hn => exact ih _ h1 (by have := h2 hn; omega)

/-! ## Removal of repeats -/

/-- a composite and its links -/
def Pair (s : List Nat × List (Lab × Lab)) : Prop := s.2.length + 1 = s.1.length

theorem mem_eraseIdx_of_dup {l : List Nat} {p q : Nat} (hpq : p < q) (hq : q < l.length) (h : l[p] = l[q]) (x : Nat) :
    x ∈ l.eraseIdx q ↔ x ∈ l := by
  constructor
  · exact fun hx => List.mem_of_mem_eraseIdx hx
  · intro hx
    obtain ⟨r, hr, e⟩ := List.getElem_of_mem hx
    by_cases hrq : r = q
    · subst hrq
      rw [List.mem_eraseIdx_iff_getElem]
      exact ⟨p, by omega, by omega, by rw [h]; exact e⟩
    · rw [List.mem_eraseIdx_iff_getElem]
      exact ⟨r, hr, hrq, e⟩

theorem dedupStep_keep {s : List Nat × List (Lab × Lab)} (h : Pair s) (p : Nat) :
    Pair (dedupStep s p) ∧ ∀ x, x ∈ (dedupStep s p).1 ↔ x ∈ s.1 := by
  unfold dedupStep
  split
  · exact ⟨h, fun x => Iff.rfl⟩
  next t ht =>
    split
    · exact ⟨h, fun x => Iff.rfl⟩
    next k hk =>
      obtain ⟨hp, et⟩ := List.getElem?_eq_some_iff.1 ht
      obtain ⟨hk1, hk2, _⟩ := List.idxOf?_eq_some_iff.1 hk
      simp only [List.length_drop] at hk1
      rw [List.getElem_drop] at hk2
      refine ⟨?_, ?_⟩
      · unfold Pair at h ⊢
        simp only
        rw [List.length_eraseIdx_of_lt (by omega), List.length_eraseIdx_of_lt (by omega)]
        omega
      · intro x
        exact mem_eraseIdx_of_dup (p := p) (by omega) (by omega) (by rw [et]; simpa using hk2.symm) x

theorem dedup_keep {s : List Nat × List (Lab × Lab)} (h : Pair s) : Pair (dedup s) ∧ ∀ x, x ∈ (dedup s).1 ↔ x ∈ s.1 := by
  unfold dedup
  have : ∀ (l : List Nat) (s : List Nat × List (Lab × Lab)), Pair s → Pair (l.foldl dedupStep s) ∧ ∀ x, x ∈ (l.foldl dedupStep s).1 ↔ x ∈ s.1 := by
    intro l
    induction l with
    | nil => intro s h; exact ⟨h, fun x => Iff.rfl⟩
    | cons p l ih =>
      intro s h
      obtain ⟨h1, h2⟩ := dedupStep_keep h p
      obtain ⟨h3, h4⟩ := ih _ h1
      exact ⟨h3, fun x => (h4 x).trans (h2 x)⟩
  exact this _ s h

/-! ## The outputs -/

/-- composites, links and stitched tracks in step -/
structure Valid (o : Out) : Prop where
  len : o.hts.length = o.comps.length
  pair : ∀ k (h : k < o.comps.length) (h' : k < o.hts.length), (o.hts[k]).length + 1 = (o.comps[k]).length
  vec : o.vec = List.zipWith firstStitch o.comps o.hts

/-- the state of the loop of `WalkStitch` before track `ii` -/
structure WalkInv (n ii : Nat) (s : Out × List Nat) : Prop where
  valid : Valid s.1
  range : ∀ c ∈ s.1.comps, ∀ t ∈ c, t < n
  done : ∀ t ∈ s.2, ∃ c ∈ s.1.comps, t ∈ c
  cover : ∀ t < ii, ∃ c ∈ s.1.comps, t ∈ c
  count : s.1.comps.length ≤ ii

theorem walkOne_ok {n ii fuel : Nat} {fh ft : List Link} {s : Out × List Nat} (hf : Fwd n fh) (ht : Fwd n ft) (hii : ii < n) (hfuel : n < fuel)
    (h : WalkInv n ii s) : ∃ s', walkOne fuel fh ft s ii = some s' ∧ WalkInv n (ii + 1) s' := by
  unfold walkOne
  split
  next hm =>
    refine ⟨s, rfl, h.valid, h.range, h.done, ?_, by have := h.count; omega⟩
    intro t ht'
    by_cases e : t = ii
    · subst e; exact h.done t hm
    · exact h.cover t (by omega)
  next hm =>
    have h0 : WInv n ii fh ft s.2 [ii] ⟨ii, (at' fh ii).lab, .NA, [ii], [], s.2⟩ :=
      ⟨hii, le_refl _, fun _ => ⟨Or.inr rfl, Or.inl rfl⟩, rfl, by simp, fun t ht' => ht', by simpa using hii, fun t ht' => Or.inl ht', fun t ht' => ht'⟩
    obtain ⟨w1, e1, i1⟩ := walkLoop_ends false hf ht fuel _ h0 (by simp only; omega)
    have h1 : WInv n ii fh ft s.2 w1.comp ⟨ii, .NA, (at' ft ii).lab, w1.comp, w1.ht, w1.done⟩ :=
      ⟨hii, le_refl _, fun _ => ⟨Or.inl rfl, Or.inr rfl⟩, i1.len, i1.keep ii (by simp), fun t ht' => ht', i1.all, i1.done, i1.old⟩
    obtain ⟨w2, e2, i2⟩ := walkLoop_ends true hf ht fuel _ h1 (by simp only; omega)
    obtain ⟨d1, d2⟩ := dedup_keep (s := (w2.comp, w2.ht)) i2.len
    rw [e1]
    simp only [Option.bind_eq_bind, Option.bind_some]
    rw [e2]
    simp only [Option.bind_some]
    refine ⟨_, rfl, ?_, ?_, ?_, ?_, by have := h.count; simp; omega⟩
    · refine ⟨by simp [h.valid.len], ?_, ?_⟩
      · intro k hk hk'
        simp only [List.length_append, List.length_singleton] at hk hk'
        by_cases hk2 : k < s.1.comps.length
        · have hk3 : k < s.1.hts.length := by rw [h.valid.len]; exact hk2
          simp only
          rw [List.getElem_append_left hk2, List.getElem_append_left hk3]
          exact h.valid.pair k hk2 hk3
        · have hk4 : k = s.1.comps.length := by omega
          simp only
          rw [List.getElem_append_right (by rw [h.valid.len]; omega), List.getElem_append_right (by omega)]
          simp only [List.getElem_singleton]
          exact d1
      · simp only
        rw [List.zipWith_append h.valid.len.symm, ← h.valid.vec]
        rfl
    · intro c hc t ht'
      rcases List.mem_append.1 hc with hc | hc
      · exact h.range c hc t ht'
      · rw [List.mem_singleton.1 hc] at ht'
        exact i2.all t ((d2 t).1 ht')
    · intro t ht'
      rcases i2.done t ht' with hd | hd
      · obtain ⟨c, hc, htc⟩ := h.done t hd
        exact ⟨c, List.mem_append_left _ hc, htc⟩
      · exact ⟨_, List.mem_append_right _ (by simp), (d2 t).2 hd⟩
    · intro t ht'
      by_cases e : t = ii
      · subst e
        exact ⟨_, List.mem_append_right _ (by simp), (d2 t).2 (i2.keep t (i1.keep t (by simp)))⟩
      · obtain ⟨c, hc, htc⟩ := h.cover t (by omega)
        exact ⟨c, List.mem_append_left _ hc, htc⟩

theorem walkStitch_ok {n fuel : Nat} {fh ft : List Link} (hf : Fwd n fh) (ht : Fwd n ft) (hn : fh.length = n) (hfuel : n < fuel) :
    ∃ s, walkStitch fuel fh ft = some s ∧ WalkInv n n s := by
  unfold walkStitch
  rw [hn]
  have : ∀ m, m ≤ n → ∃ s, (List.range m).foldlM (walkOne fuel fh ft) (⟨[], [], []⟩, []) = some s ∧ WalkInv n m s := by
    intro m
    induction m with
    | zero =>
      intro _
      exact ⟨_, rfl, ⟨rfl, by simp, by simp⟩, by simp, by simp, by simp, by simp⟩
    | succ m ih =>
      intro hm
      obtain ⟨s, e, i⟩ := ih (by omega)
      obtain ⟨s', e', i'⟩ := walkOne_ok hf ht (by omega) hfuel i
      refine ⟨s', ?_, i'⟩
      rw [List.range_succ, List.foldlM_append, e]
      simp only [Option.bind_eq_bind, Option.bind_some, List.foldlM_cons, List.foldlM_nil, e']
      rfl
  exact this n (le_refl _)

/-! ## Common components -/

theorem findCommon_some {comps : List (List Nat)} {i j a b : Nat} (h : findCommon comps = some (i, j, a, b)) :
    i < j ∧ j < comps.length ∧ ∃ (ha : a < (comps.getD i []).length) (hb : b < (comps.getD j []).length),
      (comps.getD i [])[a] = (comps.getD j [])[b] := by
  unfold findCommon at h
  obtain ⟨i', hi', h⟩ := List.exists_of_findSome?_eq_some h
  obtain ⟨j', hj', h⟩ := List.exists_of_findSome?_eq_some h
  obtain ⟨a', ha', h⟩ := List.exists_of_findSome?_eq_some h
  obtain ⟨b', hb', h⟩ := List.exists_of_findSome?_eq_some h
  split at h
  next he =>
    obtain ⟨rfl, rfl, rfl, rfl⟩ : i' = i ∧ j' = j ∧ a' = a ∧ b' = b := by simpa using h
    rw [List.mem_range'_1] at hj'
    rw [List.mem_range] at ha' hb'
    refine ⟨by omega, by omega, ha', hb', ?_⟩
    rw [List.getElem?_eq_getElem ha', List.getElem?_eq_getElem hb'] at he
    exact Option.some.inj he
  next => cases h

theorem findCommon_none {comps : List (List Nat)} (h : findCommon comps = none) {i j : Nat} (hij : i < j) (hj : j < comps.length) (t : Nat)
    (h1 : t ∈ comps.getD i []) (h2 : t ∈ comps.getD j []) : False := by
  unfold findCommon at h
  rw [List.findSome?_eq_none_iff] at h
  have h := h i (List.mem_range.2 (by omega))
  rw [List.findSome?_eq_none_iff] at h
  have h := h j (by rw [List.mem_range'_1]; omega)
  rw [List.findSome?_eq_none_iff] at h
  obtain ⟨a, ha, ea⟩ := List.getElem_of_mem h1
  obtain ⟨b, hb, eb⟩ := List.getElem_of_mem h2
  have h := h a (List.mem_range.2 ha)
  rw [List.findSome?_eq_none_iff] at h
  have h := h b (List.mem_range.2 hb)
  rw [if_pos (by rw [List.getElem?_eq_getElem ha, List.getElem?_eq_getElem hb, ea, eb])] at h
  cases h

theorem zipWith_set' {α β γ : Type} (f : α → β → γ) (l : List α) (m : List β) (j : Nat) (a : α) (b : β) :
    List.zipWith f (l.set j a) (m.set j b) = (List.zipWith f l m).set j (f a b) := by
  induction l generalizing m j with
  | nil => simp
  | cons x l ih =>
    cases m with
    | nil => simp
    | cons y m =>
      cases j with
      | zero => simp
      | succ j => simp [ih]

theorem zipWith_eraseIdx' {α β γ : Type} (f : α → β → γ) (l : List α) (m : List β) (j : Nat) (hlen : l.length = m.length) :
    List.zipWith f (l.eraseIdx j) (m.eraseIdx j) = (List.zipWith f l m).eraseIdx j := by
  induction l generalizing m j with
  | nil => cases m <;> simp_all
  | cons x l ih =>
    cases m with
    | nil => simp at hlen
    | cons y m =>
      cases j with
      | zero => simp
      | succ j => simp [ih m j (by simpa using hlen)]

theorem erase_insert {α : Type} (l : List α) (j : Nat) (x : α) (h : j < l.length) : (l.eraseIdx j).insertIdx j x = l.set j x := by
  induction l generalizing j with
  | nil => simp at h
  | cons y l ih =>
    cases j with
    | zero => simp
    | succ j => simp [ih j (by simpa using h)]

/-- what joining two composites does -/
structure Joined (o o' : Out) : Prop where
  valid : Valid o'
  less : o'.comps.length + 1 = o.comps.length
  sub : ∀ t, (∃ c ∈ o'.comps, t ∈ c) → ∃ c ∈ o.comps, t ∈ c

theorem commonStitch_ok {o o' : Out} (h : Valid o) (hc : commonStitch o = some o') :
    Joined o o' ∧ ∀ i j a b, findCommon o.comps = some (i, j, a, b) → (b = 0 ∨ b = (o.comps.getD j []).length - 1) →
      ∀ t, (∃ c ∈ o.comps, t ∈ c) → ∃ c ∈ o'.comps, t ∈ c := by
  unfold commonStitch at hc
  cases e : findCommon o.comps with
  | none => rw [e] at hc; cases hc
  | some q =>
    obtain ⟨i, j, a, b⟩ := q
    rw [e] at hc
    simp only [Option.some.injEq] at hc
    obtain ⟨hij, hj, ha, hb, hab⟩ := findCommon_some e
    have hjh : j < o.hts.length := by rw [h.len]; exact hj
    have hi : i < o.comps.length := by omega
    have hih : i < o.hts.length := by rw [h.len]; exact hi
    have hlv : o.vec.length = o.comps.length := by rw [h.vec, List.length_zipWith, h.len]; simp
    have pi := h.pair i hi hih
    have pj := h.pair j hj hjh
    rw [← List.getD_eq_getElem _ [] hi, ← List.getD_eq_getElem _ [] hih] at pi
    rw [← List.getD_eq_getElem _ [] hj, ← List.getD_eq_getElem _ [] hjh] at pj
    have hmi : o.comps.getD i [] ∈ o.comps := by rw [List.getD_eq_getElem _ _ hi]; exact List.getElem_mem hi
    have hmj : o.comps.getD j [] ∈ o.comps := by rw [List.getD_eq_getElem _ _ hj]; exact List.getElem_mem hj
    generalize eci : o.comps.getD i [] = Ci at *
    generalize ecj : o.comps.getD j [] = Cj at *
    generalize ehi : o.hts.getD i [] = Hi at *
    generalize ehj : o.hts.getD j [] = Hj at *
    have hel : (Ci.eraseIdx a).length + 1 = Ci.length := by rw [List.length_eraseIdx_of_lt ha]; omega
    generalize ecn : (if b = 0 then Ci.eraseIdx a ++ Cj else if b = Cj.length - 1 then Cj ++ Ci.eraseIdx a else Cj) = Cn at hc
    generalize ehn : (if b = 0 then Hi.take (Ci.eraseIdx a).length ++ Hj else if b = Cj.length - 1 then Hj ++ Hi.take (Ci.eraseIdx a).length
      else Hj) = Hn at hc
    have hpn : Hn.length + 1 = Cn.length := by
      rw [← ecn, ← ehn]
      split
      · simp only [List.length_append, List.length_take]; omega
      · split
        · simp only [List.length_append, List.length_take]; omega
        · exact pj
    have hCnSub : ∀ t ∈ Cn, t ∈ Ci ∨ t ∈ Cj := by
      intro t ht
      rw [← ecn] at ht
      split at ht
      · rcases List.mem_append.1 ht with ht | ht
        · exact Or.inl (List.mem_of_mem_eraseIdx ht)
        · exact Or.inr ht
      · split at ht
        · rcases List.mem_append.1 ht with ht | ht
          · exact Or.inr ht
          · exact Or.inl (List.mem_of_mem_eraseIdx ht)
        · exact Or.inr ht
    subst hc
    refine ⟨⟨⟨?_, ?_, ?_⟩, ?_, ?_⟩, ?_⟩
    · simp only
      rw [List.length_eraseIdx_of_lt (by simpa using hih), List.length_eraseIdx_of_lt (by simpa using hi)]
      simp [h.len]
    · intro k hk hk'
      simp only at hk hk' ⊢
      have key : ∀ m (h1 : m < (o.comps.set j Cn).length) (h2 : m < (o.hts.set j Hn).length),
          ((o.hts.set j Hn)[m]).length + 1 = ((o.comps.set j Cn)[m]).length := by
        intro m h1 h2
        rw [List.getElem_set, List.getElem_set]
        split
        · exact hpn
        · exact h.pair m (by simpa using h1) (by simpa using h2)
      rw [List.getElem_eraseIdx, List.getElem_eraseIdx]
      split
      · exact key _ _ _
      · exact key _ _ _
    · simp only
      rw [erase_insert _ _ _ (by rw [hlv]; exact hj), zipWith_eraseIdx' _ _ _ _ (by simp [h.len]), zipWith_set', ← h.vec]
    · simp only
      rw [List.length_eraseIdx_of_lt (by simpa using hi), List.length_set]
      omega
    · rintro t ⟨c, hc, htc⟩
      have hc := List.mem_of_mem_eraseIdx hc
      rcases List.mem_or_eq_of_mem_set hc with hc | rfl
      · exact ⟨c, hc, htc⟩
      · rcases hCnSub t htc with h' | h'
        · exact ⟨Ci, hmi, h'⟩
        · exact ⟨Cj, hmj, h'⟩
    · rintro i' j' a' b' he hb'
      obtain ⟨rfl, rfl, rfl, rfl⟩ : i = i' ∧ j = j' ∧ a = a' ∧ b = b' := by simpa using he
      rw [ecj] at hb'
      have hCn : ∀ t, t ∈ Ci ∨ t ∈ Cj → t ∈ Cn := by
        intro t ht
        have hCi : t ∈ Ci → t ∈ Ci.eraseIdx a ∨ t ∈ Cj := by
          intro ht
          obtain ⟨r, hr, er⟩ := List.getElem_of_mem ht
          by_cases hra : r = a
          · right; subst hra; rw [← er, hab]; exact List.getElem_mem hb
          · left; rw [List.mem_eraseIdx_iff_getElem]; exact ⟨r, hr, hra, er⟩
        have : t ∈ Ci.eraseIdx a ∨ t ∈ Cj := by
          rcases ht with ht | ht
          · exact hCi ht
          · exact Or.inr ht
        rw [← ecn]
        split
        · rw [List.mem_append]; exact this
        · rw [if_pos (by rcases hb' with h | h; contradiction; exact h), List.mem_append]; exact this.symm
      have hCnMem : Cn ∈ (o.comps.set j Cn).eraseIdx i := by
        rw [List.mem_eraseIdx_iff_getElem]
        exact ⟨j, by simpa using hj, by omega, by simp⟩
      rintro t ⟨c, hc, htc⟩
      obtain ⟨m, hm, em⟩ := List.getElem_of_mem hc
      by_cases hmi' : m = i
      · refine ⟨Cn, hCnMem, hCn t (Or.inl ?_)⟩
        subst hmi'
        rw [List.getD_eq_getElem _ _ hm, em] at eci
        rw [← eci]; exact htc
      · by_cases hmj' : m = j
        · refine ⟨Cn, hCnMem, hCn t (Or.inr ?_)⟩
          subst hmj'
          rw [List.getD_eq_getElem _ _ hm, em] at ecj
          rw [← ecj]; exact htc
        · refine ⟨c, ?_, htc⟩
          rw [List.mem_eraseIdx_iff_getElem]
          refine ⟨m, by simpa using hm, hmi', ?_⟩
          rw [List.getElem_set_ne (by omega)]
          exact em

end Verif.Stitch

import Verif.SpacePoint.TripletProofs
import Mathlib.Data.List.Sort
import Mathlib.Tactic.NormNum
/-!
# Properties of `TripletFinder` (C45, C46, C47, C70, C71)
-/
namespace Verif.Triplet
open Verif

/-! ## C45 -/

/-- C45: on drift-sorted hits and with a positive drift threshold, `DoubletHelper` returns exactly the exhaustive list: for each
`a`, first the crossing bad channels, then the drift-compatible crossing hits, in the order of the input lists. -/
theorem C45_exhaustive (thr : ℚ) (hthr : 0 < thr) (is : Nat → Nat → Option Pt) (as bs : List HC) (bbads : List Nat) (ha : DriftSorted as)
    (hb : DriftSorted bs) : doubletHelper thr is as bs bbads = specDoublets thr is as bs bbads := doubletHelper_eq hthr is as bs bbads ha hb

/-- C45: which doublets are returned. -/
theorem C45_members (thr : ℚ) (hthr : 0 < thr) (is : Nat → Nat → Option Pt) (as bs : List HC) (bbads : List Nat) (ha : DriftSorted as)
    (hb : DriftSorted bs) (d : Doublet) : d ∈ doubletHelper thr is as bs bbads ↔
      d.a ∈ as ∧ ((d.b ∈ bs ∧ |d.b.xpos - d.a.xpos| < thr ∧ is d.a.chan d.b.chan = some d.pt) ∨
        (∃ c ∈ bbads, d.b = HC.bad c ∧ is d.a.chan c = some d.pt)) := by
  rw [C45_exhaustive thr hthr is as bs bbads ha hb]
  unfold specDoublets specOne
  simp only [List.mem_flatMap, List.mem_append, List.mem_filterMap]
  constructor
  · rintro ⟨a, hma, ⟨c, hc, he⟩ | ⟨b, hmb, he⟩⟩
    · cases hi : is a.chan c with
      | none => rw [hi] at he; cases he
      | some p =>
        rw [hi] at he
        cases he
        exact ⟨hma, Or.inr ⟨c, hc, rfl, hi⟩⟩
    · by_cases hcl : |b.xpos - a.xpos| < thr
      · rw [if_pos hcl] at he
        cases hi : is a.chan b.chan with
        | none => rw [hi] at he; cases he
        | some p =>
          rw [hi] at he
          cases he
          exact ⟨hma, Or.inl ⟨hmb, hcl, hi⟩⟩
      · rw [if_neg hcl] at he; cases he
  · rintro ⟨hma, ⟨hmb, hcl, hi⟩ | ⟨c, hc, hb', hi⟩⟩
    · exact ⟨d.a, hma, Or.inr ⟨d.b, hmb, by rw [if_pos hcl, hi]; rfl⟩⟩
    · refine ⟨d.a, hma, Or.inl ⟨c, hc, ?_⟩⟩
      rw [hi, ← hb']; rfl

/-- C45: no doublet is returned twice if no hit and no bad channel is given twice (and hits are not null). -/
theorem C45_nodup (thr : ℚ) (hthr : 0 < thr) (is : Nat → Nat → Option Pt) (as bs : List HC) (bbads : List Nat) (ha : DriftSorted as)
    (hb : DriftSorted bs) (na : as.Nodup) (nb : bs.Nodup) (nbad : bbads.Nodup) (hnn : ∀ b ∈ bs, b.hit ≠ 0) :
    (doubletHelper thr is as bs bbads).Nodup := by
  rw [C45_exhaustive thr hthr is as bs bbads ha hb]
  unfold specDoublets
  rw [List.nodup_flatMap]
  have memA : ∀ a d, d ∈ specOne thr is bs bbads a → d.a = a := by
    intro a d hd
    unfold specOne at hd
    simp only [List.mem_append, List.mem_filterMap] at hd
    rcases hd with ⟨c, _, he⟩ | ⟨b, _, he⟩
    · cases hi : is a.chan c with
      | none => rw [hi] at he; cases he
      | some p => rw [hi] at he; cases he; rfl
    · by_cases hcl : |b.xpos - a.xpos| < thr
      · rw [if_pos hcl] at he
        cases hi : is a.chan b.chan with
        | none => rw [hi] at he; cases he
        | some p => rw [hi] at he; cases he; rfl
      · rw [if_neg hcl] at he; cases he
  refine ⟨fun a _ => ?_, ?_⟩
  · unfold specOne
    refine List.Nodup.append ?_ ?_ ?_
    · refine List.Nodup.filterMap (fun c c' d h1 h2 => ?_) nbad
      simp only [Option.mem_def, Option.map_eq_some_iff] at h1 h2
      obtain ⟨p, _, rfl⟩ := h1
      obtain ⟨q, _, h⟩ := h2
      injection h with _ h _
      have := congrArg HC.chan h
      exact this.symm
    · refine List.Nodup.filterMap (fun b b' d h1 h2 => ?_) nb
      simp only [Option.mem_def] at h1 h2
      by_cases c1 : |b.xpos - a.xpos| < thr
      · by_cases c2 : |b'.xpos - a.xpos| < thr
        · rw [if_pos c1, Option.map_eq_some_iff] at h1
          rw [if_pos c2, Option.map_eq_some_iff] at h2
          obtain ⟨p, _, rfl⟩ := h1
          obtain ⟨q, _, h⟩ := h2
          injection h with _ h _
          exact h.symm
        · rw [if_neg c2] at h2; cases h2
      · rw [if_neg c1] at h1; cases h1
    · intro d h1 h2
      simp only [List.mem_filterMap, Option.map_eq_some_iff] at h1 h2
      obtain ⟨c, _, p, _, rfl⟩ := h1
      obtain ⟨b, hb', he⟩ := h2
      by_cases c1 : |b.xpos - a.xpos| < thr
      · rw [if_pos c1, Option.map_eq_some_iff] at he
        obtain ⟨q, _, h⟩ := he
        injection h with _ h _
        exact hnn b hb' (by rw [h]; rfl)
      · rw [if_neg c1] at he; cases he
  · refine na.imp ?_
    intro x y hxy d h1 h2
    exact hxy ((memA x d h1).symm.trans (memA y d h2))

/-- an example for C45: three sorted hits, three sorted hits, one bad channel; every pair crosses -/
def exIs : Nat → Nat → Option Pt := fun a b => some ((a : ℚ), (b : ℚ))
def exA : List HC := [⟨1, 11, 0⟩, ⟨2, 12, 1⟩, ⟨3, 13, 5⟩]
def exB : List HC := [⟨7, 21, 1/2⟩, ⟨8, 22, 3/2⟩, ⟨9, 23, 9⟩]

example : DriftSorted exA ∧ DriftSorted exB := by
  constructor
  · unfold DriftSorted exA; norm_num
  · unfold DriftSorted exB; norm_num
example : (doubletHelper 1 exIs exA exB [99]).map (fun d => (d.a.hit, d.b.hit)) = [(11, 0), (11, 21), (12, 0), (12, 21), (12, 22), (13, 0)] := by
  decide +kernel

/-- C45 needs a positive threshold: with threshold 0 two hits at the same position are reported although their distance is not
below the threshold. -/
theorem C45_zero_threshold : (doubletHelper 0 exIs [⟨1, 11, 3⟩] [⟨7, 21, 3⟩] []).length = 1 := by decide +kernel

/-- the crossing point of two channels in a TPC is that of the first crossing pair of their wires in this TPC -/
theorem C45_isect (g : Geo) (tpc a b : Nat) : isect g tpc a b =
    ((g.wires a).filter (fun w => decide (g.wireTPC w = tpc))).findSome? (fun aw =>
      ((g.wires b).filter (fun w => decide (g.wireTPC w = tpc))).findSome? (g.inter aw)) := by
  have inner : ∀ aw l, isectInner g tpc aw l = (l.filter (fun w => decide (g.wireTPC w = tpc))).findSome? (g.inter aw) := by
    intro aw l
    induction l with
    | nil => rfl
    | cons w l ih =>
      unfold isectInner
      by_cases h : g.wireTPC w = tpc
      · rw [if_neg (by simpa using h), List.filter_cons, if_pos (by simpa using h), List.findSome?_cons]
        cases g.inter aw w with
        | some p => rfl
        | none => exact ih
      · rw [if_pos h, List.filter_cons, if_neg (by simpa using h)]; exact ih
  unfold isect
  generalize g.wires a = l
  induction l with
  | nil => rfl
  | cons w l ih =>
    unfold isectOuter
    by_cases h : g.wireTPC w = tpc
    · rw [if_neg (by simpa using h), List.filter_cons, if_pos (by simpa using h), List.findSome?_cons, inner]
      cases ((g.wires b).filter (fun w => decide (g.wireTPC w = tpc))).findSome? (g.inter w) with
      | some p => rfl
      | none => exact ih
    · rw [if_pos h, List.filter_cons, if_neg (by simpa using h)]; exact ih

/-! ## C46: hit level specification -/

/-- the entries of one view in one TPC: good hits and bad channels -/
def items (hits : List HC) (bads : List Nat) : List HC := hits ++ bads.map HC.bad

/-- crossing point of the X entry with an entry of another view: the code asks with the bad X channel second -/
def crossPt (is : Nat → Nat → Option Pt) (x b : HC) : Option Pt := if x.hit = 0 then is b.chan x.chan else is x.chan b.chan

/-- drift compatibility, only for two good hits -/
def driftOK (thr : ℚ) (a b : HC) : Prop := a.hit ≠ 0 → b.hit ≠ 0 → |b.xpos - a.xpos| < thr

/-- the Euclidean distance is below the threshold -/
def near (t : ℚ) (p q : Pt) : Prop := 0 < t ∧ (p.1 - q.1) ^ 2 + (p.2 - q.2) ^ 2 < t ^ 2

/-- mean drift coordinate of the good hits -/
def meanX (l : List HC) : ℚ := ((l.filter (fun h => decide (h.hit ≠ 0))).map (·.xpos)).sum / (l.filter (fun h => decide (h.hit ≠ 0))).length

/-- the triplet `T` is justified by the entries `x`, `u`, `v` -/
structure Justified (thr t : ℚ) (is : Nat → Nat → Option Pt) (x u v : HC) (T : Trip) : Prop where
  oneBad : ¬ (x.hit = 0 ∧ u.hit = 0) ∧ ¬ (x.hit = 0 ∧ v.hit = 0) ∧ ¬ (u.hit = 0 ∧ v.hit = 0)
  drift : driftOK thr x u ∧ driftOK thr x v ∧ driftOK thr u v
  cross : ∃ p q r, crossPt is x u = some p ∧ crossPt is x v = some q ∧ is u.chan v.chan = some r ∧ near t p q ∧ near t p r ∧ near t q r ∧
    T.pt = ((p.1 + q.1 + r.1) / 3, (p.2 + q.2 + r.2) / 3)
  ids : T.x = x.hit ∧ T.u = u.hit ∧ T.v = v.hit
  pos : T.px = meanX [x, u, v]

theorem mem_items (hits : List HC) (bads : List Nat) (h : HC) : h ∈ items hits bads ↔ h ∈ hits ∨ ∃ c ∈ bads, h = HC.bad c := by
  unfold items
  rw [List.mem_append, List.mem_map]
  constructor
  · rintro (h1 | ⟨c, hc, rfl⟩)
    · exact Or.inl h1
    · exact Or.inr ⟨c, hc, rfl⟩
  · rintro (h1 | ⟨c, hc, rfl⟩)
    · exact Or.inl h1
    · exact Or.inr ⟨c, hc, rfl⟩

theorem mem_doublets {thr : ℚ} (hthr : 0 < thr) (is : Nat → Nat → Option Pt) (xs us : List HC) (xb ub : List Nat) (hx : DriftSorted xs)
    (hu : DriftSorted us) (nx : ∀ h ∈ xs, h.hit ≠ 0) (nu : ∀ h ∈ us, h.hit ≠ 0) (d : Doublet) :
    d ∈ doublets thr is xs us xb ub ↔ d.a ∈ items xs xb ∧ d.b ∈ items us ub ∧ ¬ (d.a.hit = 0 ∧ d.b.hit = 0) ∧ driftOK thr d.a d.b ∧
      crossPt is d.a d.b = some d.pt := by
  unfold doublets
  rw [List.mem_append, C45_members thr hthr is xs us ub hx hu, List.mem_map, mem_items, mem_items]
  constructor
  · rintro (⟨ha, ⟨hb, hc, hi⟩ | ⟨c, hc, hb, hi⟩⟩ | ⟨e, he, rfl⟩)
    · exact ⟨Or.inl ha, Or.inl hb, fun h => nx _ ha h.1, fun _ _ => hc, by unfold crossPt; rw [if_neg (nx _ ha)]; exact hi⟩
    · refine ⟨Or.inl ha, Or.inr ⟨c, hc, hb⟩, fun h => nx _ ha h.1, fun _ h2 => absurd (by rw [hb]; rfl) h2, ?_⟩
      unfold crossPt; rw [if_neg (nx _ ha), hb]; exact hi
    · rw [C45_members thr hthr is us [] xb hu (by simp [DriftSorted])] at he
      obtain ⟨ha, ⟨hb, _⟩ | ⟨c, hc, hb, hi⟩⟩ := he
      · simp at hb
      · refine ⟨Or.inr ⟨c, hc, hb⟩, Or.inl ha, fun h => nu _ ha h.2, fun h1 _ => absurd (by show e.b.hit = 0; rw [hb]; rfl) h1, ?_⟩
        show crossPt is e.b e.a = some e.pt
        unfold crossPt
        rw [if_pos (by rw [hb]; rfl), hb]; exact hi
  · rintro ⟨ha | ⟨c, hc, ha⟩, hb, hn, hd, hp⟩
    · left
      refine ⟨ha, ?_⟩
      unfold crossPt at hp
      rw [if_neg (nx _ ha)] at hp
      rcases hb with hb | ⟨c, hc, hb⟩
      · exact Or.inl ⟨hb, hd (nx _ ha) (nu _ hb), hp⟩
      · refine Or.inr ⟨c, hc, hb, ?_⟩
        rw [hb] at hp; exact hp
    · right
      have h0 : d.a.hit = 0 := by rw [ha]; rfl
      rcases hb with hb | ⟨c', hc', hb⟩
      · refine ⟨⟨d.b, d.a, d.pt⟩, ?_, rfl⟩
        rw [C45_members thr hthr is us [] xb hu (by simp [DriftSorted])]
        refine ⟨hb, Or.inr ⟨c, hc, ha, ?_⟩⟩
        unfold crossPt at hp
        rw [if_pos h0, ha] at hp
        exact hp
      · exact absurd ⟨h0, by rw [hb]; rfl⟩ hn

theorem mkTrip_px (xu xv : Doublet) (uv : Pt) : (mkTrip xu xv uv).px = meanX [xu.a, xu.b, xv.b] := by
  unfold mkTrip accX meanX
  by_cases h1 : xu.a.hit = 0 <;> by_cases h2 : xu.b.hit = 0 <;> by_cases h3 : xv.b.hit = 0 <;> simp [h1, h2, h3] <;> ring

theorem closeSpace_iff (t : ℚ) (p q : Pt) : closeSpace t p q = true ↔ near t p q := by
  unfold closeSpace near; simp

theorem abs_comm_lt (a b thr : ℚ) : |a - b| < thr ↔ |b - a| < thr := by rw [abs_sub_comm]

theorem preOK_iff (thr : ℚ) (xu xv : Doublet) : preOK thr xu xv = true ↔
    ¬ (xu.a.hit = 0 ∧ xu.b.hit = 0) ∧ ¬ (xu.a.hit = 0 ∧ xv.b.hit = 0) ∧ ¬ (xu.b.hit = 0 ∧ xv.b.hit = 0) ∧ driftOK thr xu.b xv.b := by
  unfold preOK driftOK closeDrift
  rw [show (|xv.b.xpos - xu.b.xpos| < thr) = (|xu.b.xpos - xv.b.xpos| < thr) by rw [abs_sub_comm]]
  by_cases h1 : xu.a.hit = 0 <;> by_cases h2 : xu.b.hit = 0 <;> by_cases h3 : xv.b.hit = 0 <;> simp [h1, h2, h3]

theorem combo_iff (thr t : ℚ) (is : Nat → Nat → Option Pt) (xu xv : Doublet) (T : Trip) : combo thr t is xu xv = some T ↔
    preOK thr xu xv = true ∧ ∃ uv, is xu.b.chan xv.b.chan = some uv ∧ close3 t xu xv uv = true ∧ T = mkTrip xu xv uv := by
  unfold combo
  by_cases h : preOK thr xu xv = true
  · rw [if_pos h]
    cases hi : is xu.b.chan xv.b.chan with
    | none => simp
    | some uv =>
      by_cases hc : close3 t xu xv uv = true
      · simp only [hc, if_true, h, true_and]
        constructor
        · intro he; cases he; exact ⟨uv, rfl, hc, rfl⟩
        · rintro ⟨uv', he, _, rfl⟩; cases he; rfl
      · simp [hc]
  · rw [if_neg h]; simp [h]

/-- the unlimited and the limited search in one TPC -/
theorem tripletsTPC_eq (srt : Sorter lessX) (max : Int) (thr t : ℚ) (is : Nat → Nat → Option Pt) (xs us vs : List HC) (xb ub vb : List Nat) :
    tripletsTPC srt max thr t is xs us vs xb ub vb = cap max 0 (specTrips thr t is (srt.run (doublets thr is xs us xb ub))
      (srt.run (doublets thr is xs vs xb vb))) := by
  unfold tripletsTPC
  rw [joinLoop_spec max thr t is _ (srt.sorted _) _ (srt.sorted _) ⟨0, [], []⟩ (cacheOK_nil is)]
  simp [specTrips]

theorem mem_tripletsTPC (srt : Sorter lessX) {max : Int} (hmax : max ≤ 0) {thr : ℚ} (hthr : 0 < thr) (t : ℚ) (is : Nat → Nat → Option Pt)
    (xs us vs : List HC) (xb ub vb : List Nat) (sx : DriftSorted xs) (su : DriftSorted us) (sv : DriftSorted vs)
    (nx : ∀ h ∈ xs, h.hit ≠ 0) (nu : ∀ h ∈ us, h.hit ≠ 0) (nv : ∀ h ∈ vs, h.hit ≠ 0) (inj : ∀ h ∈ xs, ∀ k ∈ xs, h.hit = k.hit → h = k) (T : Trip) :
    T ∈ tripletsTPC srt max thr t is xs us vs xb ub vb ↔
      ∃ x ∈ items xs xb, ∃ u ∈ items us ub, ∃ v ∈ items vs vb, Justified thr t is x u v T := by
  rw [tripletsTPC_eq]
  unfold cap
  rw [if_neg (by omega)]
  unfold specTrips comboOf
  simp only [List.mem_flatMap, List.mem_filterMap, (srt.perm _).mem_iff]
  have injI : ∀ h ∈ items xs xb, ∀ k ∈ items xs xb, h.hit = k.hit → (h.hit = 0 → h.chan = k.chan) → h = k := by
    intro h hh k hk e1 e2
    rw [mem_items] at hh hk
    rcases hh with hh | ⟨c, _, rfl⟩
    · rcases hk with hk | ⟨c', _, rfl⟩
      · exact inj h hh k hk e1
      · exact absurd e1 (nx h hh)
    · rcases hk with hk | ⟨c', _, rfl⟩
      · exact absurd e1.symm (nx k hk)
      · rw [show c = c' from e2 rfl]
  constructor
  · rintro ⟨xu, hxu, xv, hxv, he⟩
    rw [mem_doublets hthr is _ _ _ _ sx su nx nu] at hxu
    rw [mem_doublets hthr is _ _ _ _ sx sv nx nv] at hxv
    by_cases hs : sameX xv xu = true
    · rw [if_pos hs, combo_iff] at he
      obtain ⟨hp, uv, hi, hc, rfl⟩ := he
      obtain ⟨a1, a2, a3, a4, a5⟩ := hxu
      obtain ⟨b1, b2, b3, b4, b5⟩ := hxv
      have hxx : xv.a = xu.a := by
        rw [sameX_iff] at hs
        unfold keyX at hs
        rw [Prod.mk.injEq] at hs
        refine injI _ b1 _ a1 hs.1 (fun h0 => ?_)
        have := hs.2
        rwa [if_pos h0, if_pos (hs.1 ▸ h0)] at this
      rw [preOK_iff] at hp
      unfold close3 at hc
      simp only [Bool.and_eq_true, closeSpace_iff] at hc
      rw [hxx] at b4 b5
      exact ⟨xu.a, a1, xu.b, a2, xv.b, b2, ⟨⟨hp.1, hp.2.1, hp.2.2.1⟩, ⟨a4, b4, hp.2.2.2⟩, ⟨xu.pt, xv.pt, uv, a5, b5, hi, hc.1.1, hc.1.2, hc.2, rfl⟩,
        ⟨rfl, rfl, rfl⟩, mkTrip_px xu xv uv⟩⟩
    · rw [if_neg hs] at he; cases he
  · rintro ⟨x, hx, u, hu, v, hv, ⟨⟨o1, o2, o3⟩, ⟨d1, d2, d3⟩, ⟨p, q, r, e1, e2, e3, c1, c2, c3, ep⟩, ⟨i1, i2, i3⟩, hpos⟩⟩
    refine ⟨⟨x, u, p⟩, ?_, ⟨x, v, q⟩, ?_, ?_⟩
    · rw [mem_doublets hthr is _ _ _ _ sx su nx nu]; exact ⟨hx, hu, o1, d1, e1⟩
    · rw [mem_doublets hthr is _ _ _ _ sx sv nx nv]; exact ⟨hx, hv, o2, d2, e2⟩
    · rw [if_pos (by rw [sameX_iff]; rfl), combo_iff, preOK_iff]
      refine ⟨⟨o1, o2, o3, d3⟩, r, e3, ?_, ?_⟩
      · unfold close3
        simp only [Bool.and_eq_true, closeSpace_iff]
        exact ⟨⟨c1, c2⟩, c3⟩
      · have hp' := mkTrip_px ⟨x, u, p⟩ ⟨x, v, q⟩ r
        cases T
        simp only [mkTrip] at hp' ⊢
        simp only at i1 i2 i3 hpos ep
        rw [hpos, ep, i1, i2, i3]
        rw [← hp']

/-! ## The maps built by the constructor -/

structure MapOK {α : Type} (m : TMap α) : Prop where
  keys : m.Pairwise (fun e f => e.1 < f.1)
  full : ∀ e ∈ m, e.2 ≠ []

theorem push_keys {α : Type} (k : Nat) (v : α) (m : TMap α) (e : Nat × List α) (h : e ∈ push k v m) : e.1 = k ∨ ∃ f ∈ m, f.1 = e.1 := by
  induction m with
  | nil => simp only [push, List.mem_singleton] at h; subst h; exact Or.inl rfl
  | cons f m ih =>
    obtain ⟨k', l⟩ := f
    unfold push at h
    by_cases h1 : k < k'
    · rw [if_pos h1] at h
      rcases List.mem_cons.1 h with rfl | h
      · exact Or.inl rfl
      · exact Or.inr ⟨e, h, rfl⟩
    · rw [if_neg h1] at h
      by_cases h2 : k = k'
      · rw [if_pos h2] at h
        rcases List.mem_cons.1 h with rfl | h
        · exact Or.inl h2.symm
        · exact Or.inr ⟨e, by simp [h], rfl⟩
      · rw [if_neg h2] at h
        rcases List.mem_cons.1 h with rfl | h
        · exact Or.inr ⟨(k', l), by simp, rfl⟩
        · rcases ih h with h | ⟨f, hf, he⟩
          · exact Or.inl h
          · exact Or.inr ⟨f, by simp [hf], he⟩

theorem push_ok {α : Type} (k : Nat) (v : α) (m : TMap α) (h : MapOK m) : MapOK (push k v m) := by
  induction m with
  | nil => exact ⟨by simp [push], by simp [push]⟩
  | cons f m ih =>
    obtain ⟨k', l⟩ := f
    have hk := List.pairwise_cons.1 h.keys
    have hm : MapOK m := ⟨hk.2, fun e he => h.full e (by simp [he])⟩
    unfold push
    by_cases h1 : k < k'
    · rw [if_pos h1]
      refine ⟨List.pairwise_cons.2 ⟨fun e he => ?_, h.keys⟩, fun e he => ?_⟩
      · rcases List.mem_cons.1 he with rfl | he
        · exact h1
        · exact lt_trans h1 (hk.1 e he)
      · rcases List.mem_cons.1 he with rfl | he
        · simp
        · exact h.full e he
    · rw [if_neg h1]
      by_cases h2 : k = k'
      · rw [if_pos h2]
        refine ⟨List.pairwise_cons.2 ⟨fun e he => hk.1 e he, hk.2⟩, fun e he => ?_⟩
        rcases List.mem_cons.1 he with rfl | he
        · simp
        · exact h.full e (by simp [he])
      · rw [if_neg h2]
        have hi := ih hm
        refine ⟨List.pairwise_cons.2 ⟨fun e he => ?_, hi.keys⟩, fun e he => ?_⟩
        · rcases push_keys k v m e he with h3 | ⟨f, hf, h3⟩
          · show k' < e.1; omega
          · rw [← h3]; exact hk.1 f hf
        · rcases List.mem_cons.1 he with rfl | he
          · exact h.full (k', l) (by simp)
          · exact hi.full e he

theorem lookup_above {α : Type} (m : TMap α) (k : Nat) (h : ∀ e ∈ m, k < e.1) : m.lookup k = none := by
  rw [List.lookup_eq_none_iff]
  intro e he
  have := h e he
  simp; omega

theorem get_push {α : Type} (k : Nat) (v : α) (m : TMap α) (h : MapOK m) (k' : Nat) :
    get (push k v m) k' = if k' = k then get m k' ++ [v] else get m k' := by
  induction m with
  | nil =>
    unfold push get
    rw [List.lookup_cons]
    by_cases hk : k' = k
    · subst hk; simp
    · rw [show (k' == k) = false by simpa using hk, if_neg hk]
  | cons f m ih =>
    obtain ⟨j, l⟩ := f
    have hk := List.pairwise_cons.1 h.keys
    have hm : MapOK m := ⟨hk.2, fun e he => h.full e (by simp [he])⟩
    unfold push
    by_cases h1 : k < j
    · rw [if_pos h1]
      by_cases hkk : k' = k
      · subst hkk
        have : ((j, l) :: m).lookup k' = none := lookup_above _ _ (fun e he => by
          rcases List.mem_cons.1 he with rfl | he
          · exact h1
          · exact lt_trans h1 (hk.1 e he))
        rw [if_pos rfl]
        unfold get
        rw [List.lookup_cons, this]; simp
      · rw [if_neg hkk]
        unfold get
        rw [List.lookup_cons, show (k' == k) = false by simpa using hkk]
    · rw [if_neg h1]
      by_cases h2 : k = j
      · subst h2
        rw [if_pos rfl]
        by_cases hkk : k' = k
        · subst hkk; simp [get, List.lookup_cons]
        · rw [if_neg hkk]
          unfold get
          rw [List.lookup_cons, List.lookup_cons, show (k' == k) = false by simpa using hkk]
      · rw [if_neg h2]
        have := ih hm
        unfold get at this ⊢
        by_cases hkj : k' = j
        · subst hkj
          have : ¬ k' = k := fun h => h2 h.symm
          simp [List.lookup_cons, this]
        · simp only [List.lookup_cons, show (k' == j) = false by simpa using hkj]
          exact this

theorem mem_get {α : Type} (m : TMap α) (h : MapOK m) (e : Nat × List α) (he : e ∈ m) : get m e.1 = e.2 := by
  induction m with
  | nil => simp at he
  | cons f m ih =>
    have hk := List.pairwise_cons.1 h.keys
    unfold get
    rcases List.mem_cons.1 he with rfl | he'
    · obtain ⟨k, l⟩ := e
      simp
    · have hlt := hk.1 e he'
      obtain ⟨k, l⟩ := f
      rw [List.lookup_cons, show (e.1 == k) = false by
        have : e.1 ≠ k := by intro h; rw [h] at hlt; exact lt_irrefl _ hlt
        simpa using this]
      exact ih ⟨hk.2, fun e he => h.full e (by simp [he])⟩ he'

theorem get_mem {α : Type} (m : TMap α) (k : Nat) (h : get m k ≠ []) : ∃ e ∈ m, e.1 = k := by
  unfold get at h
  cases hl : m.lookup k with
  | none => rw [hl] at h; simp at h
  | some l =>
    rw [List.lookup_eq_some_iff] at hl
    obtain ⟨l1, l2, rfl, _⟩ := hl
    exact ⟨(k, l), by simp, rfl⟩

/-- both fill loops: for each item, for each of its TPCs, push a value -/
def fillGen {α β : Type} (tp : β → List Nat) (f : β → Nat → α) (l : List β) (m : TMap α) : TMap α :=
  l.foldl (fun m h => (tp h).foldl (fun m t => push t (f h t) m) m) m

theorem fillInner_spec {α : Type} (f : Nat → α) (ts : List Nat) : ∀ m : TMap α, MapOK m →
    MapOK (ts.foldl (fun m t => push t (f t) m) m) ∧
    ∀ k, get (ts.foldl (fun m t => push t (f t) m) m) k = get m k ++ (ts.filter (fun t => decide (t = k))).map f := by
  induction ts with
  | nil => intro m h; exact ⟨h, fun k => by simp⟩
  | cons t ts ih =>
    intro m h
    obtain ⟨i1, i2⟩ := ih (push t (f t) m) (push_ok t (f t) m h)
    refine ⟨i1, fun k => ?_⟩
    rw [List.foldl_cons, i2, get_push t (f t) m h]
    by_cases hk : k = t
    · subst hk; simp
    · have : ¬ t = k := fun e => hk e.symm
      simp [hk, this]

theorem fillGen_spec {α β : Type} (tp : β → List Nat) (f : β → Nat → α) (l : List β) : ∀ m : TMap α, MapOK m →
    MapOK (fillGen tp f l m) ∧
    ∀ k, get (fillGen tp f l m) k = get m k ++ l.flatMap (fun h => ((tp h).filter (fun t => decide (t = k))).map (f h)) := by
  induction l with
  | nil => intro m h; exact ⟨h, fun k => by simp [fillGen]⟩
  | cons h l ih =>
    intro m hm
    obtain ⟨j1, j2⟩ := fillInner_spec (f h) (tp h) m hm
    obtain ⟨i1, i2⟩ := ih _ j1
    refine ⟨i1, fun k => ?_⟩
    show get (fillGen tp f l _) k = _
    rw [i2, j2]
    simp

theorem mem_fillGen {α β : Type} (tp : β → List Nat) (f : β → Nat → α) (l : List β) (k : Nat) (a : α) :
    a ∈ get (fillGen tp f l []) k ↔ ∃ h ∈ l, k ∈ tp h ∧ a = f h k := by
  rw [(fillGen_spec tp f l [] ⟨by simp, by simp⟩).2 k]
  simp only [get, List.lookup_nil, Option.getD_none, List.nil_append, List.mem_flatMap, List.mem_map, List.mem_filter, decide_eq_true_eq]
  constructor
  · rintro ⟨h, hh, t, ⟨ht, rfl⟩, rfl⟩; exact ⟨h, hh, ht, rfl⟩
  · rintro ⟨h, hh, ht, rfl⟩; exact ⟨h, hh, k, ⟨ht, rfl⟩, rfl⟩

theorem fillHits_gen (g : Geo) (off : ℚ) (mem : Nat → Hit) (hits : List Nat) :
    fillHits g off mem hits = fillGen (fun h => g.tpcs (mem h).chan) (fun h t => entry g off mem h t) hits [] := rfl

theorem fillBad_gen (g : Geo) (bads : List Nat) : fillBadMap g bads = fillGen g.tpcs (fun c _ => c) bads [] := rfl

theorem get_map {α : Type} (f : List α → List α) (hf : f [] = []) (m : TMap α) (k : Nat) : get (m.map (fun e => (e.1, f e.2))) k = f (get m k) := by
  unfold get
  induction m with
  | nil => simp [hf]
  | cons e m ih =>
    obtain ⟨j, l⟩ := e
    simp only [List.map_cons, List.lookup_cons]
    by_cases h : k = j
    · simp [h]
    · simp only [show (k == j) = false by simpa using h]
      exact ih

theorem run_nil {α : Type} {less : α → α → Bool} (s : Sorter less) : s.run [] = [] := List.perm_nil.1 (s.perm [])

theorem get_hitMap (sh : Sorter lessHC) (g : Geo) (off : ℚ) (mem : Nat → Hit) (hits : List Nat) (k : Nat) :
    get (fillHitMap sh g off mem hits) k = sh.run (get (fillHits g off mem hits) k) :=
  get_map sh.run (run_nil sh) _ k

theorem hitMap_props (sh : Sorter lessHC) (g : Geo) (off : ℚ) (mem : Nat → Hit) (hits : List Nat) (h0 : 0 ∉ hits) (k : Nat) :
    DriftSorted (get (fillHitMap sh g off mem hits) k) ∧
    (∀ e, e ∈ get (fillHitMap sh g off mem hits) k ↔ ∃ h ∈ hits, k ∈ g.tpcs (mem h).chan ∧ e = entry g off mem h k) ∧
    (∀ e ∈ get (fillHitMap sh g off mem hits) k, e.hit ≠ 0) ∧
    (∀ e ∈ get (fillHitMap sh g off mem hits) k, ∀ f ∈ get (fillHitMap sh g off mem hits) k, e.hit = f.hit → e = f) := by
  have hm : ∀ e, e ∈ get (fillHitMap sh g off mem hits) k ↔ ∃ h ∈ hits, k ∈ g.tpcs (mem h).chan ∧ e = entry g off mem h k := by
    intro e
    rw [get_hitMap, (sh.perm _).mem_iff, fillHits_gen, mem_fillGen]
  refine ⟨?_, hm, fun e he => ?_, fun e he f hf hef => ?_⟩
  · rw [get_hitMap]
    refine (sh.sorted _).imp (fun {a b} h => ?_)
    unfold lessHC at h
    simpa using h
  · rw [hm] at he
    obtain ⟨h, hh, _, rfl⟩ := he
    intro hz
    have : h = 0 := hz
    exact h0 (this ▸ hh)
  · rw [hm] at he hf
    obtain ⟨h, hh, _, rfl⟩ := he
    obtain ⟨h', hh', _, rfl⟩ := hf
    have : h = h' := hef
    rw [this]

/-- entries of the views in a TPC -/
def viewItems (g : Geo) (off : ℚ) (mem : Nat → Hit) (hits bads : List Nat) (tpc : Nat) : List HC :=
  (hits.filter (fun h => decide (tpc ∈ g.tpcs (mem h).chan))).map (fun h => entry g off mem h tpc) ++
  (bads.filter (fun c => decide (tpc ∈ g.tpcs c))).map HC.bad

theorem viewItems_iff (sh : Sorter lessHC) (g : Geo) (off : ℚ) (mem : Nat → Hit) (hits bads : List Nat) (h0 : 0 ∉ hits) (tpc : Nat) (e : HC) :
    e ∈ items (get (fillHitMap sh g off mem hits) tpc) (get (fillBadMap g bads) tpc) ↔ e ∈ viewItems g off mem hits bads tpc := by
  rw [mem_items, (hitMap_props sh g off mem hits h0 tpc).2.1]
  unfold viewItems
  simp only [List.mem_append, List.mem_map, List.mem_filter, decide_eq_true_eq, fillBad_gen, mem_fillGen]
  constructor
  · rintro (⟨h, hh, ht, rfl⟩ | ⟨c, ⟨c', hc, ht, rfl⟩, rfl⟩)
    · exact Or.inl ⟨h, ⟨hh, ht⟩, rfl⟩
    · exact Or.inr ⟨c, ⟨hc, ht⟩, rfl⟩
  · rintro (⟨h, ⟨hh, ht⟩, rfl⟩ | ⟨c, ⟨hc, ht⟩, rfl⟩)
    · exact Or.inl ⟨h, hh, ht, rfl⟩
    · exact Or.inr ⟨c, ⟨c, hc, ht, rfl⟩, rfl⟩

/-- hits are real objects and the drift threshold is positive -/
structure Input.Valid (i : Input) : Prop where
  x0 : 0 ∉ i.xhits
  u0 : 0 ∉ i.uhits
  v0 : 0 ∉ i.vhits
  thr : 0 < i.distThreshDrift

/-- the TPCs in which there is an X hit -/
def Input.hasX (i : Input) (tpc : Nat) : Prop := ∃ h ∈ i.xhits, tpc ∈ i.geo.tpcs (i.mem h).chan

/-- `T` is the triplet of some entries of the three views in this TPC -/
def Input.Justified (i : Input) (tpc : Nat) (T : Trip) : Prop :=
  ∃ x ∈ viewItems i.geo i.xhitOffset i.mem i.xhits i.xbad tpc, ∃ u ∈ viewItems i.geo i.xhitOffset i.mem i.uhits i.ubad tpc,
    ∃ v ∈ viewItems i.geo i.xhitOffset i.mem i.vhits i.vbad tpc,
      Triplet.Justified i.distThreshDrift i.distThresh (isect i.geo tpc) x u v T

/-- C46: without limit, `Triplets` returns exactly the justified triplets of the TPCs in which there is an X hit. -/
theorem C46_members (sh : Sorter lessHC) (sd : Sorter lessX) (i : Input) (hi : i.Valid) (hmax : i.maxTriplets ≤ 0) (T : Trip) :
    T ∈ triplets sh sd i ↔ ∃ tpc, i.hasX tpc ∧ i.Justified tpc T := by
  have hok : MapOK (fillHitMap sh i.geo i.xhitOffset i.mem i.xhits) := by
    have h := (fillGen_spec (fun h => i.geo.tpcs (i.mem h).chan) (fun h t => entry i.geo i.xhitOffset i.mem h t) i.xhits []
      ⟨by simp, by simp⟩).1
    refine ⟨?_, ?_⟩
    · unfold fillHitMap; rw [List.pairwise_map]; exact h.keys
    · intro e he
      unfold fillHitMap at he
      rw [List.mem_map] at he
      obtain ⟨f, hf, rfl⟩ := he
      intro hnil
      have hp := sh.perm f.2
      simp only at hnil
      rw [hnil] at hp
      exact h.full f hf (List.nil_perm.1 hp)
  have core : ∀ tpc, T ∈ tripletsTPC sd i.maxTriplets i.distThreshDrift i.distThresh (isect i.geo tpc)
      (get (fillHitMap sh i.geo i.xhitOffset i.mem i.xhits) tpc)
      (get (fillHitMap sh i.geo i.xhitOffset i.mem i.uhits) tpc) (get (fillHitMap sh i.geo i.xhitOffset i.mem i.vhits) tpc)
      (get (fillBadMap i.geo i.xbad) tpc) (get (fillBadMap i.geo i.ubad) tpc) (get (fillBadMap i.geo i.vbad) tpc) ↔ i.Justified tpc T := by
    intro tpc
    obtain ⟨x1, x2, x3, x4⟩ := hitMap_props sh i.geo i.xhitOffset i.mem i.xhits hi.x0 tpc
    obtain ⟨u1, u2, u3, u4⟩ := hitMap_props sh i.geo i.xhitOffset i.mem i.uhits hi.u0 tpc
    obtain ⟨v1, v2, v3, v4⟩ := hitMap_props sh i.geo i.xhitOffset i.mem i.vhits hi.v0 tpc
    rw [mem_tripletsTPC sd hmax hi.thr _ _ _ _ _ _ _ _ x1 u1 v1 x3 u3 v3 x4]
    unfold Input.Justified
    simp only [viewItems_iff sh i.geo i.xhitOffset i.mem i.xhits i.xbad hi.x0, viewItems_iff sh i.geo i.xhitOffset i.mem i.uhits i.ubad hi.u0,
      viewItems_iff sh i.geo i.xhitOffset i.mem i.vhits i.vbad hi.v0]
  unfold triplets
  rw [List.mem_flatMap]
  constructor
  · rintro ⟨e, he, hT⟩
    have hg := mem_get _ hok e he
    rw [← hg] at hT
    refine ⟨e.1, ?_, (core e.1).1 hT⟩
    obtain ⟨y, hy⟩ := List.exists_mem_of_ne_nil _ (hok.full e he)
    rw [← hg, (hitMap_props sh i.geo i.xhitOffset i.mem i.xhits hi.x0 e.1).2.1] at hy
    obtain ⟨h, hh, ht, _⟩ := hy
    exact ⟨h, hh, ht⟩
  · rintro ⟨tpc, ⟨h, hh, ht⟩, hJ⟩
    have hne : get (fillHitMap sh i.geo i.xhitOffset i.mem i.xhits) tpc ≠ [] := by
      apply List.ne_nil_of_mem
      rw [(hitMap_props sh i.geo i.xhitOffset i.mem i.xhits hi.x0 tpc).2.1]
      exact ⟨h, hh, ht, rfl⟩
    obtain ⟨e, he, rfl⟩ := get_mem _ _ hne
    refine ⟨e, he, ?_⟩
    rw [← mem_get _ hok e he]
    exact (core e.1).2 hJ

/-- C46 with multiplicities: without limit the triplets of a TPC are, up to order, one for each matching pair of an XU and an XV
doublet. -/
theorem C46_multiset (sd : Sorter lessX) (max : Int) (hmax : max ≤ 0) (thr t : ℚ) (is : Nat → Nat → Option Pt) (xs us vs : List HC)
    (xb ub vb : List Nat) : (tripletsTPC sd max thr t is xs us vs xb ub vb).Perm
      (specTrips thr t is (doublets thr is xs us xb ub) (doublets thr is xs vs xb vb)) := by
  rw [tripletsTPC_eq]
  unfold cap
  rw [if_neg (by omega)]
  exact specTrips_perm thr t is (sd.perm _) (sd.perm _)

/-! ## C47 -/

/-- C47, with one more than the limit: the triplets of a TPC are the first `max + 1` of the unlimited result. -/
theorem C47_limit_partial (sd : Sorter lessX) (max : Int) (hmax : 0 < max) (thr t : ℚ) (is : Nat → Nat → Option Pt) (xs us vs : List HC)
    (xb ub vb : List Nat) :
    tripletsTPC sd max thr t is xs us vs xb ub vb = (tripletsTPC sd 0 thr t is xs us vs xb ub vb).take (max.toNat + 1) ∧
    (tripletsTPC sd max thr t is xs us vs xb ub vb).length ≤ max.toNat + 1 := by
  have h : tripletsTPC sd max thr t is xs us vs xb ub vb = (tripletsTPC sd 0 thr t is xs us vs xb ub vb).take (max.toNat + 1) := by
    rw [tripletsTPC_eq, tripletsTPC_eq]
    unfold cap
    rw [if_pos (by omega), if_neg (by omega), Nat.sub_zero]
  refine ⟨h, ?_⟩
  rw [h, List.length_take]
  omega

/-- a real sort, to run the examples -/
def sortBy {α : Type} (less : α → α → Bool) (tot : ∀ a b, less b a = false ∨ less a b = false)
    (tr : ∀ a b c, less b a = false → less c b = false → less c a = false) : Sorter less where
  run := List.insertionSort (fun a b => less b a = false)
  perm := fun l => List.perm_insertionSort _ l
  sorted := fun l => by
    haveI : Std.Total (fun a b => less b a = false) := ⟨fun a b => tot a b⟩
    haveI : IsTrans α (fun a b => less b a = false) := ⟨fun a b c h1 h2 => tr a b c h1 h2⟩
    exact List.pairwise_insertionSort (fun a b => less b a = false) l

def sortHC : Sorter lessHC := sortBy lessHC
  (fun a b => by unfold lessHC; rcases le_total a.xpos b.xpos with h | h
                 · left; simpa using h
                 · right; simpa using h)
  (fun a b c h1 h2 => by unfold lessHC at *; simp at *; linarith)

def sortX : Sorter lessX := sortBy lessX
  (fun a b => by
    by_cases h : lessX b a = true
    · right
      have : ¬ lessX a b = true := by rw [lessX_iff] at *; omega
      simpa using this
    · left; simpa using h)
  (fun a b c h1 h2 => by
    have n1 : ¬ lessX b a = true := by simp [h1]
    have n2 : ¬ lessX c b = true := by simp [h2]
    have : ¬ lessX c a = true := by rw [lessX_iff] at *; omega
    simpa using this)

/-- one TPC (0), one wire per channel (the channel number), all wires cross at the origin, drift position = time -/
def exGeo : Geo := ⟨fun _ => [0], fun c => [c], fun _ => 0, fun _ => false, fun t _ => t, fun _ _ => some (0, 0)⟩

/-- X hit 1, U hits 2 and 3, V hit 4, all at time 0, X channel 50 bad -/
def exIn (xhits : List Nat) (max : Int) : Input := ⟨exGeo, fun a => ⟨a, if a = 9 then 100 else 0⟩, xhits, [2, 3], [4], [50], [], [], 1, 1, 0, max⟩

example : (exIn [1] 0).Valid := ⟨by decide, by decide, by decide, by norm_num [exIn]⟩

/-- C47 fails: with a limit of one, two triplets are returned for the only TPC. -/
theorem C47_refuted : (triplets sortHC sortX (exIn [1] 1)).length = 2 := by decide +kernel

/-! ## C70 -/

/-- C70 for `Triplets`: the drift coordinate of each triplet is the mean over its good hits. -/
theorem C70_three_views (sh : Sorter lessHC) (sd : Sorter lessX) (i : Input) (hi : i.Valid) (hmax : i.maxTriplets ≤ 0) (T : Trip)
    (hT : T ∈ triplets sh sd i) : ∃ tpc x u v, T.x = x.hit ∧ T.u = u.hit ∧ T.v = v.hit ∧
      x ∈ viewItems i.geo i.xhitOffset i.mem i.xhits i.xbad tpc ∧ u ∈ viewItems i.geo i.xhitOffset i.mem i.uhits i.ubad tpc ∧
      v ∈ viewItems i.geo i.xhitOffset i.mem i.vhits i.vbad tpc ∧ T.px = meanX [x, u, v] := by
  rw [C46_members sh sd i hi hmax] at hT
  obtain ⟨tpc, -, x, hx, u, hu, v, hv, hJ⟩ := hT
  exact ⟨tpc, x, u, v, hJ.ids.1, hJ.ids.2.1, hJ.ids.2.2, hx, hu, hv, hJ.pos⟩

/-- C70 for `TripletsTwoView`, without bad X channels: the drift coordinate is the mean over the good hits. -/
theorem C70_two_views_partial (sh : Sorter lessHC) (i : Input) (hi : i.Valid) (hx : i.xbad = []) (T : Trip) (hT : T ∈ tripletsTwoView sh i) :
    ∃ tpc x u, T.x = x.hit ∧ T.u = u.hit ∧ T.v = 0 ∧ x ∈ viewItems i.geo i.xhitOffset i.mem i.xhits i.xbad tpc ∧
      u ∈ viewItems i.geo i.xhitOffset i.mem i.uhits i.ubad tpc ∧ T.px = meanX [x, u] := by
  unfold tripletsTwoView at hT
  rw [List.mem_flatMap] at hT
  obtain ⟨e, he, hT⟩ := hT
  have hok : MapOK (fillHitMap sh i.geo i.xhitOffset i.mem i.xhits) := by
    have h := (fillGen_spec (fun h => i.geo.tpcs (i.mem h).chan) (fun h t => entry i.geo i.xhitOffset i.mem h t) i.xhits []
      ⟨by simp, by simp⟩).1
    refine ⟨?_, ?_⟩
    · unfold fillHitMap; rw [List.pairwise_map]; exact h.keys
    · intro e he
      unfold fillHitMap at he
      rw [List.mem_map] at he
      obtain ⟨f, hf, rfl⟩ := he
      intro hnil
      have hp := sh.perm f.2
      simp only at hnil
      rw [hnil] at hp
      exact h.full f hf (List.nil_perm.1 hp)
  rw [← mem_get _ hok e he, List.mem_map] at hT
  obtain ⟨d, hd, rfl⟩ := hT
  obtain ⟨x1, x2, x3, x4⟩ := hitMap_props sh i.geo i.xhitOffset i.mem i.xhits hi.x0 e.1
  obtain ⟨u1, u2, u3, u4⟩ := hitMap_props sh i.geo i.xhitOffset i.mem i.uhits hi.u0 e.1
  rw [mem_doublets hi.thr _ _ _ _ _ x1 u1 x3 u3] at hd
  obtain ⟨d1, d2, d3, d4, d5⟩ := hd
  have hgood : d.a.hit ≠ 0 := by
    rw [mem_items] at d1
    rcases d1 with h | ⟨c, hc, _⟩
    · exact x3 _ h
    · rw [hx] at hc; simp [fillBadMap, get] at hc
  refine ⟨e.1, d.a, d.b, rfl, rfl, rfl, (viewItems_iff sh _ _ _ _ _ hi.x0 _ _).1 d1, (viewItems_iff sh _ _ _ _ _ hi.u0 _ _).1 d2, ?_⟩
  unfold mkTwo meanX
  by_cases hb : d.b.hit = 0
  · simp [hgood, hb]
  · simp [hgood, hb]

/-- U hit 2 at drift position 10, X hit 1 far away, X channel 50 bad -/
def exTwo : Input := ⟨exGeo, fun a => ⟨a, if a = 2 then 10 else 100⟩, [1], [2], [], [50], [], [], 1, 1, 0, 0⟩

/-- C70 fails for `TripletsTwoView`: with a bad X channel the only good hit, at 10, gives a triplet at 5. -/
theorem C70_refuted : exTwo.Valid ∧ (tripletsTwoView sortHC exTwo).map (fun T => (T.x, T.u, T.px)) = [(0, 2, 5)] :=
  ⟨⟨by decide, by decide, by decide, by norm_num [exTwo]⟩, by decide +kernel⟩

/-- the drift loop ignores wires of other TPCs -/
theorem hitX_other (g : Geo) (off time : ℚ) (tpc : Nat) (ws : List Nat) : ∀ x : ℚ, (∀ w ∈ ws, g.wireTPC w ≠ tpc) →
    hitX g off time tpc ws x = x := by
  induction ws with
  | nil => intro x _; rfl
  | cons w ws ih =>
    intro x h
    show hitX g off time tpc ws (if g.wireTPC w = tpc then (if g.coll w then g.toX time w + off else g.toX time w) else x) = x
    rw [if_neg (h w (by simp))]
    exact ih x (fun v hv => h v (by simp [hv]))

theorem hitX_app (g : Geo) (off time : ℚ) (tpc : Nat) (pre post : List Nat) : ∀ x : ℚ,
    hitX g off time tpc (pre ++ post) x = hitX g off time tpc post (hitX g off time tpc pre x) := by
  induction pre with
  | nil => intro x; rfl
  | cons w ws ih => intro x; exact ih _

/-- C70: the drift coordinate of a hit in a TPC is its peak time converted on the last wire of its channel in that TPC, and the
X-hit offset is added exactly when that wire is a collection wire. -/
theorem C70_drift (g : Geo) (off : ℚ) (mem : Nat → Hit) (h tpc w : Nat) (pre post : List Nat)
    (hw : g.wires (mem h).chan = pre ++ w :: post) (hin : g.wireTPC w = tpc) (hlast : ∀ v ∈ post, g.wireTPC v ≠ tpc) :
    (entry g off mem h tpc).xpos = g.toX (mem h).time w + (if g.coll w = true then off else 0) := by
  show hitX g off (mem h).time tpc (g.wires (mem h).chan) 0 = _
  rw [hw, hitX_app]
  show hitX g off (mem h).time tpc post (if g.wireTPC w = tpc then _ else _) = _
  rw [hitX_other _ _ _ _ _ _ hlast, if_pos hin]
  by_cases hc : g.coll w = true <;> simp [hc]

/-- a channel with an induction wire 3 of another TPC, wires 4 and 5 in TPC 0, 5 a collection wire -/
example : (entry ⟨fun _ => [0], fun _ => [3, 4, 5], fun w => if w = 3 then 1 else 0, fun w => w == 5, fun t w => t + w, fun _ _ => none⟩
    10 (fun _ => ⟨7, 2⟩) 1 0).xpos = 2 + 5 + 10 := by decide +kernel

/-! ## C71 -/

/-- C71: a justified triplet is found whenever its TPC contains any X hit. -/
theorem C71_found_partial (sh : Sorter lessHC) (sd : Sorter lessX) (i : Input) (hi : i.Valid) (hmax : i.maxTriplets ≤ 0) (tpc : Nat) (T : Trip)
    (hJ : i.Justified tpc T) (hx : i.hasX tpc) : T ∈ triplets sh sd i := (C46_members sh sd i hi hmax T).2 ⟨tpc, hx, hJ⟩

/-- C71 fails without any X hit: hits 2 and 4 cross the bad X channel 50 and are found when some unrelated X hit (9) exists, but
not when there is none. -/
theorem C71_refuted : ((triplets sortHC sortX (exIn [9] 0)).map (fun T => (T.x, T.u, T.v))).contains (0, 2, 4) = true ∧
    triplets sortHC sortX (exIn [] 0) = [] := by
  constructor <;> decide +kernel

end Verif.Triplet

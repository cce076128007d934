import Verif.Basic
import Mathlib.Data.List.Basic
import Mathlib.Data.List.Nodup
import Mathlib.Data.List.Sort
import Mathlib.Algebra.Order.Field.Rat
import Mathlib.Algebra.Order.Group.Unbundled.Abs
import Mathlib.Tactic.Linarith
/-!
# C143-C145: `sppt::SpacePointAlg_TimeSort::createSpacePoints`

Source: `/repo/larreco/RecoAlg/SpacePointAlg_TimeSort.cxx`. Numbers are rational. `std::sort` by peak time (269-272) is any arrangement
in increasing time: the theorems hold for every such arrangement of the three lists of hits. `WireIDsIntersect` is an arbitrary function
to `Option`: the value stored for wires that do not cross (`WireIDIntersection::invalid()`, infinite coordinates) never passes the cuts,
so `none` never does. The errors `xyz_err[0]` (a square root) and the never written `xyz_err[1]`, `[3]`, `[4]` are left out.
-/
namespace Verif.TimeSort

/-- a hit: its identity, `PeakTime()` and `WireID().Wire` -/
structure Hit where
  id : Nat
  peak : ℚ
  wire : Nat
deriving DecidableEq, Repr

/-- the configuration and the members set by `setTimeOffsets` and `fillCoordinatesArrays`, SpacePointAlg_TimeSort.cxx:48-66, 69-78, 81-116 -/
structure Cfg where
  dT : ℚ
  dY : ℚ
  dZ : ℚ
  offU : ℚ
  offV : ℚ
  offY : ℚ
  ticksToX : ℚ
  /-- `coordinates_UV_y/z[vwire][uwire]` -/
  uv : Nat → Nat → Option (ℚ × ℚ)
  /-- `coordinates_UY_y/z[ywire][uwire]` -/
  uy : Nat → Nat → Option (ℚ × ℚ)

/-- SpacePointAlg_TimeSort.cxx:158, 163 -/
def Cfg.tU (c : Cfg) (h : Hit) : ℚ := h.peak + c.offU
/-- SpacePointAlg_TimeSort.cxx:159, 172, 206, 250 -/
def Cfg.tV (c : Cfg) (h : Hit) : ℚ := h.peak + c.offV
/-- SpacePointAlg_TimeSort.cxx:160, 180, 208, 255 -/
def Cfg.tY (c : Cfg) (h : Hit) : ℚ := h.peak + c.offY

/-- the inner loop of one U hit, over the V and Y hits from the two iterators on, SpacePointAlg_TimeSort.cxx:204-258: the pairs tested.
`tu` is the time of the U hit. -/
def stair (c : Cfg) (tu : ℚ) : List Hit → List Hit → List (Hit × Hit)
  | v :: vs, y :: ys =>
    if |tu - c.tV v| < c.dT ∧ |tu - c.tY y| < c.dT then
      (v, y) :: (if c.tV v ≤ c.tY y then stair c tu vs (y :: ys) else stair c tu (v :: vs) ys)
    else []
  | _, _ => []
termination_by vs ys => vs.length + ys.length

/-- the outer loop over the U hits with the V and Y iterators, SpacePointAlg_TimeSort.cxx:162-261: the triples tested, in order -/
def outer (c : Cfg) : List Hit → List Hit → List Hit → List (Hit × Hit × Hit)
  | [], _, _ => []
  | u :: us, vs, ys =>
    match vs.dropWhile (fun v => decide (c.dT < c.tU u - c.tV v)) with
    | [] => []
    | v :: vs' =>
      match ys.dropWhile (fun y => decide (c.dT < c.tU u - c.tY y)) with
      | [] => []
      | y :: ys' =>
        if c.dT < |c.tU u - c.tV v| ∨ c.dT < |c.tU u - c.tY y| then outer c us (v :: vs') (y :: ys')
        else (stair c (c.tU u) (v :: vs') (y :: ys')).map (fun p => (u, p.1, p.2)) ++ outer c us (v :: vs') (y :: ys')

/-- a space point, SpacePointAlg_TimeSort.cxx:224-245: `ID`, position, `xyz_err[2]` and `xyz_err[5]` -/
structure SP where
  id : Nat
  x : ℚ
  y : ℚ
  z : ℚ
  errY : ℚ
  errZ : ℚ
deriving DecidableEq, Repr

/-- the two output collections -/
structure Out where
  pts : List SP
  hits : List (List Hit)
deriving DecidableEq, Repr

/-- the cuts on the crossing points and the space point of a triple, SpacePointAlg_TimeSort.cxx:213-248 -/
def addTriple (c : Cfg) (o : Out) (t : Hit × Hit × Hit) : Out :=
  match c.uv t.2.1.wire t.1.wire, c.uy t.2.2.wire t.1.wire with
  | some a, some b =>
    if |a.1 - b.1| < c.dY ∧ |a.2 - b.2| < c.dZ then
      { pts := o.pts ++ [{ id := o.pts.length
                           x := c.ticksToX * ((c.tU t.1 + c.tV t.2.1 + c.tY t.2.2) / 3)
                           y := (a.1 + b.1) * (1 / 2)
                           z := (a.2 + b.2) * (1 / 2)
                           errY := |a.1 - (a.1 + b.1) * (1 / 2)|
                           errZ := |a.2 - (a.2 + b.2) * (1 / 2)| }]
        hits := o.hits ++ [[t.1, t.2.1, t.2.2]] }
    else o
  | _, _ => o

/-- the loops on the sorted lists, SpacePointAlg_TimeSort.cxx:153-266. `none`: the first hit of an empty list is read
(lines 158-160), which is undefined. -/
def create (c : Cfg) (us vs ys : List Hit) (o : Out) : Option Out :=
  match us, vs, ys with
  | u :: us, v :: vs, y :: ys => some ((outer c (u :: us) (v :: vs) (y :: ys)).foldl (addTriple c) o)
  | _, _, _ => none

/-! ## Specification -/

/-- a list sorted by `HitTimeComparison`, SpacePointAlg_TimeSort.cxx:40-43, 269-272 -/
def Sorted (l : List Hit) : Prop := l.Pairwise (fun a b => a.peak ≤ b.peak)

/-- sorted arrangements of given hits: what `sortHitsByTime` may produce -/
def SortOf (given sorted : List Hit) : Prop := sorted.Perm given ∧ Sorted sorted

/-- the crossings of the U wire with the two other wires exist and are close -/
def Cross (c : Cfg) (u v y : Hit) (a b : ℚ × ℚ) : Prop :=
  c.uv v.wire u.wire = some a ∧ c.uy y.wire u.wire = some b ∧ |a.1 - b.1| < c.dY ∧ |a.2 - b.2| < c.dZ

/-- the three hits are close in time (strictly within the window of the U hit) -/
def Close (c : Cfg) (u v y : Hit) : Prop := |c.tU u - c.tV v| < c.dT ∧ |c.tU u - c.tY y| < c.dT

/-! ## The staircase -/

theorem stair_fwd {c : Cfg} {tu : ℚ} (vs ys : List Hit) (hV : Sorted vs) (hY : Sorted ys) (v y : Hit) (h : (v, y) ∈ stair c tu vs ys) :
    ∃ a b d e, vs = a ++ v :: b ∧ ys = d ++ y :: e ∧ |tu - c.tV v| < c.dT ∧ |tu - c.tY y| < c.dT ∧
      (∀ v' ∈ a, |tu - c.tV v'| < c.dT ∧ c.tV v' ≤ c.tY y) ∧ (∀ y' ∈ d, |tu - c.tY y'| < c.dT ∧ c.tY y' < c.tV v) := by
  induction vs, ys using stair.induct c tu with
  | case1 v0 vs y0 ys hw0 ih1 ih2 =>
    rw [stair] at h
    split at h
    next hw =>
      rcases List.mem_cons.1 h with h | h
      · obtain ⟨rfl, rfl⟩ := Prod.mk.inj h
        exact ⟨[], vs, [], ys, rfl, rfl, hw.1, hw.2, by simp, by simp⟩
      · split at h
        next hle =>
          obtain ⟨a, b, d, e, h1, h2, h3, h4, h5, h6⟩ := ih1 hV.of_cons hY h
          refine ⟨v0 :: a, b, d, e, by rw [h1]; rfl, h2, h3, h4, ?_, h6⟩
          intro v' hv'
          rcases List.mem_cons.1 hv' with rfl | hv'
          · refine ⟨hw.1, hle.trans ?_⟩
            have hy : y ∈ y0 :: ys := by rw [h2]; simp
            rcases List.mem_cons.1 hy with rfl | hy
            · exact le_refl _
            · have := List.rel_of_pairwise_cons hY hy
              unfold Cfg.tY; linarith
          · exact h5 v' hv'
        next hle =>
          obtain ⟨a, b, d, e, h1, h2, h3, h4, h5, h6⟩ := ih2 hV hY.of_cons h
          refine ⟨a, b, y0 :: d, e, h1, by rw [h2]; rfl, h3, h4, h5, ?_⟩
          intro y' hy'
          rcases List.mem_cons.1 hy' with rfl | hy'
          · refine ⟨hw.2, lt_of_lt_of_le (not_le.1 hle) ?_⟩
            have hv : v ∈ v0 :: vs := by rw [h1]; simp
            rcases List.mem_cons.1 hv with rfl | hv
            · exact le_refl _
            · have := List.rel_of_pairwise_cons hV hv
              unfold Cfg.tV; linarith
          · exact h6 y' hy'
    next hw => exact absurd hw0 hw
  | case2 v0 vs y0 ys hw0 =>
    rw [stair, if_neg hw0] at h; simp at h
  | case3 vs ys hn =>
    rw [stair] at h
    · simp at h
    · exact hn

theorem stair_bwd {c : Cfg} {tu : ℚ} (n : Nat) (a b d e : List Hit) (v y : Hit) (hn : a.length + d.length = n)
    (h3 : |tu - c.tV v| < c.dT) (h4 : |tu - c.tY y| < c.dT)
    (h5 : ∀ v' ∈ a, |tu - c.tV v'| < c.dT ∧ c.tV v' ≤ c.tY y) (h6 : ∀ y' ∈ d, |tu - c.tY y'| < c.dT ∧ c.tY y' < c.tV v) :
    (v, y) ∈ stair c tu (a ++ v :: b) (d ++ y :: e) := by
  induction n generalizing a d with
  | zero =>
    have ha : a = [] := by cases a <;> simp_all
    have hd : d = [] := by cases d <;> simp_all
    subst ha; subst hd
    simp only [List.nil_append]
    rw [stair, if_pos ⟨h3, h4⟩]; simp
  | succ n ih =>
    cases a with
    | nil =>
      cases d with
      | nil => simp at hn
      | cons y0 d =>
        simp only [List.nil_append, List.cons_append]
        have hy0 := h6 y0 (by simp)
        rw [stair, if_pos ⟨h3, hy0.1⟩, if_neg (not_le.2 hy0.2)]
        refine List.mem_cons_of_mem _ ?_
        exact ih [] d (by simp at hn ⊢; omega) (by simp) (fun y' hy' => h6 y' (by simp [hy']))
    | cons v0 a =>
      have hv0 := h5 v0 (by simp)
      cases d with
      | nil =>
        simp only [List.nil_append, List.cons_append]
        rw [stair, if_pos ⟨hv0.1, h4⟩, if_pos hv0.2]
        refine List.mem_cons_of_mem _ ?_
        exact ih a [] (by simp at hn ⊢; omega) (fun v' hv' => h5 v' (by simp [hv'])) (by simp)
      | cons y0 d =>
        have hy0 := h6 y0 (by simp)
        simp only [List.cons_append]
        rw [stair, if_pos ⟨hv0.1, hy0.1⟩]
        refine List.mem_cons_of_mem _ ?_
        split
        · exact ih a (y0 :: d) (by simp at hn ⊢; omega) (fun v' hv' => h5 v' (by simp [hv'])) h6
        · exact ih (v0 :: a) d (by simp at hn ⊢; omega) h5 (fun y' hy' => h6 y' (by simp [hy']))

/-! ## The outer loop -/

/-- V hits not too early for a U time -/
def fromV (c : Cfg) (u : Hit) (vs : List Hit) : List Hit := vs.dropWhile (fun v => decide (c.dT < c.tU u - c.tV v))
/-- Y hits not too early for a U time -/
def fromY (c : Cfg) (u : Hit) (ys : List Hit) : List Hit := ys.dropWhile (fun y => decide (c.dT < c.tU u - c.tY y))

theorem dropWhile_dropWhile {α : Type} (p q : α → Bool) (h : ∀ x, p x = true → q x = true) (l : List α) :
    (l.dropWhile p).dropWhile q = l.dropWhile q := by
  induction l with
  | nil => rfl
  | cons x l ih =>
    by_cases hp : p x = true
    · rw [List.dropWhile_cons_of_pos hp, List.dropWhile_cons_of_pos (h x hp), ih]
    · rw [List.dropWhile_cons_of_neg hp]

theorem fromV_fromV {c : Cfg} {u u' : Hit} (h : u.peak ≤ u'.peak) (vs : List Hit) : fromV c u' (fromV c u vs) = fromV c u' vs := by
  refine dropWhile_dropWhile _ _ ?_ vs
  intro x hx
  simp only [decide_eq_true_eq] at hx ⊢
  unfold Cfg.tU at hx ⊢; linarith

theorem fromY_fromY {c : Cfg} {u u' : Hit} (h : u.peak ≤ u'.peak) (ys : List Hit) : fromY c u' (fromY c u ys) = fromY c u' ys := by
  refine dropWhile_dropWhile _ _ ?_ ys
  intro x hx
  simp only [decide_eq_true_eq] at hx ⊢
  unfold Cfg.tU at hx ⊢; linarith

/-- what one U hit contributes, independent of the others -/
def ofU (c : Cfg) (vs ys : List Hit) (u : Hit) : List (Hit × Hit × Hit) :=
  (stair c (c.tU u) (fromV c u vs) (fromY c u ys)).map (fun p => (u, p.1, p.2))

theorem stair_nil_left (c : Cfg) (tu : ℚ) (ys : List Hit) : stair c tu [] ys = [] := by
  rw [stair]; simp
theorem stair_nil_right (c : Cfg) (tu : ℚ) (vs : List Hit) : stair c tu vs [] = [] := by
  cases vs <;> (rw [stair]; simp)

theorem flatMap_nil_of {α β : Type} (f : α → List β) (l : List α) (h : ∀ x ∈ l, f x = []) : l.flatMap f = [] := by
  induction l with
  | nil => rfl
  | cons x l ih => rw [List.flatMap_cons, h x (by simp), ih (fun y hy => h y (by simp [hy]))]; rfl

/-- the iterators kept from one U hit to the next change nothing -/
theorem outer_eq (c : Cfg) (us vs ys : List Hit) (hU : Sorted us) : outer c us vs ys = us.flatMap (ofU c vs ys) := by
  induction us generalizing vs ys with
  | nil => rfl
  | cons u us ih =>
    have hle : ∀ u' ∈ us, u.peak ≤ u'.peak := fun u' h => List.rel_of_pairwise_cons hU h
    have hofU : ∀ u' ∈ us, ofU c (fromV c u vs) (fromY c u ys) u' = ofU c vs ys u' := by
      intro u' h
      unfold ofU
      rw [fromV_fromV (hle u' h), fromY_fromY (hle u' h)]
    rw [outer, List.flatMap_cons]
    change (match fromV c u vs with
      | [] => []
      | v :: vs' => match fromY c u ys with
        | [] => []
        | y :: ys' => if c.dT < |c.tU u - c.tV v| ∨ c.dT < |c.tU u - c.tY y| then outer c us (v :: vs') (y :: ys')
          else (stair c (c.tU u) (v :: vs') (y :: ys')).map (fun p : Hit × Hit => (u, p.1, p.2)) ++ outer c us (v :: vs') (y :: ys')) = _
    cases hv : fromV c u vs with
    | nil =>
      have h1 : ∀ u' ∈ u :: us, ofU c vs ys u' = [] := by
        intro u' h
        rcases List.mem_cons.1 h with rfl | h
        · unfold ofU; rw [hv, stair_nil_left]; rfl
        · unfold ofU; rw [← fromV_fromV (hle u' h), hv]
          show (stair c (c.tU u') [] _).map _ = []
          rw [stair_nil_left]; rfl
      rw [← List.flatMap_cons, flatMap_nil_of _ _ h1]
    | cons v vs' =>
      cases hy : fromY c u ys with
      | nil =>
        have h1 : ∀ u' ∈ u :: us, ofU c vs ys u' = [] := by
          intro u' h
          rcases List.mem_cons.1 h with rfl | h
          · unfold ofU; rw [hy, stair_nil_right]; rfl
          · unfold ofU; rw [← fromY_fromY (hle u' h), hy]
            show (stair c (c.tU u') _ []).map _ = []
            rw [stair_nil_right]; rfl
        rw [← List.flatMap_cons, flatMap_nil_of _ _ h1]
      | cons y ys' =>
        have hrest : outer c us (v :: vs') (y :: ys') = us.flatMap (ofU c vs ys) := by
          rw [ih _ _ hU.of_cons, ← hv, ← hy]
          exact List.flatMap_congr (by intro u' h; exact hofU u' h)
        show (if c.dT < |c.tU u - c.tV v| ∨ c.dT < |c.tU u - c.tY y| then outer c us (v :: vs') (y :: ys')
          else (stair c (c.tU u) (v :: vs') (y :: ys')).map (fun p => (u, p.1, p.2)) ++ outer c us (v :: vs') (y :: ys')) = _
        have hthis : ofU c vs ys u = (stair c (c.tU u) (v :: vs') (y :: ys')).map (fun p => (u, p.1, p.2)) := by
          unfold ofU; rw [hv, hy]
        rw [hthis]
        split
        next h =>
          have : stair c (c.tU u) (v :: vs') (y :: ys') = [] := by
            rw [stair, if_neg]
            rintro ⟨h1, h2⟩
            rcases h with h | h <;> linarith
          rw [hrest, this]; rfl
        next h => rw [hrest]

theorem dropWhile_of_sorted {α : Type} (p : α → Bool) (l : List α) (h : l.Pairwise (fun a b => p b = true → p a = true)) :
    ∃ a, l = a ++ l.dropWhile p ∧ (∀ x ∈ a, p x = true) ∧ ∀ x ∈ l.dropWhile p, p x = false := by
  induction l with
  | nil => exact ⟨[], rfl, by simp, by simp⟩
  | cons x l ih =>
    obtain ⟨a, h1, h2, h3⟩ := ih h.of_cons
    by_cases hp : p x = true
    · rw [List.dropWhile_cons_of_pos hp]
      refine ⟨x :: a, by rw [List.cons_append, ← h1], ?_, h3⟩
      intro z hz
      rcases List.mem_cons.1 hz with rfl | hz
      · exact hp
      · exact h2 z hz
    · rw [List.dropWhile_cons_of_neg hp]
      refine ⟨[], rfl, by simp, ?_⟩
      intro z hz
      rcases List.mem_cons.1 hz with rfl | hz
      · simpa using hp
      · have := List.rel_of_pairwise_cons h hz
        by_contra hne
        exact hp (this (by simpa using hne))

theorem fromV_split {c : Cfg} {vs : List Hit} (h : Sorted vs) (u : Hit) :
    ∃ a, vs = a ++ fromV c u vs ∧ (∀ x ∈ a, c.dT < c.tU u - c.tV x) ∧ ∀ x ∈ fromV c u vs, c.tU u - c.tV x ≤ c.dT := by
  obtain ⟨a, h1, h2, h3⟩ := dropWhile_of_sorted (fun v => decide (c.dT < c.tU u - c.tV v)) vs (by
    refine h.imp ?_
    intro x y hxy hy
    simp only [decide_eq_true_eq] at hy ⊢
    unfold Cfg.tV at hy ⊢; linarith)
  exact ⟨a, h1, fun x hx => by simpa using h2 x hx, fun x hx => by simpa using h3 x hx⟩

theorem fromY_split {c : Cfg} {ys : List Hit} (h : Sorted ys) (u : Hit) :
    ∃ a, ys = a ++ fromY c u ys ∧ (∀ x ∈ a, c.dT < c.tU u - c.tY x) ∧ ∀ x ∈ fromY c u ys, c.tU u - c.tY x ≤ c.dT := by
  obtain ⟨a, h1, h2, h3⟩ := dropWhile_of_sorted (fun v => decide (c.dT < c.tU u - c.tY v)) ys (by
    refine h.imp ?_
    intro x y hxy hy
    simp only [decide_eq_true_eq] at hy ⊢
    unfold Cfg.tY at hy ⊢; linarith)
  exact ⟨a, h1, fun x hx => by simpa using h2 x hx, fun x hx => by simpa using h3 x hx⟩

theorem sorted_sub {a b : List Hit} (h : Sorted (a ++ b)) : Sorted b := (List.pairwise_append.1 h).2.1

/-- exactly which triples are tested -/
theorem mem_outer {c : Cfg} {us vs ys : List Hit} (hU : Sorted us) (hV : Sorted vs) (hY : Sorted ys) (u v y : Hit) :
    (u, v, y) ∈ outer c us vs ys ↔ u ∈ us ∧ Close c u v y ∧ ∃ a b d e, vs = a ++ v :: b ∧ ys = d ++ y :: e ∧
      (∀ v' ∈ a, c.tU u - c.tV v' ≤ c.dT → c.tU u - c.tV v' < c.dT ∧ c.tV v' ≤ c.tY y) ∧
      (∀ y' ∈ d, c.tU u - c.tY y' ≤ c.dT → c.tU u - c.tY y' < c.dT ∧ c.tY y' < c.tV v) := by
  rw [outer_eq c us vs ys hU]
  obtain ⟨a0, ha1, ha2, ha3⟩ := fromV_split (c := c) hV u
  obtain ⟨d0, hd1, hd2, hd3⟩ := fromY_split (c := c) hY u
  have hsV : Sorted (fromV c u vs) := sorted_sub (a := a0) (by rw [← ha1]; exact hV)
  have hsY : Sorted (fromY c u ys) := sorted_sub (a := d0) (by rw [← hd1]; exact hY)
  constructor
  · intro h
    obtain ⟨u', hu', h⟩ := List.mem_flatMap.1 h
    unfold ofU at h
    obtain ⟨p, hp, he⟩ := List.mem_map.1 h
    obtain ⟨rfl, rfl, rfl⟩ : u' = u ∧ p.1 = v ∧ p.2 = y := by
      simp only [Prod.mk.injEq] at he; exact he
    obtain ⟨a, b, d, e, h1, h2, h3, h4, h5, h6⟩ := stair_fwd _ _ hsV hsY p.1 p.2 hp
    refine ⟨hu', ⟨h3, h4⟩, a0 ++ a, b, d0 ++ d, e, ?_, ?_, ?_, ?_⟩
    · rw [List.append_assoc, ← h1]; exact ha1
    · rw [List.append_assoc, ← h2]; exact hd1
    · intro v' hv' hle
      rcases List.mem_append.1 hv' with hv' | hv'
      · exact absurd (ha2 v' hv') (not_lt.2 hle)
      · exact ⟨(abs_lt.1 (h5 v' hv').1).2, (h5 v' hv').2⟩
    · intro y' hy' hle
      rcases List.mem_append.1 hy' with hy' | hy'
      · exact absurd (hd2 y' hy') (not_lt.2 hle)
      · exact ⟨(abs_lt.1 (h6 y' hy').1).2, (h6 y' hy').2⟩
  · rintro ⟨hu, ⟨h3, h4⟩, a, b, d, e, h1, h2, h5, h6⟩
    refine List.mem_flatMap.2 ⟨u, hu, ?_⟩
    unfold ofU
    refine List.mem_map.2 ⟨(v, y), ?_, rfl⟩
    -- the part of `a` not dropped
    have key : ∀ (l a0 f : List Hit) (a b : List Hit) (x : Hit), l = a0 ++ f → l = a ++ x :: b →
        (x ∉ a0) → ∃ a1, a = a0 ++ a1 ∧ f = a1 ++ x :: b := by
      intro l a0 f a b x hl hl' hx
      rw [hl] at hl'
      rcases List.append_eq_append_iff.1 hl' with ⟨a1, h1, h2⟩ | ⟨a1, h1, h2⟩
      · exact ⟨a1, h1, h2⟩
      · rcases a1 with _ | ⟨x', a1⟩
        · exact ⟨[], by simpa using h1.symm, by simpa using h2.symm⟩
        · simp at h2
          exact absurd (by rw [h1, h2.1]; simp) hx
    obtain ⟨a1, hA, hB⟩ := key vs a0 (fromV c u vs) a b v ha1 h1
      (fun hx => by have := ha2 v hx; have := (abs_lt.1 h3).2; linarith)
    obtain ⟨d1, hC, hD⟩ := key ys d0 (fromY c u ys) d e y hd1 h2
      (fun hx => by have := hd2 y hx; have := (abs_lt.1 h4).2; linarith)
    rw [hB, hD]
    have hv3 := abs_lt.1 h3
    have hy4 := abs_lt.1 h4
    refine stair_bwd _ a1 b d1 e v y rfl h3 h4 ?_ ?_
    · intro v' hv'
      have hle := ha3 v' (by rw [hB]; simp [hv'])
      obtain ⟨h7, h8⟩ := h5 v' (by rw [hA]; simp [hv']) hle
      refine ⟨abs_lt.2 ⟨?_, h7⟩, h8⟩
      have : Sorted (a1 ++ v :: b) := by rw [← hB]; exact hsV
      have := (List.pairwise_append.1 this).2.2 v' hv' v (by simp)
      unfold Cfg.tV at hv3 ⊢; linarith [hv3.1]
    · intro y' hy'
      have hle := hd3 y' (by rw [hD]; simp [hy'])
      obtain ⟨h7, h8⟩ := h6 y' (by rw [hC]; simp [hy']) hle
      refine ⟨abs_lt.2 ⟨?_, h7⟩, h8⟩
      have : Sorted (d1 ++ y :: e) := by rw [← hD]; exact hsY
      have := (List.pairwise_append.1 this).2.2 y' hy' y (by simp)
      unfold Cfg.tY at hy4 ⊢; linarith [hy4.1]

end Verif.TimeSort

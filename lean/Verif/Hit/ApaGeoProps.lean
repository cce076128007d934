import Verif.Hit.ApaGeoModel
import Mathlib.Algebra.Group.Nat.Even
import Mathlib.Tactic.Linarith
import Mathlib.Tactic.NormNum
import Mathlib.Tactic.Ring

/-! Properties C186-C190 of `apa::APAGeometryAlg`. -/

namespace Verif.ApaGeo

open Verif.Disambig (View Wid)

/-! ### C186: the boundaries -/

/-- The channel map begins with an APA of the documented order: U channels up to `a`, V up to `b`,
collection channels of TPC 0 up to `c`, of TPC 1 up to `d`; then the next APA or the end. -/
structure Layout (m : Map) (a b c d : Nat) : Prop where
  ha : 0 < a
  hab : a < b
  hbc : b < c
  hcd : c < d
  hd : d ≤ m.nch
  viewU : ∀ x, x < a → m.view x = .U
  viewV : ∀ x, a ≤ x → x < b → m.view x = .V
  viewZ : ∀ x, b ≤ x → x < d → m.view x = .Z
  tpcUV : ∀ x, x < b → m.tpc x < 2
  tpc0 : ∀ x, b ≤ x → x < c → m.tpc x = 0
  tpc1 : ∀ x, c ≤ x → x < d → m.tpc x = 1
  next : d = m.nch ∨ 2 ≤ m.tpc d

theorem layout_tpc {m : Map} {a b c d : Nat} (h : Layout m a b c d) (x : Nat) (hx : x < d) : m.tpc x < 2 := by
  by_cases h1 : x < b
  · exact h.tpcUV x h1
  · by_cases h2 : x < c
    · rw [h.tpc0 x (by omega) h2]; omega
    · rw [h.tpc1 x (by omega) hx]; omega

theorem perAPA_layout {m : Map} {a b c d : Nat} (h : Layout m a b c d) : perAPA m = d := by
  unfold perAPA
  have hd := h.hd
  rcases h.next with he | he
  · have : (List.range m.nch).find? (fun c => decide (1 < m.tpc c)) = none := by
      rw [List.find?_eq_none]
      intro x hx
      have := layout_tpc h x (by rw [List.mem_range] at hx; omega)
      simp; omega
    rw [this]
    simpa using he.symm
  · by_cases hn : d = m.nch
    · have : (List.range m.nch).find? (fun c => decide (1 < m.tpc c)) = none := by
        rw [List.find?_eq_none]
        intro x hx
        have := layout_tpc h x (by rw [List.mem_range] at hx; omega)
        simp; omega
      rw [this]
      simpa using hn.symm
    · have : (List.range m.nch).find? (fun c => decide (1 < m.tpc c)) = some d := by
        rw [List.find?_eq_some_iff_getElem]
        refine ⟨by simp; omega, d, by simp; omega, by simp, ?_⟩
        intro j hj
        have := layout_tpc h j hj
        simp; omega
      rw [this]
      rfl

/-- What the members hold after the channels below `k` have been scanned. -/
def Good (a b c : Nat) (k : Nat) (B : Bounds) : Prop :=
  (a < k → B.lastU = a - 1 ∧ B.firstV = a) ∧ (b < k → B.lastV = b - 1 ∧ B.firstZ0 = b) ∧
    (c < k → B.lastZ0 = c - 1 ∧ B.firstZ1 = c)

theorem scanStep_good {m : Map} {a b c d : Nat} (h : Layout m a b c d) (k : Nat) (hk : k < d) (hk1 : 1 ≤ k)
    (B : Bounds) (last : Option Nat) (hl : 1 < k → last = some (m.tpc (k - 1))) (hB : Good a b c k B) :
    Good a b c (k + 1) (scanStep m B last k) := by
  obtain ⟨h1, h2, h3⟩ := hB
  have ha := h.ha
  have hab := h.hab
  have hbc := h.hbc
  have hcd := h.hcd
  have eV : (m.view k = .V ∧ m.view (k - 1) = .U) ↔ k = a := by
    constructor
    · rintro ⟨e1, e2⟩
      by_contra hne
      rcases Nat.lt_or_gt_of_ne hne with hlt | hgt
      · rw [h.viewU k hlt] at e1; cases e1
      · by_cases hb : k - 1 < b
        · rw [h.viewV (k - 1) (by omega) hb] at e2; cases e2
        · rw [h.viewZ (k - 1) (by omega) (by omega)] at e2; cases e2
    · rintro rfl
      exact ⟨h.viewV k (le_refl _) hab, h.viewU _ (by omega)⟩
  have eZ : (m.view k = .Z ∧ m.view (k - 1) = .V) ↔ k = b := by
    constructor
    · rintro ⟨e1, e2⟩
      by_contra hne
      rcases Nat.lt_or_gt_of_ne hne with hlt | hgt
      · by_cases hb : k < a
        · rw [h.viewU k hb] at e1; cases e1
        · rw [h.viewV k (by omega) hlt] at e1; cases e1
      · rw [h.viewZ (k - 1) (by omega) (by omega)] at e2; cases e2
    · rintro rfl
      exact ⟨h.viewZ k (le_refl _) (by omega), h.viewV _ (by omega) (by omega)⟩
  unfold scanStep
  dsimp only
  simp only [eV, eZ]
  by_cases hkc : c ≤ k
  · have hl' := hl (by omega)
    rw [hl']
    dsimp only
    rw [if_neg (by omega : ¬ k = a), if_neg (by omega : ¬ k = b)]
    rw [h.tpc1 k hkc hk]
    by_cases hc : k = c
    · rw [h.tpc0 (k - 1) (by omega) (by omega), if_pos (by omega)]
      refine ⟨fun _ => h1 (by omega), fun _ => h2 (by omega), fun _ => ?_⟩
      subst hc
      exact ⟨rfl, rfl⟩
    · rw [h.tpc1 (k - 1) (by omega) (by omega), if_neg (by omega)]
      exact ⟨fun _ => h1 (by omega), fun _ => h2 (by omega), fun _ => h3 (by omega)⟩
  · generalize (match last with | none => 0 | some t => t + 1) = t
    refine ⟨?_, ?_, fun hh => absurd hh (by omega)⟩
    · intro hak
      by_cases e : k = a
      · subst e
        rw [if_neg (by omega : ¬ k = b), if_pos rfl]
        split_ifs <;> exact ⟨rfl, rfl⟩
      · rw [if_neg e]
        have := h1 (by omega)
        split_ifs <;> exact this
    · intro hbk
      by_cases e : k = b
      · subst e
        rw [if_neg (by omega : ¬ k = a), if_pos rfl]
        split_ifs <;> exact ⟨rfl, rfl⟩
      · rw [if_neg e, if_neg (by omega : ¬ k = a)]
        have := h2 (by omega)
        split_ifs <;> exact this

theorem scan_layout {m : Map} {a b c d : Nat} (h : Layout m a b c d) :
    ∀ fuel k B last, 1 ≤ k → k < d → d ≤ k + fuel → (1 < k → last = some (m.tpc (k - 1))) →
      Good a b c k B → ∃ B', scan m fuel B last k = (B', d) ∧ Good a b c d B' := by
  intro fuel
  induction fuel with
  | zero => intro k B last _ h2 h3; omega
  | succ n ih =>
    intro k B last hk1 hk hf hl hB
    have hg := scanStep_good h k hk hk1 B last hl hB
    have hd := h.hd
    unfold scan
    rw [if_pos (layout_tpc h k hk)]
    dsimp only
    by_cases he : k + 1 = d
    · by_cases hn : m.nch ≤ k + 1
      · rw [if_pos hn, he]
        rw [he] at hg
        exact ⟨_, rfl, hg⟩
      · rw [if_neg hn]
        rw [he] at hg ⊢
        have hnx : 2 ≤ m.tpc d := by
          rcases h.next with hx | hx
          · omega
          · exact hx
        refine ⟨_, ?_, hg⟩
        cases n with
        | zero => rfl
        | succ n =>
          unfold scan
          rw [if_neg (by omega)]
    · rw [if_neg (by omega)]
      exact ih (k + 1) _ _ (by omega) (by omega) (by omega) (fun _ => by simp) hg

/-- **C186.** For every channel map whose first APA has its channels in the order U, V, collection side
0, collection side 1, the constructor accepts the map and finds exactly these boundaries, whatever the
sizes and whatever was in the members before. -/
theorem C186_bounds (m : Map) (a b c d : Nat) (h : Layout m a b c d) (junk : Bounds) :
    construct m junk = some (⟨a - 1, a, b - 1, b, c - 1, c⟩, d - 1, d) := by
  have ha := h.ha
  have hab := h.hab
  have hbc := h.hbc
  have hcd := h.hcd
  have hd := h.hd
  obtain ⟨B, hs, g1, g2, g3⟩ := scan_layout h m.nch 1 junk none (le_refl _) (by omega) (by omega)
    (by omega) ⟨by omega, by omega, by omega⟩
  unfold construct
  dsimp only
  rw [hs, perAPA_layout h]
  dsimp only
  rw [if_neg (by omega)]
  have k1 := g1 (by omega)
  have k2 := g2 (by omega)
  have k3 := g3 (by omega)
  have : B = ⟨a - 1, a, b - 1, b, c - 1, c⟩ := by
    cases B
    simp only [Bounds.mk.injEq] at k1 k2 k3 ⊢
    exact ⟨k1.1, k1.2, k2.1, k2.2, k3.1, k3.2⟩
  rw [this]

/-! ### C187: channels, APAs and views -/

/-- Boundaries in order, all APAs alike. -/
structure Apa.Ok (A : Apa) : Prop where
  hV : 0 < A.firstV
  hZ0 : A.firstV < A.firstZ0
  hZ1 : A.firstZ0 < A.firstZ1
  hL : A.firstZ1 ≤ A.lastZ1
  hP : A.perAPA = A.lastZ1 + 1
  hN : 0 < A.apasPerCryo

/-- The view of a channel by its place in the APA. -/
def viewAt (A : Apa) (c : Nat) : View :=
  if c % A.perAPA < A.firstV then .U else if c % A.perAPA < A.firstZ0 then .V else .Z

/-- **C187 (partial).** In the first cryostat the first channel of the view of a channel is the right
one: the channel lies in the same APA at or after it, and (U, V) within the number of channels of the
view.  In general the answer is too large by one cryostat for each cryostat before that of the
channel. -/
theorem C187_first_partial (A : Apa) (h : A.Ok) (c : Nat) :
    (c < A.apasPerCryo * A.perAPA →
      firstOfChan A (viewAt A c) c ≤ c ∧
      firstOfChan A (viewAt A c) c / A.perAPA = c / A.perAPA ∧
      ∀ n, inView A (viewAt A c) = some n → viewAt A c ≠ .Z → c < firstOfChan A (viewAt A c) c + n) ∧
    firstOfChan A (viewAt A c) c = base A (viewAt A c) + c / A.perAPA * A.perAPA
      + c / (A.apasPerCryo * A.perAPA) * (A.apasPerCryo * A.perAPA) := by
  obtain ⟨h1, h2, h3, h4, h5, h6⟩ := h
  have hp : 0 < A.perAPA := by omega
  have hdm := Nat.div_add_mod c A.perAPA
  have hml := Nat.mod_lt c hp
  have hgen : firstOfChan A (viewAt A c) c = base A (viewAt A c) + c / A.perAPA * A.perAPA
      + c / (A.apasPerCryo * A.perAPA) * (A.apasPerCryo * A.perAPA) := by
    unfold firstOfChan firstInView chanToAPA
    dsimp only
    ring
  refine ⟨fun hc => ?_, hgen⟩
  rw [hgen, Nat.div_eq_of_lt hc, Nat.zero_mul, Nat.add_zero]
  rw [Nat.mul_comm] at hdm
  have hb : base A (viewAt A c) ≤ c % A.perAPA := by
    unfold viewAt
    split
    · exact Nat.zero_le _
    · split
      · show A.firstV ≤ _; omega
      · show A.firstZ0 ≤ _; omega
  refine ⟨by omega, ?_, ?_⟩
  · rw [Nat.add_mul_div_right _ _ hp, Nat.div_eq_of_lt (by omega)]
    omega
  · intro n hn hz
    unfold viewAt at hn hz ⊢
    split
    · rename_i e
      rw [if_pos e] at hn
      simp only [inView, Option.some.injEq] at hn
      show c < 0 + _ + n
      omega
    · rename_i e
      rw [if_neg e] at hn hz
      split
      · rename_i e2
        rw [if_pos e2] at hn
        simp only [inView, Option.some.injEq] at hn
        show c < A.firstV + _ + n
        omega
      · rename_i e2
        rw [if_neg e2] at hz
        exact absurd rfl hz

/-- **C187, the four views.** Every channel is in exactly the APA view of its place in the APA, in
every cryostat; the numbers of channels of the four views add up to those of the APA. -/
theorem C187_apaView (A : Apa) (h : A.Ok) (c : Nat) :
    apaView A (viewAt A c) c =
      (if c % A.perAPA < A.firstV then .U else if c % A.perAPA < A.firstZ0 then .V
        else if c % A.perAPA < A.firstZ1 then .Z0 else .Z1) ∧
    ∀ n, inView A .Z = some n →
      ∃ u v, inView A .U = some u ∧ inView A .V = some v ∧ u + v + n + n = A.perAPA := by
  obtain ⟨h1, h2, h3, h4, h5, h6⟩ := h
  constructor
  · unfold viewAt
    split
    · rfl
    · split
      · rfl
      · unfold apaView
        dsimp only
        split
        · rename_i e; rw [if_pos e.2]
        · split
          · rw [if_neg (by omega)]
          · rw [if_neg (by omega)]; omega
  · intro n hn
    unfold inView at hn
    dsimp only at hn
    split at hn
    · rename_i e
      simp only [Option.some.injEq] at hn
      exact ⟨_, _, rfl, rfl, by omega⟩
    · cases hn

/-- A detector with two cryostats of one APA each: U 0-3, V 4-7, collection 8-9 and 10-11. -/
def twoCryo : Apa := ⟨4, 8, 10, 11, 12, 1⟩

example : twoCryo.Ok := by constructor <;> decide

/-- In the second cryostat the first channel of the view is a channel of a third cryostat that does
not exist. -/
theorem C187_second_cryostat_refuted :
    ¬ ∀ (A : Apa) (c : Nat), A.Ok → firstOfChan A (viewAt A c) c ≤ c := by
  intro H
  have := H twoCryo 13 (by constructor <;> decide)
  revert this
  decide

/-- The consequence for the crawl: in the second cryostat the neighbour channel of a U channel is a V
channel. -/
theorem C187_crawl_second_cryostat_refuted :
    ¬ ∀ (A : Apa) (g : Disambig.Geo) (c : Nat), A.Ok → (∀ x, g.viewOf x = viewAt A x) →
      (∀ v x, g.first v x = firstOfChan A v x) → (∀ v n, inView A v = some n → g.perView v = n) →
      ∀ n : Nat, Disambig.closeChan g 1 c = (n : ℤ) → viewAt A n = viewAt A c := by
  intro H
  let g : Disambig.Geo :=
    { wires := fun _ => [], chanOf := fun _ => 0, viewOf := viewAt twoCryo, first := firstOfChan twoCryo
      perView := fun v => (inView twoCryo v).getD 0, apaOf := fun _ => 0, zmin := fun _ _ => 0
      zmax := fun _ _ => 0, cross := fun _ _ => false, threePos := fun _ _ _ => ⟨0, 0, 0⟩
      inter := fun _ _ => [], nearest := fun _ _ _ _ => ⟨false, 0, 0, 0⟩, offU := 0, offV := 0, offZ := 0 }
  have := H twoCryo g 13 (by constructor <;> decide) (fun _ => rfl) (fun _ _ => rfl)
    (by intro v n hn; simp [g, hn]) 18 (by decide +kernel)
  revert this
  decide

example : firstOfChan ⟨4, 8, 10, 11, 12, 2⟩ .V 17 = 16 := by decide

/-! ### C188: wires of a channel near a point -/

/-- **C187, the sides.** The two sides of an APA share out the wires of a channel: the wires of side 0 are those in
TPCs with even number, those of side 1 the others, in the order of the channel and none lost. -/
theorem C187_sides (ws : List Wid) :
    (∀ w, w ∈ segsPerSide ws 0 → Even w.tpc) ∧ (∀ w, w ∈ segsPerSide ws 1 → Odd w.tpc) ∧
      (segsPerSide ws 0).Sublist ws ∧ (segsPerSide ws 1).Sublist ws ∧
      (segsPerSide ws 0 ++ segsPerSide ws 1).Perm ws := by
  unfold segsPerSide
  refine ⟨?_, ?_, List.filter_sublist, List.filter_sublist, ?_⟩
  · intro w hw
    exact Nat.even_iff.2 (by simpa using (List.mem_filter.1 hw).2)
  · intro w hw
    exact Nat.odd_iff.2 (by simpa using (List.mem_filter.1 hw).2)
  · have e : (fun w : Wid => decide (w.tpc % 2 = 1)) = fun w => !decide (w.tpc % 2 = 0) := by
      funext w
      rcases Nat.mod_two_eq_zero_or_one w.tpc with h | h <;> simp [h]
    rw [e]
    exact List.filter_append_perm _ ws

example : segsPerSide [⟨true, 0, 0, 3⟩, ⟨true, 1, 0, 4⟩] 1 = [⟨true, 1, 0, 4⟩] := by decide

/-- **C188 (partial).** The wire returned is a wire of the channel in the TPC asked for, less than half
the configured range from the nearest wire; if the wires of the channel in the TPC are at least the
range apart it is the only such wire; and an invalid wire is returned only if there is none. -/
theorem C188_nearest_partial (ws : List Wid) (tpc near : Nat) (range : ℚ) :
    (∀ w, nearestOn ws tpc near range = some w →
      w ∈ ws ∧ w.tpc = tpc ∧ ((|(w.wire : ℤ) - near| : ℤ) : ℚ) < range / 2 ∧
      ((∀ a ∈ ws, ∀ b ∈ ws, a.tpc = tpc → b.tpc = tpc → a ≠ b →
          range ≤ ((|(a.wire : ℤ) - b.wire| : ℤ) : ℚ)) →
        ∀ v ∈ ws, v.tpc = tpc → ((|(v.wire : ℤ) - near| : ℤ) : ℚ) < range / 2 → v = w)) ∧
    (nearestOn ws tpc near range = none ↔
      ∀ w ∈ ws, w.tpc = tpc → range / 2 ≤ ((|(w.wire : ℤ) - near| : ℤ) : ℚ)) := by
  have key : ∀ (l : List Wid) (r : Option Wid),
      let o := l.foldl (fun r w =>
        if w.tpc ≠ tpc then r
        else if ((|(w.wire : ℤ) - near| : ℤ) : ℚ) < range / 2 then some w else r) r
      (∀ w, o = some w → r = some w ∨ (w ∈ l ∧ w.tpc = tpc ∧ ((|(w.wire : ℤ) - near| : ℤ) : ℚ) < range / 2)) ∧
      (o = none ↔ r = none ∧ ∀ w ∈ l, w.tpc = tpc → range / 2 ≤ ((|(w.wire : ℤ) - near| : ℤ) : ℚ)) := by
    intro l
    induction l with
    | nil => intro r; simp
    | cons x l ih =>
      intro r
      dsimp only [List.foldl_cons]
      obtain ⟨i1, i2⟩ := ih (if x.tpc ≠ tpc then r
        else if ((|(x.wire : ℤ) - near| : ℤ) : ℚ) < range / 2 then some x else r)
      constructor
      · intro w hw
        rcases i1 w hw with h | ⟨a, b, c⟩
        · split at h
          · exact .inl h
          · rename_i ht
            split at h
            · rename_i hd
              cases h
              exact .inr ⟨by simp, by simpa using ht, hd⟩
            · exact .inl h
        · exact .inr ⟨by simp [a], b, c⟩
      · rw [i2]
        split
        · rename_i ht
          simp only [List.forall_mem_cons]
          constructor
          · rintro ⟨a, b⟩; exact ⟨a, fun e => absurd e ht, b⟩
          · rintro ⟨a, _, b⟩; exact ⟨a, b⟩
        · rename_i ht
          have ht : x.tpc = tpc := by simpa using ht
          simp only [List.forall_mem_cons]
          split
          · rename_i hd
            constructor
            · rintro ⟨a, _⟩; cases a
            · rintro ⟨_, a, _⟩
              exact absurd (a ht) (not_le.2 hd)
          · rename_i hd
            constructor
            · rintro ⟨a, b⟩; exact ⟨a, fun _ => not_lt.1 hd, b⟩
            · rintro ⟨a, _, b⟩; exact ⟨a, b⟩
  obtain ⟨k1, k2⟩ := key ws none
  refine ⟨fun w hw => ?_, ?_⟩
  · rcases k1 w hw with h | ⟨a, b, c⟩
    · cases h
    · refine ⟨a, b, c, fun hsep v hv hvt hvd => ?_⟩
      by_contra hne
      have hs := hsep v hv w a hvt b hne
      have htri : |(v.wire : ℤ) - w.wire| ≤ |(v.wire : ℤ) - near| + |(w.wire : ℤ) - near| := by
        rw [abs_sub_comm (w.wire : ℤ) near]
        exact abs_sub_le _ _ _
      have htri' : ((|(v.wire : ℤ) - w.wire| : ℤ) : ℚ)
          ≤ ((|(v.wire : ℤ) - near| : ℤ) : ℚ) + ((|(w.wire : ℤ) - near| : ℤ) : ℚ) := by
        exact_mod_cast htri
      linarith
  · unfold nearestOn
    rw [k2]
    simp

/-- The range is the number of channels of the view times the wire pitch, a length, but it is compared
with a number of wires: with a pitch of half a centimetre a wire 30 wires from the point is not found,
although the next segments of the channel are 100 wires away. -/
theorem C188_units_refuted :
    ¬ ∀ (ws : List Wid) (tpc near nchan : Nat) (pitch : ℚ) (w : Wid), 0 < pitch → w ∈ ws → w.tpc = tpc →
      (∀ a ∈ ws, ∀ b ∈ ws, a.tpc = tpc → b.tpc = tpc → a ≠ b →
        (nchan : ℚ) ≤ ((|(a.wire : ℤ) - b.wire| : ℤ) : ℚ)) →
      ((|(w.wire : ℤ) - near| : ℤ) : ℚ) < (nchan : ℚ) / 2 →
      nearestOn ws tpc near (nchan * pitch) = some w := by
  intro H
  have := H [⟨true, 0, 0, 30⟩, ⟨true, 0, 0, 130⟩] 0 0 100 (1 / 2) ⟨true, 0, 0, 30⟩ (by norm_num) (by simp) rfl
    (by
      intro a ha b hb _ _ hne
      simp at ha hb
      rcases ha with rfl | rfl <;> rcases hb with rfl | rfl <;> simp at hne ⊢ <;> norm_num)
    (by norm_num)
  revert this
  decide +kernel

example : nearestOn [⟨true, 0, 0, 30⟩, ⟨true, 1, 0, 31⟩, ⟨true, 0, 0, 130⟩] 0 28 100
    = some ⟨true, 0, 0, 30⟩ := by decide +kernel

/-! ### C189: wires crossed by a line -/

/-- **C189 (partial).** Without extension, or if the line begins at wire 10 or later, the wires found are
exactly those of the channel in the TPC between the wires of the two ends (extended by 10). -/
theorem C189_line_partial (swap : Bool) (ws : List Wid) (tpc s e : Nat) (ext : Bool)
    (hs : s + 10 < word) (he : e + 10 < word) (hext : ext = true → 10 ≤ s ∧ 10 ≤ e) (w : Wid) :
    w ∈ lineCrossed swap ws tpc s e ext ↔
      w ∈ ws ∧ w.tpc = tpc ∧
        min s e ≤ w.wire + (if ext then 10 else 0) ∧ w.wire ≤ max s e + (if ext then 10 else 0) := by
  unfold lineCrossed
  dsimp only
  rw [List.mem_filter]
  have hk : valueInRange swap w.wire ((min s e + word - (if ext then 10 else 0)) % word)
      ((max s e + (if ext then 10 else 0)) % word) = true ↔
      min s e ≤ w.wire + (if ext then 10 else 0) ∧ w.wire ≤ max s e + (if ext then 10 else 0) := by
    have hw : word = 4294967296 := rfl
    have e1 : (min s e + word - (if ext then 10 else 0)) % word = min s e - (if ext then 10 else 0) := by
      cases ext
      · simp only [Bool.false_eq_true, if_false, Nat.sub_zero]
        rw [Nat.add_mod_right, Nat.mod_eq_of_lt (by omega)]
      · have := hext rfl
        simp only [if_true]
        rw [show min s e + word - 10 = (min s e - 10) + word by omega, Nat.add_mod_right,
          Nat.mod_eq_of_lt (by omega)]
    have e2 : (max s e + (if ext then 10 else 0)) % word = max s e + (if ext then 10 else 0) := by
      apply Nat.mod_eq_of_lt
      split <;> omega
    rw [e1, e2]
    unfold valueInRange
    rw [if_neg (by omega)]
    rw [decide_eq_true_eq]
    cases ext
    · simp
    · have := hext rfl
      simp only [if_true]
      omega
  simp only [Bool.and_eq_true, decide_eq_true_eq, hk]

/-- A line from wire 5 to wire 20, extended: wire 12 in its middle is not found, because the lower
limit is computed with unsigned numbers — whether or not the range test puts its limits in order. -/
theorem C189_low_wires_refuted (swap : Bool) :
    ¬ ∀ (ws : List Wid) (tpc s e : Nat) (w : Wid), s + 10 < word → e + 10 < word → w ∈ ws → w.tpc = tpc →
      min s e ≤ w.wire → w.wire ≤ max s e → w ∈ lineCrossed swap ws tpc s e true := by
  intro H
  have := H [⟨true, 0, 0, 12⟩] 0 5 20 ⟨true, 0, 0, 12⟩ (by decide) (by decide) (by simp) rfl (by decide) (by decide)
  revert this
  cases swap <;> decide +kernel

/-- With the limits put in order the wires *outside* the extended range are returned instead. -/
theorem C189_far_wires_refuted :
    ¬ ∀ (ws : List Wid) (tpc s e : Nat) (w : Wid), s + 10 < word → e + 10 < word →
      w ∈ lineCrossed true ws tpc s e true → w.wire ≤ max s e + 10 := by
  intro H
  have := H [⟨true, 0, 0, 3000⟩] 0 5 20 ⟨true, 0, 0, 3000⟩ (by decide) (by decide) (by decide +kernel)
  revert this
  decide

example : lineCrossed true [⟨true, 0, 0, 12⟩, ⟨true, 0, 0, 55⟩, ⟨true, 1, 0, 20⟩] 0 30 20 true
    = [⟨true, 0, 0, 12⟩] := by decide +kernel

/-! ### C190: crossings of channels -/

/-- **C190 (partial), all crossings.** The crossings of two channels are exactly those of pairs of their
wires in the same TPC and on different planes, and exchanging the channels gives the same ones. -/
theorem C190_crossings_partial (cross : Wid → Wid → Option Cross) (ws1 ws2 : List Wid) (x : Cross) :
    (x ∈ crossings cross ws1 ws2 ↔
      ∃ a ∈ ws1, ∃ b ∈ ws2, a.plane ≠ b.plane ∧ a.tpc = b.tpc ∧ cross a b = some x) ∧
    ((∀ a b, cross a b = cross b a) → (x ∈ crossings cross ws1 ws2 ↔ x ∈ crossings cross ws2 ws1)) := by
  have main : ∀ l1 l2, x ∈ crossings cross l1 l2 ↔
      ∃ a ∈ l1, ∃ b ∈ l2, a.plane ≠ b.plane ∧ a.tpc = b.tpc ∧ cross a b = some x := by
    intro l1 l2
    unfold crossings
    rw [List.mem_flatMap]
    constructor
    · rintro ⟨a, ha, hx⟩
      rw [List.mem_filterMap] at hx
      obtain ⟨b, hb, hx⟩ := hx
      split at hx
      · cases hx
      · rename_i hn
        rw [not_or] at hn
        exact ⟨a, ha, b, hb, hn.1, by simpa using hn.2, hx⟩
    · rintro ⟨a, ha, b, hb, h1, h2, h3⟩
      refine ⟨a, ha, List.mem_filterMap.2 ⟨b, hb, ?_⟩⟩
      rw [if_neg (by simp [h1, h2]), h3]
  refine ⟨main _ _, fun hsym => ?_⟩
  rw [main, main]
  constructor
  · rintro ⟨a, ha, b, hb, h1, h2, h3⟩
    exact ⟨b, hb, a, ha, fun e => h1 e.symm, h2.symm, by rw [← h3, hsym]⟩
  · rintro ⟨a, ha, b, hb, h1, h2, h3⟩
    exact ⟨b, hb, a, ha, fun e => h1 e.symm, h2.symm, by rw [← h3, hsym]⟩

theorem bestCross_fold (zc : ℚ) (tpc : Nat) : ∀ (xs : List Cross) (k : Nat) (p : ℚ × Nat),
    let r := (xs.zipIdx k).foldl (fun (p : ℚ × Nat) x =>
      if x.1.tpc = tpc ∧ |x.1.z - zc| < p.1 then (|x.1.z - zc|, x.2) else p) p
    (r = p ∧ ∀ x ∈ xs, x.tpc = tpc → p.1 ≤ |x.z - zc|) ∨
      (∃ x, xs[r.2 - k]? = some x ∧ k ≤ r.2 ∧ x.tpc = tpc ∧ |x.z - zc| = r.1 ∧ r.1 < p.1 ∧
        ∀ y ∈ xs, y.tpc = tpc → r.1 ≤ |y.z - zc|) := by
  intro xs
  induction xs with
  | nil => intro k p; simp
  | cons x xs ih =>
    intro k p
    dsimp only
    rw [List.zipIdx_cons, List.foldl_cons]
    dsimp only
    by_cases hx : x.tpc = tpc ∧ |x.z - zc| < p.1
    · rw [if_pos hx]
      rcases ih (k + 1) (|x.z - zc|, k) with ⟨h1, h2⟩ | ⟨y, h1, h2, h3, h4, h5, h6⟩
      · right
        rw [h1]
        refine ⟨x, by simp, le_refl _, hx.1, rfl, hx.2, ?_⟩
        intro y hy ht
        rcases List.mem_cons.1 hy with rfl | hy
        · exact le_refl _
        · exact h2 y hy ht
      · right
        refine ⟨y, ?_, by omega, h3, h4, lt_trans h5 hx.2, ?_⟩
        · rw [← h1]
          obtain ⟨d, hd⟩ := Nat.exists_eq_add_of_le h2
          rw [show ∀ n, n = k + 1 + d → n - k = d + 1 from fun n hn => by omega] <;> try exact hd
          rw [show ∀ n, n = k + 1 + d → n - (k + 1) = d from fun n hn => by omega] <;> try exact hd
          rw [List.getElem?_cons_succ]
        · intro z hz ht
          rcases List.mem_cons.1 hz with rfl | hz
          · exact h5.le
          · exact h6 z hz ht
    · rw [if_neg hx]
      rcases ih (k + 1) p with ⟨h1, h2⟩ | ⟨y, h1, h2, h3, h4, h5, h6⟩
      · left
        refine ⟨h1, ?_⟩
        intro y hy ht
        rcases List.mem_cons.1 hy with rfl | hy
        · by_contra hc
          exact hx ⟨ht, not_le.1 hc⟩
        · exact h2 y hy ht
      · right
        refine ⟨y, ?_, by omega, h3, h4, h5, ?_⟩
        · rw [← h1]
          obtain ⟨d, hd⟩ := Nat.exists_eq_add_of_le h2
          rw [show ∀ n, n = k + 1 + d → n - k = d + 1 from fun n hn => by omega] <;> try exact hd
          rw [show ∀ n, n = k + 1 + d → n - (k + 1) = d from fun n hn => by omega] <;> try exact hd
          rw [List.getElem?_cons_succ]
        · intro z hz ht
          rcases List.mem_cons.1 hz with rfl | hz
          · by_contra hc
            exact hx ⟨ht, lt_trans (not_le.1 hc) h5⟩
          · exact h6 z hz ht

/-- **C190 (partial), the best crossing.** If the two induction channels cross in the TPC of the
collection wire nearer to it along z than the length of the TPC, the crossing chosen is one of these,
and none is nearer. -/
theorem C190_best_partial (zc : ℚ) (tpc : Nat) (len : ℚ) (xs : List Cross)
    (h : ∃ x ∈ xs, x.tpc = tpc ∧ |x.z - zc| < len) :
    ∃ x, xs[bestCross zc tpc len xs]? = some x ∧ x.tpc = tpc ∧
      ∀ y ∈ xs, y.tpc = tpc → |x.z - zc| ≤ |y.z - zc| := by
  rcases bestCross_fold zc tpc xs 0 (len, 0) with ⟨_, h2⟩ | ⟨x, h1, _, h3, h4, _, h6⟩
  · obtain ⟨x, hx, ht, hl⟩ := h
    exact absurd (h2 x hx ht) (not_le.2 hl)
  · refine ⟨x, ?_, h3, fun y hy ht => by rw [h4]; exact h6 y hy ht⟩
    unfold bestCross
    rw [Nat.sub_zero] at h1
    exact h1

/-- If the channels cross only in the other TPC the first of these crossings is used. -/
theorem C190_other_tpc_refuted :
    ¬ ∀ (zc : ℚ) (tpc : Nat) (len : ℚ) (xs : List Cross) (x : Cross),
      xs[bestCross zc tpc len xs]? = some x → x.tpc = tpc := by
  intro H
  have := H 0 0 100 [⟨0, 0, 1⟩] ⟨0, 0, 1⟩ (by decide +kernel)
  revert this
  decide

example : bestCross 10 0 100 [⟨0, 10, 1⟩, ⟨0, 50, 0⟩, ⟨0, 12, 0⟩] = 2 := by decide +kernel

/-- The two sides share the wires of a channel: every wire is on exactly one of them. -/
theorem C190_sides (ws : List Wid) (w : Wid) (hw : w ∈ ws) :
    (w ∈ segsPerSide ws 0 ∧ w ∉ segsPerSide ws 1) ∨ (w ∈ segsPerSide ws 1 ∧ w ∉ segsPerSide ws 0) := by
  unfold segsPerSide
  simp only [List.mem_filter, hw, true_and, decide_eq_true_eq]
  omega

/-- The layout of C186 exists: 4 U, 4 V, 2 + 2 collection channels, two APAs. -/
def toyMap : Map :=
  { nch := 24, tpc := fun c => c / 12 * 2 + (if c % 12 < 10 then (if c % 12 < 8 then c % 2 else 0) else 1)
    view := fun c => if c % 12 < 4 then .U else if c % 12 < 8 then .V else .Z }

example : construct toyMap ⟨0, 0, 0, 0, 0, 0⟩ = some (⟨3, 4, 7, 8, 9, 10⟩, 11, 12) := by decide +kernel

example : Layout toyMap 4 8 10 12 := by
  constructor <;> try simp only [toyMap]
  all_goals first
    | omega
    | decide

end Verif.ApaGeo

import Verif.Hit.CandMorph
/-!
# The regions the morphological tool searches (C136)
-/
namespace Verif.CandShape
open Verif Verif.Wave Verif.CandHit

/-- the derivative crosses zero upwards at the end `i` of a region, where the erosion has dropped to the cut -/
def EndCross (d e : Nat → ℚ) (cut : ℚ) (i : Nat) : Prop := 1 ≤ i ∧ e i ≤ cut ∧ d (i - 1) < 0 ∧ 0 ≤ d i

/-- the derivative crosses zero upwards at the start `i` of a region, where the erosion is below the cut -/
def StartCross (d e : Nat → ℚ) (cut : ℚ) (i : Nat) : Prop := e i < cut ∧ d i ≤ 0 ∧ 0 < d (i + 1)

theorem regionFwd_end (d e : Nat → ℚ) (cut : ℚ) (b : Nat) (k : Nat) : ∀ i prev, i ≤ b → b - i < k →
    (0 ≤ prev ∨ (1 ≤ i ∧ prev = d (i - 1))) →
    (regionFwd d e cut b k i prev = b ∨ EndCross d e cut (regionFwd d e cut b k i prev)) ∧
    (∀ j, i < j → j < regionFwd d e cut b k i prev → ¬ EndCross d e cut j) := by
  induction k with
  | zero => intro i prev h1 h2; omega
  | succ k ih =>
    intro i prev h1 h2 hp
    rw [regionFwd]
    split
    · next h => exact ⟨Or.inl h, fun j h3 h4 => by omega⟩
    · split
      · next h3 =>
        refine ⟨Or.inr ?_, fun j h3 h4 => by omega⟩
        rcases hp with hp | ⟨h4, hp⟩
        · exact absurd h3.2.2 (not_lt.2 hp)
        · rw [hp] at h3
          refine ⟨h4, h3.1, h3.2.2, ?_⟩
          by_contra hc
          push Not at hc
          have := mul_pos_of_neg_of_neg hc h3.2.2
          linarith [h3.2.1]
      · next h3 h4 =>
        obtain ⟨g1, g2⟩ := ih (i + 1) (d i) (by omega) (by omega) (Or.inr ⟨by omega, by simp⟩)
        refine ⟨g1, ?_⟩
        intro j h5 h6 h7
        rcases Nat.eq_or_lt_of_le (show i + 1 ≤ j from h5) with rfl | h8
        · -- the next position was tried in the next round
          obtain ⟨k, rfl⟩ : ∃ m, k = m + 1 := ⟨k - 1, by omega⟩
          rw [regionFwd] at h6
          rw [if_neg (by
            intro hc
            rw [if_pos hc] at h6
            omega)] at h6
          obtain ⟨q1, q2, q3, q4⟩ := h7
          simp only [Nat.add_sub_cancel] at q3
          rw [if_pos ⟨q2, mul_nonpos_of_nonneg_of_nonpos q4 q3.le, q3⟩] at h6
          omega
        · exact g2 j h8 h6 h7

theorem regionBack_start (d e : Nat → ℚ) (cut : ℚ) (a : Nat) (k : Nat) : ∀ i prev, a ≤ i → i - a < k →
    (prev ≤ 0 ∨ prev = d (i + 1)) →
    (regionBack d e cut a k i prev = a ∨ StartCross d e cut (regionBack d e cut a k i prev)) ∧
    (∀ j, regionBack d e cut a k i prev < j → j < i → ¬ StartCross d e cut j) := by
  induction k with
  | zero => intro i prev h1 h2; omega
  | succ k ih =>
    intro i prev h1 h2 hp
    rw [regionBack]
    split
    · next h => exact ⟨Or.inl h, fun j h3 h4 => by omega⟩
    · split
      · next h3 =>
        refine ⟨Or.inr ?_, fun j h3 h4 => by omega⟩
        rcases hp with hp | hp
        · exact absurd h3.2.2 (not_lt.2 hp)
        · rw [hp] at h3
          refine ⟨h3.1, ?_, h3.2.2⟩
          by_contra hc
          push Not at hc
          have := mul_pos hc h3.2.2
          linarith [h3.2.1]
      · next h3 h4 =>
        obtain ⟨g1, g2⟩ := ih (i - 1) (d i) (by omega) (by omega) (Or.inr (by rw [show i - 1 + 1 = i by omega]))
        refine ⟨g1, ?_⟩
        intro j h5 h6 h7
        rcases Nat.eq_or_lt_of_le (show j ≤ i - 1 by omega) with rfl | h8
        · obtain ⟨k, rfl⟩ : ∃ m, k = m + 1 := ⟨k - 1, by omega⟩
          rw [regionBack] at h5
          rw [if_neg (by
            intro hc
            rw [if_pos hc] at h5
            omega)] at h5
          obtain ⟨q1, q2, q3⟩ := h7
          rw [show i - 1 + 1 = i by omega] at q3
          rw [if_pos ⟨q1, mul_nonpos_of_nonpos_of_nonneg q2 q3.le, q3⟩] at h5
          omega
        · exact g2 j h5 h8 h7

/-- one region `[r.1, r.2)` around a tick `m` whose dilation reaches the threshold: it begins and ends at the nearest upward
zero crossing of the derivative with low erosion, unless the neighbouring region or the end of the waveform is nearer -/
structure Region (d e l : Nat → ℚ) (c : Cfg) (lo hi : Nat) (rs : List (Nat × Nat)) (r : Nat × Nat) (m : Nat) : Prop where
  inside : lo ≤ r.1 ∧ r.1 ≤ m ∧ m < r.2 ∧ r.2 ≤ hi
  high : c.dilThr ≤ l m ∧ ∀ k, r.1 ≤ k → k < r.2 → l k ≤ l m
  start : r.1 = lo ∨ (∃ q ∈ rs, q.2 = r.1) ∨ StartCross d e (c.eroFrac * l m) r.1
  stop : r.2 = hi ∨ (∃ q ∈ rs, q.1 = r.2) ∨ EndCross d e (c.eroFrac * l m) r.2
  noStart : ∀ j, r.1 < j → j < m → ¬ StartCross d e (c.eroFrac * l m) j
  noEnd : ∀ j, m < j → j < r.2 → ¬ EndCross d e (c.eroFrac * l m) j

theorem Region.widen {d e l : Nat → ℚ} {c : Cfg} {lo hi lo' hi' : Nat} {rs rs' : List (Nat × Nat)} {r : Nat × Nat} {m : Nat}
    (h : Region d e l c lo hi rs r m) (h1 : lo' ≤ lo) (h2 : hi ≤ hi') (h3 : ∀ q ∈ rs, q ∈ rs')
    (h4 : lo = lo' ∨ ∃ q ∈ rs', q.2 = lo) (h5 : hi = hi' ∨ ∃ q ∈ rs', q.1 = hi) : Region d e l c lo' hi' rs' r m := by
  have hi1 := h.inside
  refine ⟨by omega, h.high, ?_, ?_, h.noStart, h.noEnd⟩
  · rcases h.start with g | ⟨q, hq, g⟩ | g
    · rcases h4 with h4 | ⟨q, hq, h4⟩
      · exact Or.inl (by omega)
      · exact Or.inr (Or.inl ⟨q, hq, by omega⟩)
    · exact Or.inr (Or.inl ⟨q, h3 q hq, g⟩)
    · exact Or.inr (Or.inr g)
  · rcases h.stop with g | ⟨q, hq, g⟩ | g
    · rcases h5 with h5 | ⟨q, hq, h5⟩
      · exact Or.inl (by omega)
      · exact Or.inr (Or.inl ⟨q, hq, by omega⟩)
    · exact Or.inr (Or.inl ⟨q, h3 q hq, g⟩)
    · exact Or.inr (Or.inr g)

/-- searching the regions one after the other -/
def searchAll (n : Nat) (d : Nat → ℚ) (c : Cfg) (R : Nat) (out : List Hit) (rs : List (Nat × Nat)) : Option (Res (List Hit)) :=
  rs.foldl (fun acc r => andThen acc fun o => diffHits n d c.minT c.minP r.1 r.2 (R + r.1) o) (some (.ok out))

/-- position `k` is in a region, or in a gap of at most `MinDeltaTicks` positions between regions and ends -/
def Treated (minT : Int) (lo hi : Nat) (rs : List (Nat × Nat)) (k : Nat) : Prop :=
  (∃ r ∈ rs, r.1 ≤ k ∧ k < r.2) ∨
  ∃ u v, u ≤ k ∧ k < v ∧ (v : Int) - u ≤ minT ∧ (u = lo ∨ ∃ r ∈ rs, r.2 = u) ∧ (v = hi ∨ ∃ r ∈ rs, r.1 = v)

theorem Treated.widen {minT : Int} {lo hi lo' hi' : Nat} {rs rs' : List (Nat × Nat)} {k : Nat} (h : Treated minT lo hi rs k)
    (h3 : ∀ q ∈ rs, q ∈ rs') (h4 : lo = lo' ∨ ∃ q ∈ rs', q.2 = lo) (h5 : hi = hi' ∨ ∃ q ∈ rs', q.1 = hi) :
    Treated minT lo' hi' rs' k := by
  rcases h with ⟨r, hr, h⟩ | ⟨u, v, h1, h2, h6, h7, h8⟩
  · exact Or.inl ⟨r, h3 r hr, h⟩
  · refine Or.inr ⟨u, v, h1, h2, h6, ?_, ?_⟩
    · rcases h7 with rfl | ⟨q, hq, h7⟩
      · exact h4
      · exact Or.inr ⟨q, h3 q hq, h7⟩
    · rcases h8 with rfl | ⟨q, hq, h8⟩
      · exact h5
      · exact Or.inr ⟨q, h3 q hq, h8⟩

/-- what the region search of `[a, b)` amounts to -/
structure Partition (d e l : Nat → ℚ) (c : Cfg) (a b : Nat) (rs : List (Nat × Nat)) : Prop where
  region : ∀ r ∈ rs, ∃ m, Region d e l c a b rs r m
  ordered : rs.Pairwise fun r q => r.2 ≤ q.1
  complete : ∀ k, a ≤ k → k < b → c.dilThr ≤ l k → Treated c.minT a b rs k

theorem Partition.nil {d e l : Nat → ℚ} {c : Cfg} {a b : Nat} (h : (b : Int) - a ≤ c.minT ∨ ∀ k, a ≤ k → k < b → l k < c.dilThr) :
    Partition d e l c a b [] := by
  refine ⟨by simp, List.Pairwise.nil, ?_⟩
  intro k h1 h2 h3
  rcases h with h | h
  · exact Or.inr ⟨a, b, h1, h2, h, Or.inl rfl, Or.inl rfl⟩
  · exact absurd h3 (not_le.2 (h k h1 h2))

theorem searchAll_append {n : Nat} {d : Nat → ℚ} {c : Cfg} {R : Nat} {out : List Hit} {rs qs : List (Nat × Nat)} {o : List Hit}
    (h : searchAll n d c R out rs = some (.ok o)) : searchAll n d c R out (rs ++ qs) = searchAll n d c R o qs := by
  unfold searchAll at *
  rw [List.foldl_append, h]

theorem searchAll_some {n : Nat} {d : Nat → ℚ} {c : Cfg} {R : Nat} (e l : Nat → ℚ) {a b : Nat} (hb : b ≤ n) : ∀ (rs : List (Nat × Nat)) (hi : Nat) (out : List Hit),
    (∀ r ∈ rs, a ≤ r.1 ∧ r.1 < r.2 ∧ r.2 ≤ b) → rs.Pairwise (fun r q => r.2 ≤ q.1) → (∀ r ∈ rs, hi ≤ r.1) → MInv n d R hi out →
    ∃ o, searchAll n d c R out rs = some (.ok o) ∧ ∃ hi', hi' < b ⊔ (hi + 1) ∧ MInv n d R hi' o := by
  intro rs
  induction rs with
  | nil => intro hi out _ _ _ h; exact ⟨out, rfl, hi, by simp, h⟩
  | cons r rs ih =>
    intro hi out h1 h2 h3 h4
    obtain ⟨r1, r2, r3⟩ := h1 r (by simp)
    obtain ⟨p1, p2⟩ := List.pairwise_cons.1 h2
    obtain ⟨-, o, g1, -, -, g2, -⟩ := C135_region (d := d) c.minT c.minP (R := R) r2 (by omega) h4 (h3 r (by simp))
    obtain ⟨o', k1, hi', k2, k3⟩ := ih (r.2 - 1) o (fun q hq => h1 q (List.mem_cons_of_mem _ hq)) p2 (fun q hq => by
      have := p1 q hq; omega) g2
    refine ⟨o', ?_, hi', ?_, k3⟩
    · unfold searchAll at *
      rw [List.foldl_cons]
      simp only [andThen]
      rw [g1]
      exact k1
    · rcases lt_sup_iff.1 k2 with g | g
      · exact lt_sup_iff.2 (Or.inl g)
      · exact lt_sup_iff.2 (Or.inl (by omega))

theorem regions_partition (n : Nat) (d e l : Nat → ℚ) (c : Cfg) (hT : 0 ≤ c.minT) (R : Nat) (fuel : Nat) :
    ∀ a b hi out, b - a < fuel → a < b → b ≤ n → hi ≤ a → MInv n d R hi out →
    ∃ rs, regions n d e l c fuel a b (R + a) out = searchAll n d c R out rs ∧ Partition d e l c a b rs := by
  induction fuel with
  | zero => intro a b hi out h; omega
  | succ fuel ih =>
    intro a b hi out hfuel hab hbn hhi hinv
    rw [regions]
    split
    · next h => exact ⟨[], rfl, Partition.nil (Or.inl (by omega))⟩
    rw [if_neg (by omega)]
    dsimp only
    have hm := bestElt_best strict_max l a (b - a) (by omega)
    rw [show a + (b - a) = b by omega] at hm
    generalize bestElt ltMax l a (b - a) = m at *
    obtain ⟨m1, m2, m3⟩ := hm
    have m4 : ∀ k, a ≤ k → k < b → l k ≤ l m := by
      intro k h1 h2
      have := m3 k h1 h2
      simpa [ltMax] using this
    split
    · next h => exact ⟨[], rfl, Partition.nil (Or.inr fun k h1 h2 => lt_of_le_of_lt (m4 k h1 h2) h)⟩
    next hthr =>
    obtain ⟨b1, b2⟩ := regionBack_spec d e (c.eroFrac * l m) a (m - a + 1) m (-1) m1
    obtain ⟨b3, b4⟩ := regionBack_start d e (c.eroFrac * l m) a (m - a + 1) m (-1) m1 (by omega) (Or.inl (by norm_num))
    obtain ⟨f1, f2, f3⟩ := regionFwd_spec d e (c.eroFrac * l m) b (b - m + 1) m 1 m2.le (by omega)
    obtain ⟨f5, f6⟩ := regionFwd_end d e (c.eroFrac * l m) b (b - m + 1) m 1 m2.le (by omega) (Or.inl (by norm_num))
    have f4 := f3 m2 (by norm_num)
    generalize regionBack d e (c.eroFrac * l m) a (m - a + 1) m (-1) = rs at *
    generalize regionFwd d e (c.eroFrac * l m) b (b - m + 1) m 1 = re at *
    have hleft : ∃ ls, (if c.minT < (rs : Int) - a then regions n d e l c fuel a rs (R + a) out else some (.ok out)) =
        searchAll n d c R out ls ∧ Partition d e l c a rs ls := by
      split
      · next h => exact ih a rs hi out (by omega) (by omega) (by omega) hhi hinv
      · next h => exact ⟨[], rfl, Partition.nil (Or.inl (by omega))⟩
    obtain ⟨ls, g1, g2⟩ := hleft
    rw [g1]
    have hlsIn : ∀ r ∈ ls, a ≤ r.1 ∧ r.1 < r.2 ∧ r.2 ≤ rs := by
      intro r hr
      obtain ⟨m', g⟩ := g2.region r hr
      have := g.inside
      omega
    obtain ⟨o1, k1, hi1, k2, k3⟩ := searchAll_some (c := c) (R := R) e l (show rs ≤ n by omega) ls hi out hlsIn g2.ordered
      (fun r hr => by have := (hlsIn r hr).1; omega) hinv
    have hhi1 : hi1 ≤ rs := by
      rcases lt_sup_iff.1 k2 with g | g <;> omega
    rw [k1]
    simp only [andThen]
    obtain ⟨-, o2, j1, -, -, j2, -⟩ := C135_region (d := d) c.minT c.minP (R := R) (show rs < re by omega) (by omega) k3 hhi1
    rw [show R + a + (rs - a) = R + rs by omega, j1]
    simp only [andThen]
    have hmid : searchAll n d c R out (ls ++ [(rs, re)]) = some (.ok o2) := by
      rw [searchAll_append k1]
      unfold searchAll
      simpa [andThen] using j1
    have hright : ∃ qs, (if c.minT < (b : Int) - re then regions n d e l c fuel re b (R + a + (re - a)) o2 else some (.ok o2)) =
        searchAll n d c R o2 qs ∧ Partition d e l c re b qs := by
      split
      · next h =>
        rw [show R + a + (re - a) = R + re by omega]
        exact ih re b (re - 1) o2 (by omega) (by omega) hbn (by omega) j2
      · next h => exact ⟨[], rfl, Partition.nil (Or.inl (by omega))⟩
    obtain ⟨qs, h1, h2⟩ := hright
    rw [h1]
    refine ⟨ls ++ [(rs, re)] ++ qs, by rw [searchAll_append hmid], ?_⟩
    have hin : (rs, re) ∈ ls ++ [(rs, re)] ++ qs := by simp
    have hqsIn : ∀ r ∈ qs, re ≤ r.1 := by
      intro r hr
      obtain ⟨m', g⟩ := h2.region r hr
      exact g.inside.1
    refine ⟨?_, ?_, ?_⟩
    · intro r hr
      rcases List.mem_append.1 hr with hr | hr
      · rcases List.mem_append.1 hr with hr | hr
        · obtain ⟨m', g⟩ := g2.region r hr
          exact ⟨m', g.widen (le_refl _) (by omega) (fun q hq => by simp [hq]) (Or.inl rfl) (Or.inr ⟨_, hin, rfl⟩)⟩
        · rw [List.mem_singleton.1 hr]
          refine ⟨m, ⟨b1, b2, f4, f2⟩, ⟨not_lt.1 hthr, fun k h3 h4 => m4 k (by simp only at h3; omega) (by simp only at h4; omega)⟩, ?_, ?_, b4, f6⟩
          · rcases b3 with g | g
            · exact Or.inl g
            · exact Or.inr (Or.inr g)
          · rcases f5 with g | g
            · exact Or.inl g
            · exact Or.inr (Or.inr g)
      · obtain ⟨m', g⟩ := h2.region r hr
        exact ⟨m', g.widen (by omega) (le_refl _) (fun q hq => by simp [hq]) (Or.inr ⟨_, hin, rfl⟩) (Or.inl rfl)⟩
    · refine List.pairwise_append.2 ⟨List.pairwise_append.2 ⟨g2.ordered, List.pairwise_singleton _ _, ?_⟩, h2.ordered, ?_⟩
      · intro x hx y hy
        rw [List.mem_singleton.1 hy]
        exact (hlsIn x hx).2.2
      · intro x hx y hy
        have := hqsIn y hy
        rcases List.mem_append.1 hx with hx | hx
        · have := (hlsIn x hx).2.2
          omega
        · rw [List.mem_singleton.1 hx]
          exact this
    · intro k h3 h4 h5
      rcases Nat.lt_or_ge k rs with h6 | h6
      · exact (g2.complete k h3 h6 h5).widen (fun q hq => by simp [hq]) (Or.inl rfl) (Or.inr ⟨_, hin, rfl⟩)
      · rcases Nat.lt_or_ge k re with h7 | h7
        · exact Or.inl ⟨_, hin, h6, h7⟩
        · exact (h2.complete k h7 h4 h5).widen (fun q hq => by simp [hq]) (Or.inr ⟨_, hin, rfl⟩) (Or.inl rfl)

/-- **C136.** The tool searches disjoint regions in order. Each surrounds the tick of its largest dilation, which reaches
the threshold, and ends on both sides at the nearest upward zero crossing of the derivative with low erosion (or at the next
region or the end). Every tick whose dilation reaches the threshold is in a region or in a gap of at most `MinDeltaTicks`. -/
theorem C136_regions (n : Nat) (hn : 0 < n) (d e l : Nat → ℚ) (c : Cfg) (hT : 0 ≤ c.minT) (R : Nat) (fuel : Nat) (hf : n < fuel) :
    ∃ rs, regions n d e l c fuel 0 n R [] = searchAll n d c R [] rs ∧ Partition d e l c 0 n rs :=
  regions_partition n d e l c hT R fuel 0 n 0 [] (by omega) hn (le_refl _) (le_refl _) ⟨by simp, List.Pairwise.nil⟩

/-- With the default `MinDeltaTicks` of 0 no tick is left out. -/
theorem C136_nothing_missed {d e l : Nat → ℚ} {c : Cfg} {n : Nat} {rs : List (Nat × Nat)} (h : Partition d e l c 0 n rs)
    (hT : c.minT = 0) {k : Nat} (hk : k < n) (hl : c.dilThr ≤ l k) : ∃ r ∈ rs, r.1 ≤ k ∧ k < r.2 := by
  rcases h.complete k (by omega) hk hl with h | ⟨u, v, h1, h2, h3, -⟩
  · exact h
  · omega

/-- a flat dilation of 5 on 3 ticks: one region -/
example : Partition (fun _ => 0) (fun _ => 5) (fun _ => 5) {} 0 3 [(0, 3)] := by
  refine ⟨?_, List.pairwise_singleton _ _, fun k h1 h2 _ => Or.inl ⟨(0, 3), by simp, h1, h2⟩⟩
  intro r hr
  rw [List.mem_singleton.1 hr]
  refine ⟨0, by simp, ⟨by norm_num, fun _ _ _ => le_refl _⟩, Or.inl rfl, Or.inl rfl, fun j h1 h2 => by omega, ?_⟩
  rintro j - - ⟨-, -, h, -⟩
  exact lt_irrefl _ h

end Verif.CandShape

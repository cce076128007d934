import Verif.Cluster.BlurModel
import Mathlib.Data.List.Nodup
import Mathlib.Data.List.Range
import Mathlib.Logic.Relation
import Mathlib.Tactic.Linarith
import Mathlib.Tactic.Ring
/-! # Lemmas about `FindClusters` -/
namespace Verif.Blur
open Verif

/-! ## Specification -/

/-- two bins are within the clustering distances of each other -/
def Near (P : Cfg) (nx b n : Nat) : Prop :=
  |((b % nx : Nat) : Int) - ((n % nx : Nat) : Int)| ≤ P.wireDist ∧ |((b / nx : Nat) : Int) - ((n / nx : Nat) : Int)| ≤ P.tickDist

/-- a step of a cluster: to another bin of the image, near and above the charge threshold -/
def Step (P : Cfg) (im : Img) (b n : Nat) : Prop :=
  n < im.nx * im.ny ∧ n ≠ b ∧ Near P im.nx b n ∧ P.chargeThr < chargeOf im n

/-- the positive times of the hits of a list of bins -/
def realTimes (im : Img) (hm : HitMap) (cl : List Nat) : List ℚ := (cl.map (timeOf im.nx hm)).filter (fun t => decide (0 < t))

/-- every bin with a hit, after the first one, is close in time to an earlier one -/
def Chain (P : Cfg) (im : Img) (hm : HitMap) (l : List Nat) : Prop :=
  ∀ pre b post, l = pre ++ b :: post → 0 < timeOf im.nx hm b → (∃ a ∈ pre, 0 < timeOf im.nx hm a) →
    ∃ a ∈ pre, 0 < timeOf im.nx hm a ∧ |timeOf im.nx hm b - timeOf im.nx hm a| < P.timeThr

/-! ## Bins -/

theorem bin_lt {nx ny x y : Nat} (hx : x < nx) (hy : y < ny) : binOf nx x y < nx * ny := by
  unfold binOf
  have : (y + 1) * nx ≤ ny * nx := Nat.mul_le_mul_right _ hy
  nlinarith

theorem bin_mod {nx x : Nat} (y : Nat) (hx : x < nx) : binOf nx x y % nx = x := by
  unfold binOf; rw [Nat.mul_comm, Nat.mul_add_mod, Nat.mod_eq_of_lt hx]

theorem bin_div {nx x : Nat} (y : Nat) (hx : x < nx) : binOf nx x y / nx = y := by
  unfold binOf
  rw [Nat.mul_comm, Nat.mul_add_div (by omega), Nat.div_eq_of_lt hx, Nat.add_zero]

theorem bin_eq (nx b : Nat) : binOf nx (b % nx) (b / nx) = b := by
  unfold binOf; rw [Nat.mul_comm]; exact Nat.div_add_mod b nx

theorem div_lt {nx ny b : Nat} (h : b < nx * ny) : b / nx < ny := by
  apply Nat.div_lt_of_lt_mul h

theorem mod_lt {nx ny b : Nat} (h : b < nx * ny) : b % nx < nx := by
  apply Nat.mod_lt
  rcases Nat.eq_zero_or_pos nx with h0 | h0
  · subst h0; simp at h
  · exact h0

theorem mem_allBins {nx ny b : Nat} : b ∈ allBins nx ny ↔ b < nx * ny := by
  simp only [allBins, List.mem_flatMap, List.mem_range, List.mem_map]
  constructor
  · rintro ⟨x, hx, y, hy, rfl⟩; exact bin_lt hx hy
  · intro h; exact ⟨b % nx, mod_lt h, b / nx, div_lt h, bin_eq nx b⟩

theorem mem_values {im : Img} {v : ℚ × Nat} : v ∈ values im ↔ v.2 < im.nx * im.ny ∧ v.1 = chargeOf im v.2 := by
  unfold values
  rw [(List.perm_insertionSort geVal _).mem_iff, List.mem_map]
  constructor
  · rintro ⟨b, hb, rfl⟩; exact ⟨mem_allBins.mp hb, rfl⟩
  · rintro ⟨h1, h2⟩; exact ⟨v.2, mem_allBins.mpr h1, by rw [← h2]⟩

instance : Std.Total geVal := ⟨fun a b => by
  unfold geVal
  rcases lt_trichotomy a.1 b.1 with h | h | h
  · exact Or.inr (Or.inl h)
  · rcases Nat.le_total a.2 b.2 with h2 | h2
    · exact Or.inr (Or.inr ⟨h, h2⟩)
    · exact Or.inl (Or.inr ⟨h.symm, h2⟩)
  · exact Or.inl (Or.inl h)⟩

instance : IsTrans (ℚ × Nat) geVal := ⟨fun a b c h1 h2 => by
  unfold geVal at *
  rcases h1 with h1 | ⟨h1, h1'⟩ <;> rcases h2 with h2 | ⟨h2, h2'⟩
  · exact Or.inl (lt_trans h2 h1)
  · exact Or.inl (h2 ▸ h1)
  · exact Or.inl (h1 ▸ h2)
  · exact Or.inr ⟨h2.trans h1, le_trans h2' h1'⟩⟩

theorem values_sorted (im : Img) : (values im).Pairwise geVal := List.pairwise_insertionSort geVal _

theorem mem_window {n c d v : Nat} : v ∈ window n c d ↔ v < n ∧ v ≤ c + d ∧ c ≤ v + d := by
  simp only [window, List.mem_filterMap, List.mem_range]
  constructor
  · rintro ⟨k, hk, h⟩
    split at h
    · injection h with h; omega
    · cases h
  · rintro ⟨h1, h2, h3⟩
    refine ⟨v + d - c, by omega, ?_⟩
    rw [if_pos (by omega)]
    congr 1; omega

theorem mem_nbrs {P : Cfg} {nx ny b n : Nat} (hb : b < nx * ny) :
    n ∈ nbrs P nx ny b ↔ n < nx * ny ∧ n ≠ b ∧ Near P nx b n := by
  have hd : (b / nx) % ny = b / nx := Nat.mod_eq_of_lt (div_lt hb)
  simp only [nbrs, List.mem_flatMap, List.mem_filterMap, mem_window, hd]
  constructor
  · rintro ⟨x, ⟨hx, hx1, hx2⟩, y, ⟨hy, hy1, hy2⟩, h⟩
    split at h
    · cases h
    · rename_i hne
      injection h with h
      subst h
      refine ⟨bin_lt hx hy, ?_, ?_⟩
      · intro h
        apply hne
        rw [← h, bin_mod y hx, bin_div y hx]
        exact ⟨rfl, rfl⟩
      · unfold Near
        rw [bin_mod y hx, bin_div y hx]
        constructor <;> rw [abs_le] <;> constructor <;> omega
  · rintro ⟨h1, h2, h3, h4⟩
    rw [abs_le] at h3 h4
    refine ⟨n % nx, ⟨mod_lt h1, by omega, by omega⟩, n / nx, ⟨div_lt h1, by omega, by omega⟩, ?_⟩
    rw [if_neg, bin_eq]
    rintro ⟨h5, h6⟩
    apply h2
    rw [← bin_eq nx n, h5, h6, bin_eq]

/-! ## Invariant of a growing cluster -/

/-- `N` is the number of bins, `base` the bins used by other clusters -/
structure Inv (N : Nat) (base : Nat → Bool) (used : Nat → Bool) (cl : List Nat) : Prop where
  nodup : cl.Nodup
  lt : ∀ b ∈ cl, b < N
  free : ∀ b ∈ cl, base b = false
  used : ∀ b, used b = true ↔ base b = true ∨ b ∈ cl

theorem Inv.length_le {N : Nat} {base used : Nat → Bool} {cl : List Nat} (h : Inv N base used cl) : cl.length ≤ N := by
  have : cl ⊆ List.range N := fun b hb => List.mem_range.mpr (h.lt b hb)
  have := (List.subperm_of_subset h.nodup this).length_le
  simpa using this

theorem Inv.add {N : Nat} {base used : Nat → Bool} {cl : List Nat} (h : Inv N base used cl) {n : Nat} (hn : n < N)
    (hu : used n = false) : Inv N base (setUsed used n true) (cl ++ [n]) := by
  have hnb : ¬ (base n = true ∨ n ∈ cl) := by rw [← h.used]; simp [hu]
  push Not at hnb
  refine ⟨?_, ?_, ?_, ?_⟩
  · rw [List.nodup_append]
    refine ⟨h.nodup, by simp, ?_⟩
    rintro a ha b hb rfl
    rw [List.mem_singleton] at hb
    exact hnb.2 (hb ▸ ha)
  · intro b hb
    rw [List.mem_append, List.mem_singleton] at hb
    rcases hb with hb | hb
    · exact h.lt b hb
    · omega
  · intro b hb
    rw [List.mem_append, List.mem_singleton] at hb
    rcases hb with hb | hb
    · exact h.free b hb
    · subst hb; simpa using hnb.1
  · intro b
    unfold setUsed
    rw [List.mem_append, List.mem_singleton]
    by_cases hbn : b = n
    · simp [hbn]
    · simp [hbn, h.used]

theorem pushTime_eq (im : Img) (hm : HitMap) (cl : List Nat) (n : Nat) :
    pushTime (realTimes im hm cl) (timeOf im.nx hm n) = realTimes im hm (cl ++ [n]) := by
  unfold pushTime realTimes
  rw [List.map_append, List.filter_append]
  by_cases h : 0 < timeOf im.nx hm n <;> simp [h]

theorem mem_realTimes {im : Img} {hm : HitMap} {cl : List Nat} {t : ℚ} :
    t ∈ realTimes im hm cl ↔ ∃ a ∈ cl, 0 < timeOf im.nx hm a ∧ timeOf im.nx hm a = t := by
  unfold realTimes
  rw [List.mem_filter, List.mem_map]
  constructor
  · rintro ⟨⟨a, ha, rfl⟩, h⟩; exact ⟨a, ha, by simpa using h, rfl⟩
  · rintro ⟨a, ha, h, rfl⟩; exact ⟨⟨a, ha, rfl⟩, by simpa using h⟩

theorem passes_iff {im : Img} {hm : HitMap} {cl : List Nat} {thr t : ℚ} :
    passes thr (realTimes im hm cl) t = true ↔ ∃ a ∈ cl, 0 < timeOf im.nx hm a ∧ |t - timeOf im.nx hm a| < thr := by
  unfold passes
  rw [List.any_eq_true]
  constructor
  · rintro ⟨u, hu, h⟩
    obtain ⟨a, ha, h0, rfl⟩ := mem_realTimes.mp hu
    exact ⟨a, ha, h0, by simpa using h⟩
  · rintro ⟨a, ha, h0, h⟩
    exact ⟨timeOf im.nx hm a, mem_realTimes.mpr ⟨a, ha, h0, rfl⟩, by simpa using h⟩

theorem timeOk_iff {P : Cfg} {im : Img} {hm : HitMap} {cl : List Nat} {t : ℚ} :
    timeOk P (realTimes im hm cl) t = true ↔
      (0 < t → (∃ a ∈ cl, 0 < timeOf im.nx hm a) → ∃ a ∈ cl, 0 < timeOf im.nx hm a ∧ |t - timeOf im.nx hm a| < P.timeThr) := by
  have hl : 0 < (realTimes im hm cl).length ↔ ∃ a ∈ cl, 0 < timeOf im.nx hm a := by
    rw [List.length_pos_iff_exists_mem]
    constructor
    · rintro ⟨t, ht⟩
      obtain ⟨a, ha, h, _⟩ := mem_realTimes.mp ht
      exact ⟨a, ha, h⟩
    · rintro ⟨a, ha, h⟩; exact ⟨_, mem_realTimes.mpr ⟨a, ha, h, rfl⟩⟩
  unfold timeOk
  rw [Bool.not_eq_true', Bool.and_eq_false_iff, Bool.and_eq_false_iff, Bool.not_eq_false', passes_iff, decide_eq_false_iff_not,
    decide_eq_false_iff_not, hl]
  generalize (∃ a ∈ cl, 0 < timeOf im.nx hm a) = A
  generalize (∃ a ∈ cl, 0 < timeOf im.nx hm a ∧ |t - timeOf im.nx hm a| < P.timeThr) = B
  tauto

theorem Chain.add {P : Cfg} {im : Img} {hm : HitMap} {cl : List Nat} {n : Nat} (h : Chain P im hm cl)
    (hn : 0 < timeOf im.nx hm n → (∃ a ∈ cl, 0 < timeOf im.nx hm a) →
      ∃ a ∈ cl, 0 < timeOf im.nx hm a ∧ |timeOf im.nx hm n - timeOf im.nx hm a| < P.timeThr) : Chain P im hm (cl ++ [n]) := by
  intro pre b post e ht hex
  rcases List.eq_nil_or_concat post with rfl | ⟨post', z, rfl⟩
  · have := List.append_inj' e (by simp)
    obtain ⟨h1, h2⟩ := this
    injection h2 with h2
    subst h1 h2
    exact hn ht hex
  · have e' : cl ++ [n] = (pre ++ b :: post') ++ [z] := by rw [e]; simp
    have := List.append_inj' e' (by simp)
    exact h pre b post' this.1 ht hex

/-- everything a growing cluster keeps -/
structure GInv (P : Cfg) (im : Img) (hm : HitMap) (base : Nat → Bool) (sd : Nat) (s : St) : Prop where
  inv : Inv (im.nx * im.ny) base s.used s.cl
  times : s.times = realTimes im hm s.cl
  chain : Chain P im hm s.cl
  hd : s.cl.head? = some sd

theorem GInv.add {P : Cfg} {im : Img} {hm : HitMap} {base : Nat → Bool} {sd : Nat} {s : St} (h : GInv P im hm base sd s) {n : Nat}
    (hn : n < im.nx * im.ny) (hu : s.used n = false) (ht : timeOk P s.times (timeOf im.nx hm n) = true) :
    GInv P im hm base sd (s.add n (timeOf im.nx hm n)) := by
  refine ⟨h.inv.add hn hu, ?_, ?_, ?_⟩
  · show pushTime s.times _ = _
    rw [h.times, pushTime_eq]; rfl
  · rw [h.times, timeOk_iff] at ht
    exact h.chain.add ht
  · show (s.cl ++ [n]).head? = _
    rw [List.head?_append, h.hd]; rfl

theorem growOne_cases (P : Cfg) (im : Img) (hm : HitMap) (s : St) (n : Nat) :
    (growOne P im hm s n = s ∧ (n < im.nx * im.ny → s.used n = true ∨ timeOk P s.times (timeOf im.nx hm n) = false ∨
      chargeOf im n ≤ P.chargeThr)) ∨
    (growOne P im hm s n = s.add n (timeOf im.nx hm n) ∧ n < im.nx * im.ny ∧ s.used n = false ∧
      timeOk P s.times (timeOf im.nx hm n) = true ∧ P.chargeThr < chargeOf im n) := by
  unfold growOne
  split_ifs with h1 h2 h3 h4
  · exact Or.inl ⟨rfl, fun h => by omega⟩
  · exact Or.inl ⟨rfl, fun _ => Or.inl h2⟩
  · exact Or.inl ⟨rfl, fun _ => Or.inr (Or.inl h3)⟩
  · exact Or.inr ⟨rfl, by omega, by simpa using h2, by simpa using h3, h4⟩
  · exact Or.inl ⟨rfl, fun _ => Or.inr (Or.inr (not_lt.mp h4))⟩

/-- bins reached while growing -/
def Reach (P : Cfg) (im : Img) (sd : Nat) (s : St) : Prop := ∀ b ∈ s.cl, Relation.ReflTransGen (Step P im) sd b

/-- the state after any number of neighbours has been looked at -/
structure Ext (P : Cfg) (im : Img) (hm : HitMap) (base : Nat → Bool) (sd : Nat) (s s' : St) : Prop where
  ginv : GInv P im hm base sd s'
  pre : s.cl <+: s'.cl
  same : s'.cl.length = s.cl.length → s' = s

theorem growOne_ext {P : Cfg} {im : Img} {hm : HitMap} {base : Nat → Bool} {sd : Nat} {s : St} (h : GInv P im hm base sd s)
    (n : Nat) : Ext P im hm base sd s (growOne P im hm s n) := by
  rcases growOne_cases P im hm s n with ⟨e, _⟩ | ⟨e, h1, h2, h3, _⟩
  · rw [e]; exact ⟨h, List.prefix_rfl, fun _ => rfl⟩
  · rw [e]
    refine ⟨h.add h1 h2 h3, List.prefix_append _ _, ?_⟩
    intro hl
    simp [St.add] at hl

theorem Ext.trans {P : Cfg} {im : Img} {hm : HitMap} {base : Nat → Bool} {sd : Nat} {s s' s'' : St}
    (h1 : Ext P im hm base sd s s') (h2 : Ext P im hm base sd s' s'') : Ext P im hm base sd s s'' := by
  refine ⟨h2.ginv, h1.pre.trans h2.pre, ?_⟩
  intro hl
  have l1 := h1.pre.length_le
  have l2 := h2.pre.length_le
  rw [h2.same (by omega), h1.same (by omega)]

theorem growFold_ext {P : Cfg} {im : Img} {hm : HitMap} {base : Nat → Bool} {sd : Nat} (ns : List Nat) :
    ∀ {s : St}, GInv P im hm base sd s → Ext P im hm base sd s (ns.foldl (growOne P im hm) s) ∧
      ((ns.foldl (growOne P im hm) s).cl.length = s.cl.length → ∀ n ∈ ns, growOne P im hm s n = s) ∧
      (∀ b, b < im.nx * im.ny → b ∈ s.cl → (∀ n ∈ ns, n < im.nx * im.ny ∧ n ≠ b ∧ Near P im.nx b n) → Reach P im sd s →
        Reach P im sd (ns.foldl (growOne P im hm) s)) := by
  induction ns with
  | nil => intro s h; exact ⟨⟨h, List.prefix_rfl, fun _ => rfl⟩, fun _ n hn => by simp at hn, fun _ _ _ _ h => h⟩
  | cons n ns ih =>
    intro s h
    have e1 := growOne_ext h n
    obtain ⟨e2, f2, r2⟩ := ih e1.ginv
    rw [List.foldl_cons]
    refine ⟨e1.trans e2, ?_, ?_⟩
    · intro hl m hm'
      have l1 := e1.pre.length_le
      have l2 := e2.pre.length_le
      have hs : growOne P im hm s n = s := e1.same (by omega)
      rw [List.mem_cons] at hm'
      rcases hm' with rfl | hm'
      · exact hs
      · have := f2 (by rw [hl, hs]) m hm'
        rwa [hs] at this
    · intro b hb hbc hns hr
      refine r2 b hb (e1.pre.subset hbc) (fun m hm' => hns m (List.mem_cons_of_mem _ hm')) ?_
      rcases growOne_cases P im hm s n with ⟨e, _⟩ | ⟨e, h1, h2, h3, h4⟩
      · rw [e]; exact hr
      · rw [e]
        intro a ha
        have ha' : a ∈ s.cl ++ [n] := ha
        rw [List.mem_append, List.mem_singleton] at ha'
        rcases ha' with ha' | rfl
        · exact hr a ha'
        · have := hns a List.mem_cons_self
          exact (hr b hbc).tail ⟨this.1, this.2.1, this.2.2, h4⟩

theorem growPass_spec {P : Cfg} {im : Img} {hm : HitMap} {base : Nat → Bool} {sd : Nat} (fuel : Nat) :
    ∀ (k : Nat) {s : St}, GInv P im hm base sd s → im.nx * im.ny ≤ fuel + k → ∃ s', growPass P im hm fuel k s = some s' ∧
      Ext P im hm base sd s s' ∧
      (s'.cl.length = s.cl.length → ∀ j, (hj : j < s.cl.length) → k ≤ j → ∀ n ∈ nbrs P im.nx im.ny s.cl[j], growOne P im hm s n = s) ∧
      (Reach P im sd s → Reach P im sd s') := by
  induction fuel with
  | zero =>
    intro k s h hk
    have := h.inv.length_le
    refine ⟨s, ?_, ⟨h, List.prefix_rfl, fun _ => rfl⟩, ?_, fun h => h⟩
    · unfold growPass; rw [if_pos (by omega)]
    · intro _ j hj hkj; omega
  | succ fuel ih =>
    intro k s h hk
    unfold growPass
    by_cases hkl : k < s.cl.length
    · rw [dif_pos hkl]
      have hb : s.cl[k] < im.nx * im.ny := h.inv.lt _ (List.getElem_mem hkl)
      obtain ⟨e1, f1, r1⟩ := growFold_ext (P := P) (im := im) (hm := hm) (base := base) (sd := sd) (nbrs P im.nx im.ny s.cl[k]) h
      obtain ⟨s', hs', e2, f2, r2⟩ := ih (k + 1) (s := growBin P im hm s s.cl[k]) e1.ginv (by omega)
      refine ⟨s', hs', e1.trans e2, ?_, ?_⟩
      · intro hl j hj hkj
        have l1 := e1.pre.length_le
        have l2 := e2.pre.length_le
        have hsame : growBin P im hm s s.cl[k] = s := e1.same (by
          change (growBin P im hm s s.cl[k]).cl.length ≤ _ at l2
          change _ ≤ (growBin P im hm s s.cl[k]).cl.length at l1
          change (growBin P im hm s s.cl[k]).cl.length = _
          omega)
        rcases Nat.lt_or_ge k j with hlt | hge
        · rw [hsame] at f2
          exact f2 hl j hj (by omega)
        · have hkj' : k = j := by omega
          subst hkj'
          apply f1
          change (growBin P im hm s s.cl[k]).cl.length = _
          rw [hsame]
      · intro hr
        refine r2 (r1 _ hb (List.getElem_mem hkl) ?_ hr)
        intro n hn
        exact (mem_nbrs hb).mp hn
    · rw [dif_neg hkl]
      exact ⟨s, rfl, ⟨h, List.prefix_rfl, fun _ => rfl⟩, fun _ j hj hkj => by omega, fun h => h⟩

theorem grow_spec {P : Cfg} {im : Img} {hm : HitMap} {base : Nat → Bool} {sd : Nat} (fuel : Nat) (hf : im.nx * im.ny ≤ fuel)
    (n : Nat) : ∀ {s : St}, GInv P im hm base sd s → im.nx * im.ny + 1 ≤ n + s.cl.length → ∃ s', grow P im hm fuel n s = some s' ∧
      GInv P im hm base sd s' ∧ (∀ b ∈ s'.cl, ∀ m ∈ nbrs P im.nx im.ny b, growOne P im hm s' m = s') ∧
      (Reach P im sd s → Reach P im sd s') := by
  induction n with
  | zero => intro s h hn; have := h.inv.length_le; omega
  | succ n ih =>
    intro s h hn
    obtain ⟨s', hs', e, f, r⟩ := growPass_spec (P := P) (im := im) (hm := hm) (base := base) (sd := sd) fuel 0 h (by omega)
    unfold grow
    rw [hs']
    simp only
    by_cases hl : s'.cl.length = s.cl.length
    · rw [if_pos hl]
      refine ⟨s', rfl, e.ginv, ?_, r⟩
      intro b hb m hm'
      have hss := e.same hl
      rw [hss] at hb
      obtain ⟨j, hj, rfl⟩ := List.getElem_of_mem hb
      rw [hss]
      exact f hl j hj (Nat.zero_le _) m hm'
    · rw [if_neg hl]
      have := e.pre.length_le
      obtain ⟨s'', h1, h2, h3, h4⟩ := ih e.ginv (by omega)
      exact ⟨s'', h1, h2, h3, fun hr => h4 (r hr)⟩

/-! ## Holes -/

theorem edge_bounds {nx ny b : Nat} (h : onEdge nx ny b = false) : nx + 1 ≤ b ∧ b + nx + 1 < nx * ny ∧ 0 < b % nx ∧ b % nx + 1 < nx := by
  simp only [onEdge, Bool.or_eq_false_iff, decide_eq_false_iff_not] at h
  obtain ⟨⟨⟨h1, h2⟩, h3⟩, h4⟩ := h
  have hnx : 0 < nx := by
    rcases Nat.eq_zero_or_pos nx with h0 | h0
    · subst h0; simp at h4
    · exact h0
  have hm : b % nx < nx := Nat.mod_lt _ hnx
  have hd := Nat.div_add_mod b nx
  have hny : 0 < ny := by
    rcases Nat.eq_zero_or_pos ny with h0 | h0
    · subst h0; simp at h4
    · exact h0
  have hdn : b / nx < ny - 1 := Nat.div_lt_of_lt_mul (by omega)
  have hmul : nx * (b / nx + 1) ≤ nx * (ny - 1) := Nat.mul_le_mul_left _ (by omega)
  have hmul2 : nx * (ny - 1) + nx = nx * ny := by
    rw [← Nat.mul_succ]; congr 1; omega
  have hq : 1 ≤ b / nx := (Nat.one_le_div_iff hnx).mpr (by omega)
  have hmul3 : nx * 1 ≤ nx * (b / nx) := Nat.mul_le_mul_left _ hq
  rw [Nat.mul_add] at hmul
  refine ⟨by omega, by omega, by omega, by omega⟩

/-- the number of used bins among the eight around a bin -/
def usedAround (nx : Nat) (used : Nat → Bool) (b : Nat) : Nat :=
  (offs.filter (fun o => used ((b : Int) + o.1 + o.2 * nx).toNat)).length

theorem offs_bound {o : Int × Int} (ho : o ∈ offs) : -1 ≤ o.1 ∧ o.1 ≤ 1 ∧ (o.2 = -1 ∨ o.2 = 0 ∨ o.2 = 1) := by
  simp only [offs, List.mem_cons, List.not_mem_nil, or_false] at ho
  rcases ho with rfl | rfl | rfl | rfl | rfl | rfl | rfl | rfl <;> simp

theorem numNbr_some {nx ny b : Nat} (used : Nat → Bool) (h : onEdge nx ny b = false) :
    numNbr nx ny used b = some (usedAround nx used b) := by
  obtain ⟨h1, h2, _, _⟩ := edge_bounds h
  unfold numNbr usedAround
  rw [if_pos]
  rw [List.all_eq_true]
  intro o ho
  obtain ⟨a1, a2, a3⟩ := offs_bound ho
  rw [Bool.and_eq_true, decide_eq_true_eq, decide_eq_true_eq]
  have h2' : (b : Int) + nx + 1 < (nx : Int) * ny := by exact_mod_cast h2
  rcases a3 with a | a | a <;> rw [a] <;> constructor <;> omega

theorem usedAround_le (nx : Nat) (used : Nat → Bool) (b : Nat) : usedAround nx used b ≤ 8 := by
  unfold usedAround
  exact le_trans (List.length_filter_le _ _) (by simp [offs])

theorem usedAround_mono {nx : Nat} {u v : Nat → Bool} (h : ∀ b, u b = true → v b = true) (b : Nat) :
    usedAround nx u b ≤ usedAround nx v b := by
  unfold usedAround
  rw [← List.countP_eq_length_filter, ← List.countP_eq_length_filter]
  exact List.countP_mono_left (fun o _ hu => h _ hu)

theorem holeOne_cases {P : Cfg} {im : Img} (hm : HitMap) (b : Nat) (s : St) (o : Int × Int) :
    holeOne P im hm b s o = some s ∨
    ∃ n, holeOne P im hm b s o = some (s.add n (timeOf im.nx hm n)) ∧ n < im.nx * im.ny ∧ s.used n = false ∧
      passes P.timeThr s.times (timeOf im.nx hm n) = true ∧ P.nbrThr < 8 := by
  unfold holeOne
  simp only
  split_ifs with h1 h2 h3
  · exact Or.inl rfl
  · exact Or.inl rfl
  · exact Or.inl rfl
  · have h2' : onEdge im.nx im.ny ((b : Int) + o.1 + o.2 * im.nx).toNat = false := by simpa using h2
    rw [numNbr_some s.used h2']
    simp only
    split_ifs with h4
    · refine Or.inr ⟨_, rfl, ?_, by simpa using h3, h4.2, ?_⟩
      · have := edge_bounds h2'; omega
      · have := usedAround_le im.nx s.used ((b : Int) + o.1 + o.2 * im.nx).toNat
        omega
    · exact Or.inl rfl

theorem holeOne_ext {P : Cfg} {im : Img} {hm : HitMap} {base : Nat → Bool} {sd : Nat} {s : St} (h : GInv P im hm base sd s)
    (b : Nat) (o : Int × Int) : ∃ s', holeOne P im hm b s o = some s' ∧ Ext P im hm base sd s s' ∧ (8 ≤ P.nbrThr → s' = s) := by
  rcases holeOne_cases (P := P) (im := im) hm b s o with e | ⟨n, e, h1, h2, h3, h4⟩
  · exact ⟨s, e, ⟨h, List.prefix_rfl, fun _ => rfl⟩, fun _ => rfl⟩
  · refine ⟨_, e, ⟨h.add h1 h2 ?_, List.prefix_append _ _, ?_⟩, fun h => by omega⟩
    · unfold timeOk; rw [h3]; simp
    · intro hl; simp [St.add] at hl

theorem holeBin_ext {P : Cfg} {im : Img} {hm : HitMap} {base : Nat → Bool} {sd : Nat} (b : Nat) (os : List (Int × Int)) :
    ∀ {s : St}, GInv P im hm base sd s → ∃ s', holeBin P im hm b os s = some s' ∧ Ext P im hm base sd s s' ∧
      (8 ≤ P.nbrThr → s' = s) := by
  induction os with
  | nil => intro s h; exact ⟨s, rfl, ⟨h, List.prefix_rfl, fun _ => rfl⟩, fun _ => rfl⟩
  | cons o os ih =>
    intro s h
    obtain ⟨s1, h1, e1, f1⟩ := holeOne_ext h b o
    obtain ⟨s2, h2, e2, f2⟩ := ih e1.ginv
    refine ⟨s2, ?_, e1.trans e2, fun h8 => by rw [f2 h8, f1 h8]⟩
    unfold holeBin; rw [h1]; exact h2

theorem holes_spec {P : Cfg} {im : Img} {hm : HitMap} {base : Nat → Bool} {sd : Nat} (fuel : Nat) :
    ∀ (k : Nat) {s : St}, GInv P im hm base sd s → im.nx * im.ny ≤ fuel + k → ∃ s', holes P im hm fuel k s = some s' ∧
      Ext P im hm base sd s s' ∧ (8 ≤ P.nbrThr → s' = s) := by
  induction fuel with
  | zero =>
    intro k s h hk
    have := h.inv.length_le
    exact ⟨s, by unfold holes; rw [if_pos (by omega)], ⟨h, List.prefix_rfl, fun _ => rfl⟩, fun _ => rfl⟩
  | succ fuel ih =>
    intro k s h hk
    unfold holes
    by_cases hkl : k < s.cl.length
    · rw [dif_pos hkl]
      obtain ⟨s1, h1, e1, f1⟩ := holeBin_ext s.cl[k] offs h
      obtain ⟨s2, h2, e2, f2⟩ := ih (k + 1) e1.ginv (by omega)
      rw [h1]
      exact ⟨s2, h2, e1.trans e2, fun h8 => by rw [f2 h8, f1 h8]⟩
    · rw [dif_neg hkl]
      exact ⟨s, rfl, ⟨h, List.prefix_rfl, fun _ => rfl⟩, fun _ => rfl⟩

/-! ## Peninsulas -/

theorem Inv.erase {N : Nat} {base used : Nat → Bool} {cl : List Nat} (h : Inv N base used cl) {k b : Nat} (hk : cl[k]? = some b) :
    Inv N base (setUsed used b false) (cl.eraseIdx k) := by
  obtain ⟨hkl, hkb⟩ := List.getElem?_eq_some_iff.mp hk
  have hsub := List.eraseIdx_sublist cl k
  have he : cl.eraseIdx k = cl.erase b := by
    rw [← hkb, h.nodup.erase_getElem k hkl]
  have hbm : b ∈ cl := hkb ▸ List.getElem_mem hkl
  refine ⟨h.nodup.sublist hsub, fun a ha => h.lt a (hsub.subset ha), fun a ha => h.free a (hsub.subset ha), ?_⟩
  intro a
  rw [he, h.nodup.mem_erase_iff]
  unfold setUsed
  by_cases hab : a = b
  · subst hab
    simp [h.free a hbm]
  · simp [hab, h.used]

theorem penOne_spec {P : Cfg} {nx ny : Nat} {base : Nat → Bool} {s : Pen} (h : Inv (nx * ny) base s.used s.cl) (k : Nat) :
    ∃ s', penOne P nx ny s k = some s' ∧ Inv (nx * ny) base s'.used s'.cl ∧ s'.cl.Sublist s.cl ∧
      (P.minNbr = 0 → s' = s) ∧ (s'.cl.length = s.cl.length → s' = s ∧
        ∀ b, s.cl[k]? = some b → onEdge nx ny b = false → P.minNbr ≤ usedAround nx s.used b) ∧
      (s'.cl.length = s.cl.length ∨ s'.cl.length + 1 = s.cl.length) := by
  unfold penOne
  cases hk : s.cl[k]? with
  | none => exact ⟨s, rfl, h, List.Sublist.refl _, fun _ => rfl, fun _ => ⟨rfl, fun b hb => by cases hb⟩, Or.inl rfl⟩
  | some b =>
    simp only
    by_cases he : onEdge nx ny b = true
    · rw [if_pos he]
      refine ⟨s, rfl, h, List.Sublist.refl _, fun _ => rfl, fun _ => ⟨rfl, fun c hc hce => ?_⟩, Or.inl rfl⟩
      injection hc with hc; subst hc; rw [he] at hce; cases hce
    · rw [if_neg he]
      have he' : onEdge nx ny b = false := by simpa using he
      rw [numNbr_some s.used he']
      simp only
      obtain ⟨hkl, hkb⟩ := List.getElem?_eq_some_iff.mp hk
      by_cases hc : usedAround nx s.used b < P.minNbr
      · rw [if_pos hc]
        have hlen : (s.cl.eraseIdx k).length + 1 = s.cl.length := List.length_eraseIdx_add_one hkl
        refine ⟨_, rfl, h.erase hk, List.eraseIdx_sublist _ _, fun h0 => by omega, fun hl => ?_, Or.inr hlen⟩
        simp only at hl; omega
      · rw [if_neg hc]
        refine ⟨s, rfl, h, List.Sublist.refl _, fun _ => rfl, fun _ => ⟨rfl, fun c hcc _ => ?_⟩, Or.inl rfl⟩
        injection hcc with hcc; subst hcc; omega

theorem penPass_spec {P : Cfg} {nx ny : Nat} {base : Nat → Bool} (k : Nat) :
    ∀ {s : Pen}, Inv (nx * ny) base s.used s.cl →
    ∃ s', penPass P nx ny k s = some s' ∧ Inv (nx * ny) base s'.used s'.cl ∧ s'.cl.Sublist s.cl ∧
      (P.minNbr = 0 → s' = s) ∧ (s'.cl.length = s.cl.length → s' = s ∧
        ∀ j b, j < k → s.cl[j]? = some b → onEdge nx ny b = false → P.minNbr ≤ usedAround nx s.used b) := by
  induction k with
  | zero => intro s h; exact ⟨s, rfl, h, List.Sublist.refl _, fun _ => rfl, fun _ => ⟨rfl, fun j b hj => by omega⟩⟩
  | succ k ih =>
    intro s h
    obtain ⟨s1, h1, i1, l1, z1, f1, _⟩ := penOne_spec (P := P) h k
    obtain ⟨s2, h2, i2, l2, z2, f2⟩ := ih i1
    refine ⟨s2, ?_, i2, l2.trans l1, fun h0 => by rw [z2 h0, z1 h0], ?_⟩
    · unfold penPass; rw [h1]; exact h2
    · intro hl
      have a1 := l1.length_le
      have a2 := l2.length_le
      obtain ⟨e1, g1⟩ := f1 (by omega)
      subst e1
      obtain ⟨e2, g2⟩ := f2 (by omega)
      refine ⟨e2, fun j b hj hb he => ?_⟩
      rcases Nat.lt_or_ge j k with hjk | hjk
      · exact g2 j b hjk hb he
      · have : j = k := by omega
        subst this
        exact g1 b hb he

theorem pens_spec {P : Cfg} {nx ny : Nat} {base : Nat → Bool} (n : Nat) :
    ∀ {s : Pen}, Inv (nx * ny) base s.used s.cl → s.cl.length < n →
    ∃ s', pens P nx ny n s = some s' ∧ Inv (nx * ny) base s'.used s'.cl ∧ s'.cl.Sublist s.cl ∧ (P.minNbr = 0 → s' = s) ∧
      ∀ b ∈ s'.cl, onEdge nx ny b = false → P.minNbr ≤ usedAround nx s'.used b := by
  induction n with
  | zero => intro s _ h; omega
  | succ n ih =>
    intro s h hn
    obtain ⟨s1, h1, i1, l1, z1, f1⟩ := penPass_spec (P := P) s.cl.length h
    unfold pens
    rw [h1]
    simp only
    by_cases hl : s1.cl.length = s.cl.length
    · rw [if_pos hl]
      refine ⟨s1, rfl, i1, l1, z1, ?_⟩
      obtain ⟨e, g⟩ := f1 hl
      subst e
      intro b hb he
      obtain ⟨j, hj⟩ := List.mem_iff_getElem?.mp hb
      obtain ⟨hjl, _⟩ := List.getElem?_eq_some_iff.mp hj
      exact g j b hjl hj he
    · rw [if_neg hl]
      have := l1.length_le
      obtain ⟨s2, h2, i2, l2, z2, g2⟩ := ih i1 (by omega)
      exact ⟨s2, h2, i2, l2.trans l1, fun h0 => by rw [z2 h0, z1 h0], g2⟩

theorem release_iff {N : Nat} {base used : Nat → Bool} {cl : List Nat} (h : Inv N base used cl) : release used cl = base := by
  have key : ∀ (l : List Nat) (u : Nat → Bool) b, release u l b = if b ∈ l then false else u b := by
    intro l
    induction l with
    | nil => intro u b; simp [release]
    | cons a l ih =>
      intro u b
      show release (setUsed u a false) l b = _
      rw [ih]
      by_cases hb : b ∈ l
      · simp [hb]
      · by_cases hba : b = a
        · simp [hba, setUsed]
        · simp [hb, hba, setUsed]
  funext b
  rw [key]
  by_cases hb : b ∈ cl
  · rw [if_pos hb, h.free b hb]
  · rw [if_neg hb]
    have := h.used b
    rcases hbb : base b with _ | _
    · rw [hbb] at this
      simp only [Bool.false_eq_true, hb, or_self, iff_false] at this
      simpa using this
    · rw [this, hbb]; exact Or.inl rfl

theorem seed_ginv {P : Cfg} {im : Img} {hm : HitMap} {used : Nat → Bool} {b : Nat} (hb : b < im.nx * im.ny)
    (hu : used b = false) : GInv P im hm used b (seed im hm used b) := by
  refine ⟨⟨by simp [seed], by simpa [seed] using hb, by simpa [seed] using hu, ?_⟩, ?_, ?_, rfl⟩
  · intro a
    by_cases h : a = b <;> simp [seed, setUsed, h]
  · show pushTime [] _ = _
    have := pushTime_eq im hm [] b
    exact this
  · intro pre a post e _ hex
    have : pre = [] := by
      rcases pre with _ | ⟨c, pre⟩
      · rfl
      · simp [seed] at e
    subst this
    obtain ⟨_, h, _⟩ := hex
    simp at h

/-! ## One round -/

/-- what is known of a cluster when it is stored over the bins `base` used before: the bins it was grown to from its seed, and the
bins it ends with -/
structure Stored (P : Cfg) (im : Img) (hm : HitMap) (base : Nat → Bool) (sd : Nat) (cl : List Nat) : Prop where
  size : P.minSize ≤ cl.length
  nbr : ∀ b ∈ cl, onEdge im.nx im.ny b = false → P.minNbr ≤ usedAround im.nx (fun n => base n || decide (n ∈ cl)) b
  chain : P.minNbr = 0 → Chain P im hm cl
  hd : P.minNbr = 0 → cl.head? = some sd
  reach : P.minNbr = 0 → 8 ≤ P.nbrThr → ∀ b ∈ cl, Relation.ReflTransGen (Step P im) sd b
  closed : P.minNbr = 0 → 8 ≤ P.nbrThr → ∀ b ∈ cl, ∀ n, Step P im b n →
    base n = true ∨ n ∈ cl ∨ timeOk P (realTimes im hm cl) (timeOf im.nx hm n) = false

/-- what is known of a cluster that is dropped -/
structure Dropped (P : Cfg) (im : Img) (hm : HitMap) (base : Nat → Bool) (sd : Nat) : Prop where
  small : P.minNbr = 0 → 8 ≤ P.nbrThr → ∃ cl : List Nat, cl.Nodup ∧ cl.length < P.minSize ∧ sd ∈ cl ∧
    ∀ b ∈ cl, ∀ n, Step P im b n →
      base n = true ∨ n ∈ cl ∨ timeOk P (realTimes im hm cl) (timeOf im.nx hm n) = false

theorem round_spec {P : Cfg} {im : Img} {hm : HitMap} (o : Out) {b : Nat} (hb : b < im.nx * im.ny) :
    ∃ o', round P im hm o b = some o' ∧
      ((o' = o ∧ (o.used b = true ∨ (o.used b = false ∧ Dropped P im hm o.used b))) ∨
       (o.used b = false ∧ ∃ cl, o'.all = o.all ++ [cl] ∧ Inv (im.nx * im.ny) o.used o'.used cl ∧ Stored P im hm o.used b cl)) := by
  unfold round
  by_cases hu : o.used b = true
  · rw [if_pos hu]; exact ⟨o, rfl, Or.inl ⟨rfl, Or.inl hu⟩⟩
  · rw [if_neg hu]
    have hu' : o.used b = false := by simpa using hu
    have g0 := seed_ginv (P := P) (hm := hm) hb hu'
    obtain ⟨s1, h1, g1, c1, r1⟩ := grow_spec (P := P) (im := im) (hm := hm) (fuelOf im) (by unfold fuelOf; omega) (fuelOf im) g0
      (by unfold fuelOf; omega)
    rw [h1]
    simp only
    have hreach : Reach P im b s1 := r1 (by
      intro a ha
      have : a = b := by simpa [seed] using ha
      subst this; exact Relation.ReflTransGen.refl)
    have hclosed : ∀ a ∈ s1.cl, ∀ n, Step P im a n →
        o.used n = true ∨ n ∈ s1.cl ∨ timeOk P (realTimes im hm s1.cl) (timeOf im.nx hm n) = false := by
      intro a ha n hst
      have haN := g1.inv.lt a ha
      have hmem := (mem_nbrs (P := P) haN).mpr ⟨hst.1, hst.2.1, hst.2.2.1⟩
      have hfix := c1 a ha n hmem
      rcases growOne_cases P im hm s1 n with ⟨_, hc⟩ | ⟨e, _⟩
      · rcases hc hst.1 with h | h | h
        · rcases (g1.inv.used n).mp h with h | h
          · exact Or.inl h
          · exact Or.inr (Or.inl h)
        · rw [g1.times] at h; exact Or.inr (Or.inr h)
        · exact absurd hst.2.2.2 (not_lt.mpr h)
      · rw [e] at hfix
        have := congrArg (fun s : St => s.cl.length) hfix
        simp [St.add] at this
    by_cases hsz : s1.cl.length < P.minSize
    · rw [if_pos hsz, release_iff g1.inv]
      refine ⟨_, rfl, Or.inl ⟨rfl, Or.inr ⟨hu', ⟨fun _ _ => ⟨s1.cl, g1.inv.nodup, hsz, ?_, hclosed⟩⟩⟩⟩⟩
      exact List.mem_of_mem_head? (by rw [g1.hd]; exact rfl)
    · rw [if_neg hsz]
      obtain ⟨s2, h2, e2, f2⟩ := holes_spec (P := P) (im := im) (hm := hm) (fuelOf im) 0 g1 (by unfold fuelOf; omega)
      rw [h2]
      simp only
      have i2 := e2.ginv.inv
      obtain ⟨s3, h3, i3, l3, z3, n3⟩ := pens_spec (P := P) (fuelOf im) (s := ⟨s2.used, s2.cl⟩) i2 (by
        have := i2.length_le
        unfold fuelOf
        show s2.cl.length < _
        omega)
      rw [h3]
      simp only
      unfold finish
      by_cases hs3 : s3.cl.length < P.minSize
      · rw [if_pos hs3, release_iff i3]
        refine ⟨_, rfl, Or.inl ⟨rfl, Or.inr ⟨hu', ⟨fun h0 h8 => ?_⟩⟩⟩⟩
        have e3 := z3 h0
        rw [e3] at hs3
        rw [f2 h8] at hs3
        exact absurd hs3 hsz
      · rw [if_neg hs3]
        refine ⟨_, rfl, Or.inr ⟨hu', s3.cl, rfl, i3, ?_⟩⟩
        refine ⟨not_lt.mp hs3, ?_, ?_, ?_, ?_, ?_⟩
        · intro a ha he
          refine le_trans (n3 a ha he) (usedAround_mono ?_ a)
          intro n hn
          have := (i3.used n).mp hn
          simpa using this
        · intro h0; rw [z3 h0]; exact e2.ginv.chain
        · intro h0; rw [z3 h0]; exact e2.ginv.hd
        · intro h0 h8; rw [z3 h0]; rw [f2 h8]; exact hreach
        · intro h0 h8; rw [z3 h0]; rw [f2 h8]; exact hclosed

/-! ## The whole loop -/

/-- the used bins are the bins of the clusters stored -/
structure OInv (im : Img) (o : Out) : Prop where
  nodup : o.all.flatten.Nodup
  lt : ∀ b ∈ o.all.flatten, b < im.nx * im.ny
  used : ∀ b, o.used b = true ↔ b ∈ o.all.flatten

theorem OInv.push {im : Img} {o o' : Out} {cl : List Nat} (h : OInv im o) (ha : o'.all = o.all ++ [cl])
    (hi : Inv (im.nx * im.ny) o.used o'.used cl) : OInv im o' := by
  refine ⟨?_, ?_, ?_⟩
  · rw [ha, List.flatten_append, List.nodup_append]
    refine ⟨h.nodup, by simpa using hi.nodup, ?_⟩
    rintro a h1 b h2 rfl
    have h3 := (h.used a).mpr h1
    have h4 := hi.free a (by simpa using h2)
    rw [h3] at h4; cases h4
  · intro b hb
    rw [ha, List.flatten_append, List.mem_append] at hb
    rcases hb with hb | hb
    · exact h.lt b hb
    · exact hi.lt b (by simpa using hb)
  · intro b
    rw [hi.used, ha, List.flatten_append, List.mem_append, h.used]
    simp

/-- induction over the outer loop -/
theorem clusterLoop_ind {P : Cfg} {im : Img} {hm : HitMap} (Q : List (ℚ × Nat) → Out → Prop)
    (hst : ∀ v vs o o', v.2 < im.nx * im.ny → v.1 = chargeOf im v.2 → P.minSeed ≤ v.1 → OInv im o → Q (v :: vs) o →
      round P im hm o v.2 = some o' → OInv im o' → Q vs o') :
    ∀ (vs : List (ℚ × Nat)) (o : Out), (∀ v ∈ vs, v.2 < im.nx * im.ny ∧ v.1 = chargeOf im v.2) → OInv im o → Q vs o →
      (∃ o' us, clusterLoop P im hm vs o = .ok o' ∧ OInv im o' ∧ Q us o' ∧ us <:+ vs ∧ ∃ v us', us = v :: us' ∧ v.1 < P.minSeed) ∨
      (clusterLoop P im hm vs o = .ub ∧ ∀ v ∈ vs, P.minSeed ≤ v.1) := by
  intro vs
  induction vs with
  | nil => intro o _ _ _; exact Or.inr ⟨rfl, by simp⟩
  | cons v vs ih =>
    intro o hv hi hq
    unfold clusterLoop
    by_cases hm' : v.1 < P.minSeed
    · rw [if_pos hm']
      exact Or.inl ⟨o, v :: vs, rfl, hi, hq, List.suffix_rfl, v, vs, rfl, hm'⟩
    · rw [if_neg hm']
      obtain ⟨hb, hc⟩ := hv v List.mem_cons_self
      obtain ⟨o', h1, h2⟩ := round_spec (P := P) (hm := hm) o hb
      rw [h1]
      simp only
      have hi' : OInv im o' := by
        rcases h2 with ⟨rfl, _⟩ | ⟨_, cl, ha, hin, _⟩
        · exact hi
        · exact hi.push ha hin
      have hq' := hst v vs o o' hb hc (not_lt.mp hm') hi hq h1 hi'
      rcases ih o' (fun w hw => hv w (List.mem_cons_of_mem _ hw)) hi' hq' with ⟨o'', us, a1, a2, a3, a4, a5⟩ | ⟨a1, a2⟩
      · exact Or.inl ⟨o'', us, a1, a2, a3, a4.trans (List.suffix_cons _ _), a5⟩
      · refine Or.inr ⟨a1, fun w hw => ?_⟩
        rw [List.mem_cons] at hw
        rcases hw with rfl | hw
        · exact not_lt.mp hm'
        · exact a2 w hw

theorem oinv_init (im : Img) : OInv im ⟨fun _ => false, []⟩ := ⟨by simp, by simp, by simp⟩

end Verif.Blur

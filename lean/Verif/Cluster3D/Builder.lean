import Mathlib.Data.List.Sort
import Mathlib.Data.List.Dedup
import Mathlib.Data.List.Perm.Subperm
import Mathlib.Data.Rat.Defs
import Mathlib.Algebra.Order.Field.Rat
import Mathlib.Tactic.Linarith
import Mathlib.Tactic.NormNum
import Mathlib.Tactic.Ring
import Mathlib.Tactic.FieldSimp
import Mathlib.Tactic.Positivity

/-!
Model of `BuildClusterInfo`, `keepThisCluster` and `storeThisCluster` of `larreco/RecoAlg/Cluster3DAlgs/ClusterParamsBuilder_tool.cc`: which clusters of three dimensional hits survive, and C105.

A two dimensional hit is a number with a plane (0, 1 or 2; the vectors have three entries); a three dimensional hit is the list of its two dimensional hits (`none`: dead channel).
The fractions are rationals instead of floats.  Not modelled: the principal component analysis, status bits.
-/
namespace Verif.Builder

abbrev Hit3 := List (Option Nat)
abbrev Clus := List Hit3

/-- the two dimensional hits a cluster holds, in the order of the loops at ClusterParamsBuilder_tool.cc:221-223 and 263-265 -/
def hits2 (c : Clus) : List Nat := c.flatMap (fun h => h.filterMap id)

/-- number of entries of `totalPlaneHitCountMapVec[i]`, ClusterParamsBuilder_tool.cc:214-237 -/
def total (plane : Nat → Nat) (c : Clus) (i : Nat) : Nat := ((hits2 c).dedup.filter (fun h => plane h == i)).length

/-- number of entries of `uniquePlaneHitCountMapVec[i]`; `used` are the keys of `hit2DToClusterMap`, ClusterParamsBuilder_tool.cc:214-237 -/
def unique (plane : Nat → Nat) (used : List Nat) (c : Clus) (i : Nat) : Nat := ((hits2 c).dedup.filter (fun h => plane h == i && !used.contains h)).length

/-- `uniqueFractionVec[i]`, ClusterParamsBuilder_tool.cc:240-246 -/
def fraction (plane : Nat → Nat) (used : List Nat) (c : Clus) (i : Nat) : Rat :=
  if total plane c i = 0 then 0 else (unique plane used c i : Rat) / (total plane c i : Rat)

/-- `keepThisCluster`, ClusterParamsBuilder_tool.cc:202-254 -/
def keep (plane : Nat → Nat) (used : List Nat) (c : Clus) : Bool :=
  let f := fraction plane used c
  decide (max (max (f 0) (f 1)) (f 2) > 0.9) || decide (f 0 * f 1 * f 2 > 0.2)

/-- the last loop of `BuildClusterInfo`, ClusterParamsBuilder_tool.cc:186-196, with what `storeThisCluster` adds to the map (ClusterParamsBuilder_tool.cc:256-270) -/
def keepLoop (plane : Nat → Nat) : List Nat → List Clus → List Clus
  | _, [] => []
  | used, c :: cs => if keep plane used c = true then c :: keepLoop plane (used ++ hits2 c) cs else keepLoop plane used cs

/-- `clusterParametersList.sort()` with `operator<` of `ClusterParameters`, ClusterParamsBuilder_tool.cc:137 and Cluster3D.h:474-477: stable, largest first -/
def sortClus (l : List Clus) : List Clus := l.insertionSort (fun a b => b.length ≤ a.length)

/-- ClusterParamsBuilder_tool.cc:140-142: the clusters that are too small are dropped from the end -/
def dropSmall (n : Nat) (l : List Clus) : List Clus := (l.reverse.dropWhile (fun c => c.length < n)).reverse

/-- `BuildClusterInfo`, ClusterParamsBuilder_tool.cc:120-200, for `m_clusterMinHits = n` -/
def build (plane : Nat → Nat) (n : Nat) (l : List Clus) : List Clus := keepLoop plane [] (dropSmall n (sortClus l))

/-! ## Specification -/

/-- the two dimensional hits of the cluster on plane `i` that are in no cluster of `p` -/
def NewOn (plane : Nat → Nat) (p : List Clus) (c : Clus) (i : Nat) : Finset Nat := (hits2 c).toFinset.filter (fun h => plane h = i ∧ ∀ d ∈ p, h ∉ hits2 d)

/-- all of them -/
def AllOn (plane : Nat → Nat) (c : Clus) (i : Nat) : Finset Nat := (hits2 c).toFinset.filter (fun h => plane h = i)

/-- on some plane more than nine tenths of the two dimensional hits are new, or the product of the fractions for the three planes is more than a fifth -/
def Enough (plane : Nat → Nat) (p : List Clus) (c : Clus) : Prop :=
  (∃ i < 3, 10 * (NewOn plane p c i).card > 9 * (AllOn plane c i).card) ∨
  5 * ((NewOn plane p c 0).card * (NewOn plane p c 1).card * (NewOn plane p c 2).card) > (AllOn plane c 0).card * (AllOn plane c 1).card * (AllOn plane c 2).card

instance (plane : Nat → Nat) (p : List Clus) (c : Clus) : Decidable (Enough plane p c) := by unfold Enough; infer_instance

/-! ## Proofs -/

theorem card_filter_dedup (l : List Nat) (P : Nat → Bool) : (l.toFinset.filter (fun h => P h = true)).card = (l.dedup.filter P).length := by
  have h : l.toFinset.filter (fun h => P h = true) = (l.dedup.filter P).toFinset := by
    ext x; simp
  rw [h, List.toFinset_card_of_nodup ((List.nodup_dedup l).filter _)]

theorem total_eq (plane : Nat → Nat) (c : Clus) (i : Nat) : total plane c i = (AllOn plane c i).card := by
  unfold total AllOn
  rw [← card_filter_dedup]
  congr 1
  ext x; simp

theorem unique_eq (plane : Nat → Nat) (p : List Clus) (used : List Nat) (hu : ∀ h, h ∈ used ↔ ∃ d ∈ p, h ∈ hits2 d) (c : Clus) (i : Nat) : unique plane used c i = (NewOn plane p c i).card := by
  unfold unique NewOn
  rw [← card_filter_dedup]
  congr 1
  ext x
  have := hu x
  simp only [Finset.mem_filter, List.mem_toFinset, Bool.and_eq_true, beq_iff_eq, Bool.not_eq_true', List.contains_eq_mem, decide_eq_false_iff_not]
  rw [this]; push Not; tauto

theorem unique_le (plane : Nat → Nat) (used : List Nat) (c : Clus) (i : Nat) : unique plane used c i ≤ total plane c i := by
  unfold unique total
  rw [← List.countP_eq_length_filter, ← List.countP_eq_length_filter]
  apply List.countP_mono_left
  intro x _ h
  simp only [Bool.and_eq_true] at h
  exact h.1

theorem fraction_gt (plane : Nat → Nat) (used : List Nat) (c : Clus) (i : Nat) : fraction plane used c i > 0.9 ↔ 10 * unique plane used c i > 9 * total plane c i := by
  unfold fraction
  have hle := unique_le plane used c i
  by_cases h : total plane c i = 0
  · rw [if_pos h, h]
    rw [h] at hle
    have : unique plane used c i = 0 := by omega
    rw [this]; norm_num
  · rw [if_neg h]
    have hpos : (0 : Rat) < total plane c i := by exact_mod_cast Nat.pos_of_ne_zero h
    rw [gt_iff_lt, lt_div_iff₀ hpos]
    constructor
    · intro h1
      have : (9 * total plane c i : Rat) < 10 * unique plane used c i := by linarith
      exact_mod_cast this
    · intro h1
      have : (9 * total plane c i : Rat) < 10 * unique plane used c i := by exact_mod_cast h1
      linarith

theorem product_gt (plane : Nat → Nat) (used : List Nat) (c : Clus) : fraction plane used c 0 * fraction plane used c 1 * fraction plane used c 2 > 0.2 ↔
    5 * (unique plane used c 0 * unique plane used c 1 * unique plane used c 2) > total plane c 0 * total plane c 1 * total plane c 2 := by
  have hz : ∀ i, total plane c i = 0 → fraction plane used c i = 0 ∧ unique plane used c i = 0 := by
    intro i h
    have := unique_le plane used c i
    exact ⟨by unfold fraction; rw [if_pos h], by omega⟩
  by_cases h0 : total plane c 0 = 0
  · rw [(hz 0 h0).1, (hz 0 h0).2]; norm_num
  by_cases h1 : total plane c 1 = 0
  · rw [(hz 1 h1).1, (hz 1 h1).2]; norm_num
  by_cases h2 : total plane c 2 = 0
  · rw [(hz 2 h2).1, (hz 2 h2).2]; norm_num
  have p0 : (0 : Rat) < total plane c 0 := by exact_mod_cast Nat.pos_of_ne_zero h0
  have p1 : (0 : Rat) < total plane c 1 := by exact_mod_cast Nat.pos_of_ne_zero h1
  have p2 : (0 : Rat) < total plane c 2 := by exact_mod_cast Nat.pos_of_ne_zero h2
  unfold fraction
  rw [if_neg h0, if_neg h1, if_neg h2, div_mul_div_comm, div_mul_div_comm, gt_iff_lt, lt_div_iff₀ (by positivity)]
  constructor
  · intro h
    have : (total plane c 0 * total plane c 1 * total plane c 2 : Rat) < 5 * (unique plane used c 0 * unique plane used c 1 * unique plane used c 2) := by linarith
    exact_mod_cast this
  · intro h
    have : (total plane c 0 * total plane c 1 * total plane c 2 : Rat) < 5 * (unique plane used c 0 * unique plane used c 1 * unique plane used c 2) := by exact_mod_cast h
    linarith

theorem keep_iff (plane : Nat → Nat) (p : List Clus) (used : List Nat) (hu : ∀ h, h ∈ used ↔ ∃ d ∈ p, h ∈ hits2 d) (c : Clus) : keep plane used c = true ↔ Enough plane p c := by
  unfold keep Enough
  simp only [Bool.or_eq_true, decide_eq_true_eq, gt_iff_lt, lt_max_iff]
  simp only [← gt_iff_lt, fraction_gt, product_gt, unique_eq plane p used hu, total_eq]
  constructor
  · rintro (((h | h) | h) | h)
    · exact Or.inl ⟨0, by omega, h⟩
    · exact Or.inl ⟨1, by omega, h⟩
    · exact Or.inl ⟨2, by omega, h⟩
    · exact Or.inr h
  · rintro (⟨i, hi, h⟩ | h)
    · have : i = 0 ∨ i = 1 ∨ i = 2 := by omega
      rcases this with rfl | rfl | rfl
      · exact Or.inl (Or.inl (Or.inl h))
      · exact Or.inl (Or.inl (Or.inr h))
      · exact Or.inl (Or.inr h)
    · exact Or.inr h

theorem used_append {p : List Clus} {used : List Nat} (hu : ∀ h, h ∈ used ↔ ∃ d ∈ p, h ∈ hits2 d) (c : Clus) : ∀ h, h ∈ used ++ hits2 c ↔ ∃ d ∈ p ++ [c], h ∈ hits2 d := by
  intro h
  rw [List.mem_append, hu h]
  simp [or_and_right, exists_or]

/-- the loop decides for each cluster in turn -/
theorem keepLoop_split (plane : Nat → Nat) : ∀ (l : List Clus) (p : List Clus) (used : List Nat), (∀ h, h ∈ used ↔ ∃ d ∈ p, h ∈ hits2 d) →
    ∀ a c b, l = a ++ c :: b → ∃ ra rb, keepLoop plane used l = ra ++ (if Enough plane (p ++ ra) c then c :: rb else rb) ∧ ra.Sublist a ∧ rb.Sublist b := by
  have hsub : ∀ (l : List Clus) (used : List Nat), (keepLoop plane used l).Sublist l := by
    intro l
    induction l with
    | nil => intro used; exact List.Sublist.refl _
    | cons c l ih =>
      intro used; rw [keepLoop]; split
      · exact (ih _).cons_cons _
      · exact (ih _).cons _
  intro l
  induction l with
  | nil => intro p used _ a c b h; simp at h
  | cons x l ih =>
    intro p used hu a c b h
    cases a with
    | nil =>
      simp at h
      obtain ⟨rfl, rfl⟩ := h
      rw [keepLoop]
      by_cases hk : keep plane used x = true
      · have := (keep_iff plane p used hu x).1 hk
        exact ⟨[], _, by rw [if_pos hk, List.append_nil, if_pos this]; rfl, List.Sublist.refl _, hsub l _⟩
      · have := mt (keep_iff plane p used hu x).2 hk
        exact ⟨[], _, by rw [if_neg hk, List.append_nil, if_neg this]; rfl, List.Sublist.refl _, hsub l _⟩
    | cons y a =>
      simp at h
      obtain ⟨rfl, rfl⟩ := h
      rw [keepLoop]
      by_cases hk : keep plane used x = true
      · obtain ⟨ra, rb, h1, h2, h3⟩ := ih (p ++ [x]) _ (used_append hu x) a c b rfl
        refine ⟨x :: ra, rb, ?_, h2.cons_cons _, h3⟩
        rw [if_pos hk, h1, List.append_assoc]; rfl
      · obtain ⟨ra, rb, h1, h2, h3⟩ := ih p used hu a c b rfl
        exact ⟨ra, rb, by rw [if_neg hk, h1], h2.cons _, h3⟩

theorem keepLoop_sublist (plane : Nat → Nat) (l : List Clus) : ∀ used, (keepLoop plane used l).Sublist l := by
  induction l with
  | nil => intro used; exact List.Sublist.refl _
  | cons c l ih =>
    intro used; rw [keepLoop]; split
    · exact (ih _).cons_cons _
    · exact (ih _).cons _

/-- all kept clusters passed the test -/
theorem keepLoop_enough (plane : Nat → Nat) : ∀ (l : List Clus) (p : List Clus) (used : List Nat), (∀ h, h ∈ used ↔ ∃ d ∈ p, h ∈ hits2 d) →
    ∀ a c b, keepLoop plane used l = a ++ c :: b → Enough plane (p ++ a) c := by
  intro l
  induction l with
  | nil => intro p used _ a c b h; simp [keepLoop] at h
  | cons x l ih =>
    intro p used hu a c b h
    rw [keepLoop] at h
    by_cases hk : keep plane used x = true
    · rw [if_pos hk] at h
      cases a with
      | nil =>
        simp at h
        obtain ⟨rfl, -⟩ := h
        rw [List.append_nil]
        exact (keep_iff plane p used hu x).1 hk
      | cons y a =>
        simp at h
        obtain ⟨rfl, h⟩ := h
        have := ih (p ++ [x]) _ (used_append hu x) a c b h
        rwa [List.append_assoc] at this
    · rw [if_neg hk] at h
      exact ih p used hu a c b h

instance : Std.Total (fun a b : Clus => b.length ≤ a.length) := ⟨fun _ _ => le_total _ _⟩
instance : IsTrans Clus (fun a b => b.length ≤ a.length) := ⟨fun _ _ _ h1 h2 => le_trans h2 h1⟩

theorem sortClus_sorted (l : List Clus) : (sortClus l).Pairwise (fun a b => b.length ≤ a.length) := List.pairwise_insertionSort _ l

theorem sortClus_perm (l : List Clus) : (sortClus l).Perm l := List.perm_insertionSort _ l

/-- the sort is stable -/
theorem sortClus_stable (k : Nat) (l : List Clus) : (sortClus l).filter (fun c => c.length == k) = l.filter (fun c => c.length == k) := by
  have key : ∀ (a : Clus) (l : List Clus), (List.orderedInsert (fun a b => b.length ≤ a.length) a l).filter (fun c => c.length == k) = (a :: l).filter (fun c => c.length == k) := by
    intro a l
    induction l with
    | nil => rfl
    | cons b l ih =>
      rw [List.orderedInsert]
      split
      · rfl
      · rename_i h
        rw [List.filter_cons, ih]
        simp only [List.filter_cons]
        by_cases h1 : a.length = k
        · have : b.length ≠ k := by omega
          simp [h1, this]
        · simp [h1]
  unfold sortClus
  induction l with
  | nil => rfl
  | cons a l ih =>
    rw [List.insertionSort_cons, key, List.filter_cons, List.filter_cons, ih]

/-- for a list in decreasing size the loop from the back is a filter -/
theorem dropSmall_filter (n : Nat) (l : List Clus) (h : l.Pairwise (fun a b => b.length ≤ a.length)) : dropSmall n l = l.filter (fun c => n ≤ c.length) := by
  unfold dropSmall
  have key : ∀ r : List Clus, r.Pairwise (fun a b => a.length ≤ b.length) → r.dropWhile (fun c => c.length < n) = r.filter (fun c => n ≤ c.length) := by
    intro r hr
    induction r with
    | nil => rfl
    | cons c r ih =>
      rw [List.pairwise_cons] at hr
      by_cases hc : c.length < n
      · rw [List.dropWhile_cons_of_pos (by simpa using hc), ih hr.2, List.filter_cons_of_neg (by simpa using hc)]
      · rw [List.dropWhile_cons_of_neg (by simpa using hc), List.filter_cons_of_pos (by simpa using hc)]
        congr 1
        symm
        rw [List.filter_eq_self]
        intro d hd
        have := hr.1 d hd
        simp; omega
  rw [key _ (List.pairwise_reverse.2 h), List.filter_reverse, List.reverse_reverse]

/-- **C105**: the result is a selection of the given clusters, the largest first (those of the same size in the given order), of those with enough three dimensional hits, and each of them was decided on by the share of two dimensional hits that no cluster kept before it has:
for each candidate `c`, `ra` being what was kept of the candidates before, `c` is kept exactly if `Enough` holds -/
theorem C105_selected (plane : Nat → Nat) (n : Nat) (l : List Clus) :
    ∃ s : List Clus, s.Perm l ∧ s.Pairwise (fun a b => b.length ≤ a.length) ∧ (∀ k, s.filter (fun c => c.length == k) = l.filter (fun c => c.length == k)) ∧
      (build plane n l).Sublist (s.filter (fun c => n ≤ c.length)) ∧
      (∀ a c b, s.filter (fun c => n ≤ c.length) = a ++ c :: b →
        ∃ ra rb, build plane n l = ra ++ (if Enough plane ra c then c :: rb else rb) ∧ ra.Sublist a ∧ rb.Sublist b) ∧
      (∀ a c b, build plane n l = a ++ c :: b → n ≤ c.length ∧ Enough plane a c) := by
  refine ⟨sortClus l, sortClus_perm l, sortClus_sorted l, fun k => sortClus_stable k l, ?_, ?_, ?_⟩
  · unfold build
    rw [dropSmall_filter _ _ (sortClus_sorted l)]
    exact keepLoop_sublist _ _ _
  · intro a c b h
    unfold build
    rw [dropSmall_filter _ _ (sortClus_sorted l)]
    simpa using keepLoop_split plane _ [] [] (by simp) a c b h
  · intro a c b h
    have hm : c ∈ build plane n l := by rw [h]; simp
    unfold build at h hm
    rw [dropSmall_filter _ _ (sortClus_sorted l)] at h hm
    refine ⟨?_, by simpa using keepLoop_enough plane _ [] [] (by simp) a c b h⟩
    have := (keepLoop_sublist plane _ []).subset hm
    simpa using (List.mem_filter.1 this).2

theorem newOn_sub (plane : Nat → Nat) (p : List Clus) (c : Clus) (i : Nat) : NewOn plane p c i ⊆ AllOn plane c i := by
  intro x hx
  unfold NewOn at hx; unfold AllOn
  rw [Finset.mem_filter] at hx ⊢
  exact ⟨hx.1, hx.2.1⟩

theorem enough_new {plane : Nat → Nat} {p : List Clus} {c : Clus} (h : Enough plane p c) : ∃ x ∈ hits2 c, ∀ d ∈ p, x ∉ hits2 d := by
  have : ∃ i, 0 < (NewOn plane p c i).card := by
    rcases h with ⟨i, -, h⟩ | h
    · exact ⟨i, by omega⟩
    · refine ⟨0, ?_⟩
      by_contra h0
      have : (NewOn plane p c 0).card = 0 := by omega
      rw [this] at h
      simp at h
  obtain ⟨i, hi⟩ := this
  obtain ⟨x, hx⟩ := Finset.card_pos.1 hi
  unfold NewOn at hx
  rw [Finset.mem_filter, List.mem_toFinset] at hx
  exact ⟨x, hx.1, hx.2.2⟩

/-- a cluster that shares nothing is always kept, if it has two dimensional hits at all -/
theorem enough_disjoint {plane : Nat → Nat} {p : List Clus} {c : Clus} (hpl : ∀ x ∈ hits2 c, plane x < 3) (hne : hits2 c ≠ []) (hd : ∀ x ∈ hits2 c, ∀ d ∈ p, x ∉ hits2 d) : Enough plane p c := by
  obtain ⟨x, hx⟩ := List.exists_mem_of_ne_nil _ hne
  left
  refine ⟨plane x, hpl x hx, ?_⟩
  have : NewOn plane p c (plane x) = AllOn plane c (plane x) := by
    apply Finset.Subset.antisymm (newOn_sub _ _ _ _)
    intro y hy
    unfold AllOn at hy; unfold NewOn
    rw [Finset.mem_filter] at hy ⊢
    exact ⟨hy.1, hy.2, hd y (List.mem_toFinset.1 hy.1)⟩
  rw [this]
  have : 0 < (AllOn plane c (plane x)).card := Finset.card_pos.2 ⟨x, by unfold AllOn; rw [Finset.mem_filter, List.mem_toFinset]; exact ⟨hx, rfl⟩⟩
  omega

/-- **C105**: every kept cluster has a two dimensional hit that no cluster kept before it has, so there are not more kept clusters than two dimensional hits in them -/
theorem C105_new_hit (plane : Nat → Nat) (n : Nat) (l : List Clus) :
    (∀ a c b, build plane n l = a ++ c :: b → ∃ x ∈ hits2 c, ∀ d ∈ a, x ∉ hits2 d) ∧ (build plane n l).length ≤ ((build plane n l).flatMap hits2).toFinset.card := by
  obtain ⟨s, -, -, -, -, -, h⟩ := C105_selected plane n l
  have h1 : ∀ a c b, build plane n l = a ++ c :: b → ∃ x ∈ hits2 c, ∀ d ∈ a, x ∉ hits2 d := fun a c b hab => enough_new (h a c b hab).2
  refine ⟨h1, ?_⟩
  have : ∀ r q : List Clus, (∀ a c b, q = a ++ c :: b → ∃ x ∈ hits2 c, ∀ d ∈ a, x ∉ hits2 d) → r <+: q → r.length ≤ (r.flatMap hits2).toFinset.card := by
    intro r
    induction r using List.reverseRecOn with
    | nil => intro q _ _; simp
    | append_singleton r c ih =>
      intro q hq hpre
      obtain ⟨t, ht⟩ := hpre
      have h2 := ih q hq ⟨[c] ++ t, by rw [← ht]; simp⟩
      obtain ⟨x, hx1, hx2⟩ := hq r c t (by rw [← ht]; simp)
      have h3 : insert x (r.flatMap hits2).toFinset ⊆ ((r ++ [c]).flatMap hits2).toFinset := by
        intro y hy
        rw [Finset.mem_insert] at hy
        rw [List.mem_toFinset, List.flatMap_append, List.mem_append]
        rcases hy with rfl | hy
        · right; simpa using hx1
        · left; exact List.mem_toFinset.1 hy
      have h4 := Finset.card_le_card h3
      rw [Finset.card_insert_of_notMem (by
        rw [List.mem_toFinset, List.mem_flatMap]
        rintro ⟨d, hd, hxd⟩
        exact hx2 d hd hxd)] at h4
      rw [List.length_append, List.length_singleton]
      omega
  exact this _ _ h1 (List.prefix_refl _)

/-- **C105**: when no two of the clusters share a two dimensional hit, exactly the clusters with too few three dimensional hits are dropped -/
theorem C105_disjoint (plane : Nat → Nat) (n : Nat) (l : List Clus) (hpl : ∀ c ∈ l, ∀ x ∈ hits2 c, plane x < 3) (hne : ∀ c ∈ l, n ≤ c.length → hits2 c ≠ [])
    (hd : l.Pairwise (fun a b => ∀ x ∈ hits2 a, x ∉ hits2 b)) : (build plane n l).Perm (l.filter (fun c => n ≤ c.length)) := by
  have hsym : ∀ {a b : Clus}, (∀ x ∈ hits2 a, x ∉ hits2 b) → (∀ x ∈ hits2 b, x ∉ hits2 a) := fun h x hx hx' => h x hx' hx
  have hd' : (sortClus l).Pairwise (fun a b => ∀ x ∈ hits2 a, x ∉ hits2 b) := (sortClus_perm l).symm.pairwise hd (fun h => hsym h)
  have hd2 : ((sortClus l).filter (fun c => n ≤ c.length)).Pairwise (fun a b => ∀ x ∈ hits2 a, x ∉ hits2 b) := hd'.sublist List.filter_sublist
  have hb : build plane n l = (sortClus l).filter (fun c => n ≤ c.length) := by
    unfold build
    rw [dropSmall_filter _ _ (sortClus_sorted l)]
    have hprop : ∀ c ∈ (sortClus l).filter (fun c => n ≤ c.length), (∀ x ∈ hits2 c, plane x < 3) ∧ hits2 c ≠ [] := by
      intro c hc
      obtain ⟨hc1, hc2⟩ := List.mem_filter.1 hc
      have hc1 := (sortClus_perm l).mem_iff.1 hc1
      exact ⟨hpl c hc1, hne c hc1 (by simpa using hc2)⟩
    generalize (sortClus l).filter (fun c => n ≤ c.length) = q at hd2 hprop
    have key : ∀ (q p : List Clus) (used : List Nat), (∀ h, h ∈ used ↔ ∃ d ∈ p, h ∈ hits2 d) → (∀ c ∈ q, (∀ x ∈ hits2 c, plane x < 3) ∧ hits2 c ≠ []) →
        q.Pairwise (fun a b => ∀ x ∈ hits2 a, x ∉ hits2 b) → (∀ c ∈ q, ∀ x ∈ hits2 c, ∀ d ∈ p, x ∉ hits2 d) → keepLoop plane used q = q := by
      intro q
      induction q with
      | nil => intro p used _ _ _ _; rfl
      | cons c q ih =>
        intro p used hu h1 h2 h3
        rw [List.pairwise_cons] at h2
        have hk := (keep_iff plane p used hu c).2 (enough_disjoint (h1 c (by simp)).1 (h1 c (by simp)).2 (h3 c (by simp)))
        rw [keepLoop, if_pos hk, ih (p ++ [c]) _ (used_append hu c) (fun d hd => h1 d (List.mem_cons_of_mem _ hd)) h2.2 ?_]
        intro d hdq x hx e he
        rcases List.mem_append.1 he with he | he
        · exact h3 d (List.mem_cons_of_mem _ hdq) x hx e he
        · rw [List.mem_singleton.1 he]
          exact hsym (h2.1 d hdq) x hx
    exact key q [] [] (by simp) hprop hd2 (by simp)
  rw [hb]
  exact (sortClus_perm l).filter _

/-- **C105**: a cluster all of whose two dimensional hits are in clusters kept before is dropped; a repeated cluster is kept once at most -/
theorem C105_nodup (plane : Nat → Nat) (n : Nat) (l : List Clus) : (build plane n l).Pairwise (fun a b => ∃ x ∈ hits2 b, x ∉ hits2 a) := by
  have h1 := (C105_new_hit plane n l).1
  rw [List.pairwise_iff_forall_sublist]
  intro a b hab
  -- split at the second one
  have : ∀ q : List Clus, (∀ p c r, q = p ++ c :: r → ∃ x ∈ hits2 c, ∀ d ∈ p, x ∉ hits2 d) → [a, b].Sublist q → ∃ x ∈ hits2 b, x ∉ hits2 a := by
    intro q hq hs
    obtain ⟨p, r, hpr⟩ := List.append_of_mem (hs.subset (List.mem_cons_self))
    have key : ∀ (q p0 : List Clus), (∀ p c r, q = p ++ c :: r → ∃ x ∈ hits2 c, (∀ d ∈ p, x ∉ hits2 d)) → [a, b].Sublist q → ∃ x ∈ hits2 b, x ∉ hits2 a := by
      intro q _ hq hs
      rw [List.cons_sublist_iff] at hs
      obtain ⟨r1, r2, rfl, ha, hb⟩ := hs
      have hb' := hb.subset (List.mem_cons_self)
      obtain ⟨s1, s2, rfl⟩ := List.append_of_mem hb'
      obtain ⟨x, hx1, hx2⟩ := hq (r1 ++ s1) b s2 (by simp)
      exact ⟨x, hx1, hx2 a (List.mem_append_left _ ha)⟩
    exact key q [] hq hs
  exact this _ h1 hab

/-! ## Example -/

/-- planes 0, 1, 2 by the number modulo 3 -/
def planeMod (h : Nat) : Nat := h % 3

/-- three hits with nothing shared; a copy of the first two; one that shares one hit of three on each plane: (2/3)³ > 0.2; one cluster too small -/
def sampleIn : List Clus :=
  [[[some 0, some 1, some 2], [some 3, some 4, none]], [[some 0, some 1, some 2], [some 3, some 4, some 5], [some 6, some 7, some 8]], [[some 0, some 1, some 2], [some 9, some 10, some 11], [some 12, some 13, some 14]], [[some 20, some 22, none]]]

example : build planeMod 2 sampleIn = [[[some 0, some 1, some 2], [some 3, some 4, some 5], [some 6, some 7, some 8]], [[some 0, some 1, some 2], [some 9, some 10, some 11], [some 12, some 13, some 14]]] := by decide +kernel

/-- the hypotheses of `C105_disjoint` are met -/
example : let l : List Clus := [[[some 0, some 1, some 2], [some 3, none, some 5]], [[some 6, some 7, none]]]
    (∀ c ∈ l, ∀ x ∈ hits2 c, planeMod x < 3) ∧ (∀ c ∈ l, 2 ≤ c.length → hits2 c ≠ []) ∧ l.Pairwise (fun a b => ∀ x ∈ hits2 a, x ∉ hits2 b) ∧ (build planeMod 2 l).length = 1 := by decide +kernel

end Verif.Builder

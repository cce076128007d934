import Verif.Cluster.BlurProofs
/-!
# C138, C139: `FindClusters` of the blurred clustering

The outputs are lists of bins; bin `y * nx + x` is wire bin `x`, tick bin `y`.
-/
namespace Verif.Blur
open Verif

/-! ## C138 -/

theorem loop_cases (P : Cfg) (im : Img) (hm : HitMap) :
    (∃ cs, findClusters P im hm = .ok cs ∧ ∃ b, b < im.nx * im.ny ∧ chargeOf im b < P.minSeed) ∨
    (findClusters P im hm = .ub ∧ ∀ b, b < im.nx * im.ny → P.minSeed ≤ chargeOf im b) := by
  rcases clusterLoop_ind (P := P) (im := im) (hm := hm) (fun _ _ => True) (fun _ _ _ _ _ _ _ _ _ _ _ => trivial) (values im) ⟨fun _ => false, []⟩
    (fun v hv => mem_values.mp hv) (oinv_init im) trivial with ⟨o, us, h1, _, _, h4, v, us', rfl, h5⟩ | ⟨h1, h2⟩
  · have hv := mem_values.mp (h4.subset List.mem_cons_self)
    refine Or.inl ⟨o.all, ?_, v.2, hv.1, hv.2 ▸ h5⟩
    unfold findClusters; rw [h1]
  · refine Or.inr ⟨?_, fun b hb => h2 (chargeOf im b, b) (mem_values.mpr ⟨hb, rfl⟩)⟩
    unfold findClusters; rw [h1]

/-- **C138.** The search always ends, throws no exception, and is well defined exactly when some bin of the image is below the
threshold for seeds; otherwise it reads past the end of the list of bins. -/
theorem C138_safe (P : Cfg) (im : Img) (hm : HitMap) :
    ((∃ cs, findClusters P im hm = .ok cs) ↔ ∃ b, b < im.nx * im.ny ∧ chargeOf im b < P.minSeed) ∧
    ((∀ b, b < im.nx * im.ny → P.minSeed ≤ chargeOf im b) → findClusters P im hm = .ub) := by
  rcases loop_cases P im hm with ⟨cs, h1, b, hb, h2⟩ | ⟨h1, h2⟩
  · refine ⟨⟨fun _ => ⟨b, hb, h2⟩, fun _ => ⟨cs, h1⟩⟩, fun h => absurd (h b hb) (not_le.mpr h2)⟩
  · refine ⟨⟨?_, ?_⟩, fun _ => h1⟩
    · rintro ⟨cs, h⟩; rw [h1] at h; cases h
    · rintro ⟨b, hb, h⟩; exact absurd (h2 b hb) (not_le.mpr h)

/-- induction over the clusters found: a property of lists of clusters that holds of the empty list and is kept by storing one more -/
theorem find_ind {P : Cfg} {im : Img} {hm : HitMap} (Q : List (List Nat) → Prop) (h0 : Q [])
    (hst : ∀ (all : List (List Nat)) (sd : Nat) (cl : List Nat), Q all → sd < im.nx * im.ny → P.minSeed ≤ chargeOf im sd →
      Inv (im.nx * im.ny) (fun n => decide (n ∈ all.flatten)) (fun n => decide (n ∈ (all ++ [cl]).flatten)) cl →
      Stored P im hm (fun n => decide (n ∈ all.flatten)) sd cl → Q (all ++ [cl])) {cs : List (List Nat)}
    (h : findClusters P im hm = .ok cs) : Q cs ∧ OInv im ⟨fun n => decide (n ∈ cs.flatten), cs⟩ := by
  have hused : ∀ o : Out, OInv im o → o.used = fun n => decide (n ∈ o.all.flatten) := by
    intro o ho; funext n
    have := ho.used n
    rcases hu : o.used n with _ | _
    · rw [hu] at this; symm; rw [decide_eq_false_iff_not, ← this]; simp
    · symm; rw [decide_eq_true_eq, ← this]; exact hu
  rcases clusterLoop_ind (P := P) (im := im) (hm := hm) (fun _ o => Q o.all) (by
      intro v vs o o' hb hc hs hi hq hr hi'
      obtain ⟨o'', h1, h2⟩ := round_spec (P := P) (hm := hm) o hb
      rw [hr] at h1
      injection h1 with h1
      subst h1
      rcases h2 with ⟨rfl, _⟩ | ⟨_, cl, ha, hin, hsto⟩
      · exact hq
      · show Q o'.all
        rw [ha]
        refine hst o.all v.2 cl hq hb (hc ▸ hs) ?_ ?_
        · rw [hused o hi, hused o' hi', ha] at hin; exact hin
        · rw [hused o hi] at hsto; exact hsto)
    (values im) ⟨fun _ => false, []⟩ (fun v hv => mem_values.mp hv) (oinv_init im) h0 with ⟨o, us, h1, hi, hq, _⟩ | ⟨h1, _⟩
  · unfold findClusters at h
    rw [h1] at h
    simp only at h
    injection h with h
    subst h
    refine ⟨hq, ?_⟩
    rw [← hused o hi]; exact hi
  · unfold findClusters at h; rw [h1] at h; cases h

/-- **C138.** No bin is in two clusters or twice in one, every bin is a bin of the image and no cluster is smaller than the
minimum. -/
theorem C138_partition (P : Cfg) (im : Img) (hm : HitMap) (cs : List (List Nat)) (h : findClusters P im hm = .ok cs) :
    cs.flatten.Nodup ∧ ∀ c ∈ cs, P.minSize ≤ c.length ∧ ∀ b ∈ c, b < im.nx * im.ny := by
  obtain ⟨hq, hi⟩ := find_ind (fun all => ∀ c ∈ all, P.minSize ≤ c.length) (by simp) (by
    intro all sd cl hq _ _ _ hs c hc
    rw [List.mem_append, List.mem_singleton] at hc
    rcases hc with hc | rfl
    · exact hq c hc
    · exact hs.size) h
  exact ⟨hi.nodup, fun c hc => ⟨hq c hc, fun b hb => hi.lt b (List.mem_flatten.mpr ⟨c, hc, hb⟩)⟩⟩

/-- the eight bins around wire bin `x`, tick bin `y` -/
def around (nx x y : Nat) : List Nat :=
  [binOf nx (x - 1) (y - 1), binOf nx (x - 1) y, binOf nx (x - 1) (y + 1), binOf nx x (y - 1), binOf nx x (y + 1),
   binOf nx (x + 1) (y - 1), binOf nx (x + 1) y, binOf nx (x + 1) (y + 1)]

theorem usedAround_eq {nx x y : Nat} (u : Nat → Bool) (hx : 0 < x) (hy : 0 < y) :
    usedAround nx u (binOf nx x y) = (around nx x y).countP u := by
  obtain ⟨x, rfl⟩ : ∃ z, x = z + 1 := ⟨x - 1, by omega⟩
  obtain ⟨y, rfl⟩ : ∃ z, y = z + 1 := ⟨y - 1, by omega⟩
  have key : around nx (x + 1) (y + 1) = offs.map (fun o => (((binOf nx (x + 1) (y + 1) : Nat) : Int) + o.1 + o.2 * nx).toNat) := by
    have e : binOf nx (x + 1) (y + 1) = y * nx + nx + x + 1 := by unfold binOf; ring
    rw [e]
    simp only [around, offs, List.map_cons, List.map_nil, binOf]
    have e2 : (y + 1 + 1) * nx = y * nx + nx + nx := by ring
    have e3 : (y + 1) * nx = y * nx + nx := by ring
    rw [e2, e3]
    simp only [Nat.add_sub_cancel, List.cons.injEq, and_true]
    generalize y * nx = z
    refine ⟨?_, ?_, ?_, ?_, ?_, ?_, ?_, ?_⟩ <;> omega
  unfold usedAround
  rw [key, List.countP_map, ← List.countP_eq_length_filter]
  rfl

/-- **C138.** A bin of a cluster that is not on the border of the image has at least the minimum number of neighbours among the
bins of all clusters found. -/
theorem C138_neighbours (P : Cfg) (im : Img) (hm : HitMap) (cs : List (List Nat)) (h : findClusters P im hm = .ok cs)
    (c : List Nat) (hc : c ∈ cs) (x y : Nat) (hx : 0 < x) (hx' : x + 1 < im.nx) (hy : 0 < y) (hy' : y + 1 < im.ny)
    (hb : binOf im.nx x y ∈ c) : P.minNbr ≤ (around im.nx x y).countP (fun n => decide (n ∈ cs.flatten)) := by
  obtain ⟨hq, _⟩ := find_ind (fun all => ∀ c ∈ all, ∀ b ∈ c, onEdge im.nx im.ny b = false →
      P.minNbr ≤ usedAround im.nx (fun n => decide (n ∈ all.flatten)) b) (by simp) (by
    intro all sd cl hq _ _ _ hs c hc b hb he
    rw [List.mem_append, List.mem_singleton] at hc
    rcases hc with hc | rfl
    · refine le_trans (hq c hc b hb he) (usedAround_mono ?_ b)
      intro n hn
      simp only [decide_eq_true_eq] at hn ⊢
      rw [List.flatten_append]
      exact List.mem_append_left _ hn
    · refine le_trans (hs.nbr b hb he) (usedAround_mono ?_ b)
      intro n hn
      simpa [List.flatten_append] using hn) h
  have he : onEdge im.nx im.ny (binOf im.nx x y) = false := by
    have hxn : x < im.nx := by omega
    simp only [onEdge, Bool.or_eq_false_iff, decide_eq_false_iff_not]
    rw [bin_mod y hxn]
    refine ⟨⟨⟨?_, by omega⟩, by omega⟩, ?_⟩
    · unfold binOf
      have : 1 * im.nx ≤ y * im.nx := Nat.mul_le_mul_right _ hy
      omega
    · have := bin_lt (nx := im.nx) (ny := im.ny - 1) (x := x) (y := y) hxn (by omega)
      omega
  rw [← usedAround_eq _ hx hy]
  exact hq c hc _ hb he

/-- two hits, 20 ticks apart, on neighbouring wires of a small image -/
def nbrImg : Img := ⟨3, 3, fun x y => if y = 1 ∧ x < 2 then 2 - x else 0⟩
def nbrMap : HitMap := fun x y => if y = 1 ∧ x < 2 then some ⟨x, x, 1 + 20 * x, 2 - x, 1⟩ else none
def nbrCfg : Cfg := { minNbr := 1, timeThr := 10 }

/-- **C138, refuted in part.** The neighbours need not be in the same cluster: a bin alone in its cluster is kept because of a
neighbour in another cluster. -/
theorem C138_own_refuted : findClusters nbrCfg nbrImg nbrMap = .ok [[3], [4]] ∧ onEdge 3 3 4 = false ∧
    (around 3 1 1).countP (fun n => decide (n ∈ [4])) = 0 := by decide +kernel

/-- two touching bins above threshold, one cluster; and every other bin below the seed threshold -/
example : findClusters { timeThr := 100 } nbrImg nbrMap = .ok [[3, 4]] := by decide +kernel
example : findClusters { minSeed := 0 } nbrImg nbrMap = .ub := by decide +kernel

/-! ## C139 -/

/-- **C139.** Without removal of bins with few neighbours, a cluster starts with a bin above the seed threshold, clusters come in
the order of decreasing charge of these, and in every cluster each hit after the first is within the time threshold of an earlier
one (hits at or before tick 0 count as no hits). -/
theorem C139_seeds (P : Cfg) (im : Img) (hm : HitMap) (cs : List (List Nat)) (h : findClusters P im hm = .ok cs)
    (h0 : P.minNbr = 0) :
    (∀ c ∈ cs, (∃ sd, c.head? = some sd ∧ P.minSeed ≤ chargeOf im sd) ∧ Chain P im hm c) ∧
    (cs.filterMap List.head?).Pairwise (fun a b => chargeOf im b ≤ chargeOf im a) := by
  let Q : List (ℚ × Nat) → Out → Prop := fun vs o =>
    vs.Pairwise geVal ∧ (∀ c ∈ o.all, (∃ sd, c.head? = some sd ∧ P.minSeed ≤ chargeOf im sd ∧ ∀ v ∈ vs, v.1 ≤ chargeOf im sd) ∧
      Chain P im hm c) ∧ (o.all.filterMap List.head?).Pairwise (fun a b => chargeOf im b ≤ chargeOf im a)
  have main := clusterLoop_ind (P := P) (im := im) (hm := hm) Q (by
      intro v vs o o' hb hc hs hi hq hr hi'
      obtain ⟨q1, q2, q3⟩ := hq
      obtain ⟨o'', h1, h2⟩ := round_spec (P := P) (hm := hm) o hb
      rw [hr] at h1
      injection h1 with h1
      subst h1
      rw [List.pairwise_cons] at q1
      have hle : ∀ w ∈ vs, w.1 ≤ v.1 := by
        intro w hw
        rcases q1.1 w hw with h | h
        · exact le_of_lt h
        · exact le_of_eq h.1
      have q2' : ∀ c ∈ o.all, (∃ sd, c.head? = some sd ∧ P.minSeed ≤ chargeOf im sd ∧ ∀ v ∈ vs, v.1 ≤ chargeOf im sd) ∧
          Chain P im hm c := by
        intro c hc
        obtain ⟨⟨sd, a1, a2, a3⟩, a4⟩ := q2 c hc
        exact ⟨⟨sd, a1, a2, fun w hw => a3 w (List.mem_cons_of_mem _ hw)⟩, a4⟩
      rcases h2 with ⟨rfl, _⟩ | ⟨_, cl, ha, hin, hsto⟩
      · exact ⟨q1.2, q2', q3⟩
      · refine ⟨q1.2, ?_, ?_⟩
        · rw [ha]
          intro c hcm
          rw [List.mem_append, List.mem_singleton] at hcm
          rcases hcm with hcm | rfl
          · exact q2' c hcm
          · exact ⟨⟨v.2, hsto.hd h0, hc ▸ hs, fun w hw => hc ▸ hle w hw⟩, hsto.chain h0⟩
        · rw [ha, List.filterMap_append, List.pairwise_append]
          refine ⟨q3, by simp [hsto.hd h0], ?_⟩
          intro a ha' b hb'
          have hbv : b = v.2 := by simpa [hsto.hd h0] using hb'
          subst hbv
          obtain ⟨c, hcm, hch⟩ := List.mem_filterMap.mp ha'
          obtain ⟨⟨sd, a1, _, a3⟩, _⟩ := q2 c hcm
          rw [a1] at hch
          injection hch with hch
          subst hch
          rw [← hc]
          exact a3 v List.mem_cons_self)
    (values im) ⟨fun _ => false, []⟩ (fun v hv => mem_values.mp hv) (oinv_init im) ⟨values_sorted im, by simp, by simp⟩
  rcases main with ⟨o, us, h1, hi, ⟨_, q2, q3⟩, _⟩ | ⟨h1, _⟩
  · unfold findClusters at h
    rw [h1] at h
    simp only at h
    injection h with h
    subst h
    exact ⟨fun c hc => ⟨(q2 c hc).1.imp fun sd a => ⟨a.1, a.2.1⟩, (q2 c hc).2⟩, q3⟩
  · unfold findClusters at h; rw [h1] at h; cases h

/-- **C139.** With hole filling and removal off, a cluster is grown from its seed by steps to near bins above the charge threshold,
and it is maximal: a near bin above the threshold is in some cluster, or its hit is too far in time from all hits of the cluster. -/
theorem C139_maximal (P : Cfg) (im : Img) (hm : HitMap) (cs : List (List Nat)) (h : findClusters P im hm = .ok cs)
    (h0 : P.minNbr = 0) (h8 : 8 ≤ P.nbrThr) :
    (∀ c ∈ cs, ∃ sd, c.head? = some sd ∧ P.minSeed ≤ chargeOf im sd ∧ ∀ b ∈ c, Relation.ReflTransGen (Step P im) sd b) ∧
    (∀ c ∈ cs, ∀ b ∈ c, ∀ n, Step P im b n → n ∈ cs.flatten ∨
      (0 < timeOf im.nx hm n ∧ (∃ a ∈ c, 0 < timeOf im.nx hm a) ∧
        ∀ a ∈ c, 0 < timeOf im.nx hm a → P.timeThr ≤ |timeOf im.nx hm n - timeOf im.nx hm a|)) := by
  obtain ⟨hq, _⟩ := find_ind (fun all =>
    (∀ c ∈ all, ∃ sd, c.head? = some sd ∧ P.minSeed ≤ chargeOf im sd ∧ ∀ b ∈ c, Relation.ReflTransGen (Step P im) sd b) ∧
    (∀ c ∈ all, ∀ b ∈ c, ∀ n, Step P im b n → n ∈ all.flatten ∨
      (0 < timeOf im.nx hm n ∧ (∃ a ∈ c, 0 < timeOf im.nx hm a) ∧
        ∀ a ∈ c, 0 < timeOf im.nx hm a → P.timeThr ≤ |timeOf im.nx hm n - timeOf im.nx hm a|))) (by simp) (by
    intro all sd cl hq hsd hse _ hs
    refine ⟨?_, ?_⟩
    · intro c hc
      rw [List.mem_append, List.mem_singleton] at hc
      rcases hc with hc | rfl
      · exact hq.1 c hc
      · exact ⟨sd, hs.hd h0, hse, hs.reach h0 h8⟩
    · intro c hc b hb n hst
      rw [List.mem_append, List.mem_singleton] at hc
      rw [List.flatten_append, List.mem_append]
      rcases hc with hc | rfl
      · exact (hq.2 c hc b hb n hst).imp Or.inl id
      · rcases hs.closed h0 h8 b hb n hst with h1 | h1 | h1
        · exact Or.inl (Or.inl (by simpa using h1))
        · exact Or.inl (Or.inr (by simpa using h1))
        · refine Or.inr ?_
          have h2 : ¬ (timeOk P (realTimes im hm c) (timeOf im.nx hm n) = true) := by rw [h1]; simp
          rw [timeOk_iff] at h2
          push Not at h2
          obtain ⟨a1, a2, a3⟩ := h2
          exact ⟨a1, a2, a3⟩) h
  exact hq

/-- two bins are joined by a chain of bins above the charge threshold, each near the one before -/
def Joined (P : Cfg) (im : Img) (b n : Nat) : Prop := Relation.ReflTransGen (Step P im) b n

theorem step_symm {P : Cfg} {im : Img} {b n : Nat} (hb : b < im.nx * im.ny) (hc : P.chargeThr < chargeOf im b)
    (h : Step P im b n) : Step P im n b := by
  refine ⟨hb, h.2.1.symm, ?_, hc⟩
  have := h.2.2.1
  unfold Near at *
  rw [abs_sub_comm ((n % im.nx : Nat) : Int), abs_sub_comm ((n / im.nx : Nat) : Int)]
  exact this

theorem joined_good {P : Cfg} {im : Img} {b n : Nat} (hb : b < im.nx * im.ny) (hc : P.chargeThr < chargeOf im b)
    (h : Joined P im b n) : n < im.nx * im.ny ∧ P.chargeThr < chargeOf im n := by
  induction h with
  | refl => exact ⟨hb, hc⟩
  | tail _ hs _ => exact ⟨hs.1, hs.2.2.2⟩

theorem joined_symm {P : Cfg} {im : Img} {b n : Nat} (hb : b < im.nx * im.ny) (hc : P.chargeThr < chargeOf im b)
    (h : Joined P im b n) : Joined P im n b := by
  unfold Joined at *
  induction h with
  | refl => exact Relation.ReflTransGen.refl
  | tail h hs ih =>
    have := joined_good hb hc h
    exact Relation.ReflTransGen.head (step_symm this.1 this.2 hs) ih

/-- **C139.** With hole filling, removal and the time cut off and the seed threshold above the charge threshold, the clusters are
the groups of joined bins above the charge threshold that hold a bin above the seed threshold and have the minimum size: each cluster
is the whole group of any of its bins, and every such group is a cluster. -/
theorem C139_components (P : Cfg) (im : Img) (hm : HitMap) (cs : List (List Nat)) (h : findClusters P im hm = .ok cs)
    (h0 : P.minNbr = 0) (h8 : 8 ≤ P.nbrThr) (hthr : P.chargeThr < P.minSeed)
    (ht : ∀ a b, 0 < timeOf im.nx hm a → 0 < timeOf im.nx hm b → |timeOf im.nx hm a - timeOf im.nx hm b| < P.timeThr) :
    (∀ c ∈ cs, (∃ sd ∈ c, P.minSeed ≤ chargeOf im sd) ∧ ∀ b ∈ c, ∀ n, n ∈ c ↔ Joined P im b n) ∧
    (∀ b, b < im.nx * im.ny → P.minSeed ≤ chargeOf im b →
      (∃ l : List Nat, l.Nodup ∧ P.minSize ≤ l.length ∧ ∀ n ∈ l, Joined P im b n) → ∃ c ∈ cs, b ∈ c) := by
  have hT : ∀ cl n, timeOk P (realTimes im hm cl) (timeOf im.nx hm n) = true := by
    intro cl n
    rw [timeOk_iff]
    rintro h1 ⟨a, ha, h2⟩
    exact ⟨a, ha, h2, ht n a h1 h2⟩
  let big : Nat → Prop := fun b => ∃ l : List Nat, l.Nodup ∧ P.minSize ≤ l.length ∧ ∀ n ∈ l, Joined P im b n
  let Good : List Nat → Prop := fun c => ∃ sd ∈ c, sd < im.nx * im.ny ∧ P.minSeed ≤ chargeOf im sd ∧ ∀ n, n ∈ c ↔ Joined P im sd n
  let Q : List (ℚ × Nat) → Out → Prop := fun vs o =>
    vs.Pairwise geVal ∧ (∀ c ∈ o.all, Good c) ∧
    ∀ b, b < im.nx * im.ny → P.minSeed ≤ chargeOf im b → (chargeOf im b, b) ∉ vs → big b → b ∈ o.all.flatten
  have main := clusterLoop_ind (P := P) (im := im) (hm := hm) Q (by
      intro v vs o o' hb hc hs hi hq hr hi'
      obtain ⟨q1, q2, q3⟩ := hq
      obtain ⟨o'', h1, h2⟩ := round_spec (P := P) (hm := hm) o hb
      rw [hr] at h1
      injection h1 with h1
      subst h1
      rw [List.pairwise_cons] at q1
      have hvs : P.minSeed ≤ chargeOf im v.2 := hc ▸ hs
      have hvc : P.chargeThr < chargeOf im v.2 := lt_of_lt_of_le hthr hvs
      have hv : v = (chargeOf im v.2, v.2) := by rw [← hc]
      -- a bin joined to an unused seed is unused
      have hfree : o.used v.2 = false → ∀ n, Joined P im v.2 n → o.used n = false := by
        intro hu n hj
        by_contra hne
        have hn := (hi.used n).mp (by simpa using hne)
        obtain ⟨c, hcm, hnc⟩ := List.mem_flatten.mp hn
        obtain ⟨sd, _, h3, h4, h5⟩ := q2 c hcm
        have hback := (Relation.ReflTransGen.trans ((h5 n).mp hnc) (joined_symm hb hvc hj) : Joined P im sd v.2)
        have := (hi.used v.2).mpr (List.mem_flatten.mpr ⟨c, hcm, (h5 _).mpr hback⟩)
        rw [hu] at this; cases this
      -- a closed set of bins around an unused seed holds all joined bins
      have hall : o.used v.2 = false → ∀ cl : List Nat, v.2 ∈ cl → (∀ b ∈ cl, ∀ n, Step P im b n →
          o.used n = true ∨ n ∈ cl ∨ timeOk P (realTimes im hm cl) (timeOf im.nx hm n) = false) →
          ∀ n, Joined P im v.2 n → n ∈ cl := by
        intro hu cl hv hcl n hj
        have hj' : Relation.ReflTransGen (Step P im) v.2 n := hj
        induction hj' with
        | refl => exact hv
        | tail h1 h2 ih =>
          rcases hcl _ (ih h1) _ h2 with h | h | h
          · have := hfree hu _ (Relation.ReflTransGen.tail h1 h2)
            rw [h] at this; cases this
          · exact h
          · rw [hT] at h; cases h
      have hsplit : ∀ b, (chargeOf im b, b) ∉ vs → (chargeOf im b, b) ∉ v :: vs ∨ b = v.2 := by
        intro b hbv
        by_cases hbb : b = v.2
        · exact Or.inr hbb
        · refine Or.inl ?_
          rw [List.mem_cons]
          rintro (h | h)
          · exact hbb (by rw [← h])
          · exact hbv h
      rcases h2 with ⟨rfl, hd⟩ | ⟨hu, cl, ha, hin, hsto⟩
      · refine ⟨q1.2, q2, fun b hbN hbs hbv hbig => ?_⟩
        rcases hsplit b hbv with h' | rfl
        · exact q3 b hbN hbs h' hbig
        · rcases hd with hu | ⟨hu, hdr⟩
          · exact (hi.used _).mp hu
          · obtain ⟨cl, _, hlt, hvcl, hcl⟩ := hdr.small h0 h8
            obtain ⟨l, hl1, hl2, hl3⟩ := hbig
            have hsub : l ⊆ cl := fun n hn => hall hu cl hvcl hcl n (hl3 n hn)
            have := (List.subperm_of_subset hl1 hsub).length_le
            omega
      · have hvcl : v.2 ∈ cl := List.mem_of_mem_head? (by rw [hsto.hd h0]; exact rfl)
        refine ⟨q1.2, ?_, fun b hbN hbs hbv hbig => ?_⟩
        · rw [ha]
          intro c hcm
          rw [List.mem_append, List.mem_singleton] at hcm
          rcases hcm with hcm | rfl
          · exact q2 c hcm
          · exact ⟨v.2, hvcl, hb, hvs, fun n => ⟨fun hn => hsto.reach h0 h8 n hn, hall hu c hvcl (hsto.closed h0 h8) n⟩⟩
        · rw [ha, List.flatten_append, List.mem_append]
          rcases hsplit b hbv with h' | rfl
          · exact Or.inl (q3 b hbN hbs h' hbig)
          · exact Or.inr (by simpa using hvcl))
    (values im) ⟨fun _ => false, []⟩ (fun v hv => mem_values.mp hv) (oinv_init im)
    ⟨values_sorted im, by simp, fun b hb _ hn => absurd (mem_values.mpr ⟨hb, rfl⟩) hn⟩
  rcases main with ⟨o, us, h1, hi, ⟨q1, q2, q3⟩, _, v, us', rfl, hv⟩ | ⟨h1, _⟩
  · unfold findClusters at h
    rw [h1] at h
    simp only at h
    injection h with h
    subst h
    refine ⟨?_, ?_⟩
    · intro c hc
      obtain ⟨sd, a1, a2, a3, a4⟩ := q2 c hc
      refine ⟨⟨sd, a1, a3⟩, fun b hb n => ?_⟩
      have hj := (a4 b).mp hb
      have hback := joined_symm a2 (lt_of_lt_of_le hthr a3) hj
      rw [a4]
      exact ⟨fun h => Relation.ReflTransGen.trans hback h, fun h => Relation.ReflTransGen.trans hj h⟩
    · intro b hb hs hbig
      refine List.mem_flatten.mp (q3 b hb hs ?_ hbig)
      intro hmem
      rw [List.pairwise_cons] at q1
      rw [List.mem_cons] at hmem
      rcases hmem with hmem | hmem
      · rw [← hmem] at hv; exact absurd hs (not_le.mpr hv)
      · have hle : chargeOf im b ≤ v.1 := by
          rcases q1.1 _ hmem with h | h
          · exact le_of_lt h
          · exact le_of_eq h.1
        exact absurd (le_trans hs hle) (not_le.mpr hv)
  · unfold findClusters at h; rw [h1] at h; cases h

/-- three groups: a pair, a single bin above the seed threshold, and a bin above the charge threshold only -/
def compImg : Img := ⟨5, 3, fun x y => if y = 1 ∧ x ≤ 1 then 3 else if y = 1 ∧ x = 4 then 2 else if y = 2 ∧ x = 3 then 1 else 0⟩

example : findClusters { minSize := 2, minSeed := 3 / 2, chargeThr := 1 / 2 } compImg (fun _ _ => none) = .ok [[6, 5], [9, 13]] ∧
    findClusters { minSize := 2, minSeed := 3 / 2, chargeThr := 1, timeThr := 1 } compImg (fun _ _ => none) = .ok [[6, 5]] := by
  decide +kernel

/-- the threshold for seeds at or below the charge threshold: the joined group of a seed is no longer the cluster of each of its
bins, a seed below the charge threshold is a cluster of its own -/
theorem C139_low_seed_refuted : ∃ (P : Cfg) (im : Img) (cs : List (List Nat)),
    findClusters P im (fun _ _ => none) = .ok cs ∧ P.minNbr = 0 ∧ 8 ≤ P.nbrThr ∧
    ¬ (∀ c ∈ cs, ∀ b ∈ c, ∀ n ∈ c, P.chargeThr < chargeOf im n ) :=
  ⟨{ minSeed := 1, chargeThr := 2 }, ⟨2, 1, fun x _ => if x = 0 then 1 else 0⟩, [[0]], by decide +kernel, rfl, le_refl _, by
    decide +kernel⟩

end Verif.Blur

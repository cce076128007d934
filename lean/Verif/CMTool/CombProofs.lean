import Verif.CMTool.MatchModel
import Mathlib.Data.List.Basic
import Mathlib.Data.List.Chain
import Mathlib.Data.List.Nodup
import Mathlib.Data.List.Lex
/-! Helper lemmas on the combination generators. -/
namespace Verif.CMTool.Comb
open Verif

/-- all tuples below the seed, in lexicographic order -/
def allTuples : List Nat → List (List Nat)
  | [] => [[]]
  | n :: ns => (List.range n).flatMap (fun c => (allTuples ns).map (c :: ·))

theorem mem_allTuples {seed t : List Nat} :
    t ∈ allTuples seed ↔ t.length = seed.length ∧ ∀ (i : Nat) (h : i < t.length) (h' : i < seed.length), t[i] < seed[i] := by
  induction seed generalizing t with
  | nil => simp [allTuples]
  | cons n ns ih =>
    simp only [allTuples, List.mem_flatMap, List.mem_range, List.mem_map]
    constructor
    · rintro ⟨c, hc, u, hu, rfl⟩
      obtain ⟨h1, h2⟩ := ih.1 hu
      refine ⟨by simp [h1], ?_⟩
      intro i hi hi'
      cases i with
      | zero => simpa using hc
      | succ i => simpa using h2 i (by simpa using hi) (by simpa using hi')
    · rintro ⟨h1, h2⟩
      cases t with
      | nil => simp at h1
      | cons c u =>
        refine ⟨c, h2 0 (by simp) (by simp), u, ih.2 ⟨by simpa using h1, ?_⟩, rfl⟩
        intro i hi hi'
        exact h2 (i + 1) (by simpa using hi) (by simpa using hi')

/-- strict lexicographic order on tuples -/
def lexLt : List Nat → List Nat → Prop
  | a :: as, b :: bs => a < b ∨ (a = b ∧ lexLt as bs)
  | _, _ => False

theorem lexLt_irrefl (a : List Nat) : ¬ lexLt a a := by
  induction a with
  | nil => simp [lexLt]
  | cons x a ih => simp [lexLt, ih]

theorem allTuples_sorted (seed : List Nat) : (allTuples seed).Pairwise lexLt := by
  induction seed with
  | nil => simp [allTuples]
  | cons n ns ih =>
    unfold allTuples
    rw [List.pairwise_flatMap]
    constructor
    · intro c _
      rw [List.pairwise_map]
      exact ih.imp (fun h => .inr ⟨rfl, h⟩)
    · refine List.pairwise_lt_range.imp ?_
      intro a b hab x hx y hy
      obtain ⟨u, _, rfl⟩ := List.mem_map.1 hx
      obtain ⟨v, _, rfl⟩ := List.mem_map.1 hy
      exact .inl hab

theorem allTuples_nodup (seed : List Nat) : (allTuples seed).Nodup :=
  List.Pairwise.imp (by intro a b h e; subst e; exact lexLt_irrefl _ h) (allTuples_sorted seed)

theorem allTuples_ne_nil {seed : List Nat} (h : ∀ n ∈ seed, 0 < n) : allTuples seed ≠ [] := by
  have : List.replicate seed.length 0 ∈ allTuples seed := by
    rw [mem_allTuples]
    refine ⟨by simp, ?_⟩
    intro i h1 h2
    simp only [List.getElem_replicate]
    exact h _ (List.getElem_mem h2)
  exact List.ne_nil_of_mem this

theorem allTuples_head {seed : List Nat} (h : ∀ n ∈ seed, 0 < n) :
    (allTuples seed).head? = some (List.replicate seed.length 0) := by
  induction seed with
  | nil => rfl
  | cons n ns ih =>
    have hn := h n (by simp)
    have ih := ih (fun m hm => h m (by simp [hm]))
    obtain ⟨m, rfl⟩ : ∃ m, n = m + 1 := ⟨n - 1, by omega⟩
    unfold allTuples
    rw [List.range_succ_eq_map, List.flatMap_cons]
    cases ht : allTuples ns with
    | nil => rw [ht] at ih; simp at ih
    | cons t ts => rw [ht] at ih; simp at ih; simp [ih, List.replicate_succ]

/-- consecutive tuples are related by the counter increment; after the last one the counters return to 0 -/
theorem allTuples_chain {seed : List Nat} (h : ∀ n ∈ seed, 0 < n) :
    (allTuples seed).IsChain (fun a b => incr seed a = (b, false)) ∧
    ∀ t ∈ (allTuples seed).getLast?, incr seed t = (List.replicate seed.length 0, true) := by
  induction seed with
  | nil => simp [allTuples, incr]
  | cons n ns ih =>
    obtain ⟨ih1, ih2⟩ := ih (fun m hm => h m (by simp [hm]))
    have hne := allTuples_ne_nil (fun m hm => h m (List.mem_cons_of_mem n hm))
    have hhead := allTuples_head (fun m hm => h m (List.mem_cons_of_mem n hm))
    have hn := h n (by simp)
    have hlast : ∀ m, 0 < m → ∀ t ∈ ((List.range m).flatMap (fun c => (allTuples ns).map (c :: ·))).getLast?,
        ∃ u ∈ (allTuples ns).getLast?, t = (m - 1) :: u := by
      intro m hm t ht
      obtain ⟨k, rfl⟩ : ∃ k, m = k + 1 := ⟨m - 1, by omega⟩
      rw [List.range_succ, List.flatMap_append, List.flatMap_singleton,
        List.getLast?_append_of_ne_nil _ (by simpa using hne), List.getLast?_map] at ht
      simp only [Option.mem_def, Option.map_eq_some_iff] at ht
      obtain ⟨u, hu, rfl⟩ := ht
      exact ⟨u, hu, rfl⟩
    have key : ∀ m, m ≤ n → ((List.range m).flatMap (fun c => (allTuples ns).map (c :: ·))).IsChain
        (fun a b => incr (n :: ns) a = (b, false)) := by
      intro m
      induction m with
      | zero => intro _; simp
      | succ m ihm =>
        intro hm
        rw [List.range_succ, List.flatMap_append, List.flatMap_singleton, List.isChain_append]
        refine ⟨ihm (by omega), ?_, ?_⟩
        · rw [List.isChain_map]
          refine ih1.imp ?_
          intro a b hab
          simp [incr, hab]
        · intro x hx y hy
          rw [List.head?_map, hhead] at hy
          simp at hy
          subst hy
          by_cases hm0 : m = 0
          · subst hm0; simp at hx
          · obtain ⟨u, hu, rfl⟩ := hlast m (by omega) x hx
            have := ih2 u hu
            simp only [incr, this]
            rw [if_pos (by omega)]
            congr 2
            omega
    refine ⟨key n (Nat.le_refl _), ?_⟩
    intro t ht
    obtain ⟨u, hu, rfl⟩ := hlast n hn t ht
    simp only [incr, ih2 u hu]
    rw [if_neg (by omega)]
    simp [List.replicate_succ]

/-- zero seed entries behave like 1 -/
theorem incr_max (seed ctr : List Nat) : incr seed ctr = incr (seed.map (max 1)) ctr := by
  induction seed generalizing ctr with
  | nil => cases ctr <;> rfl
  | cons s seed ih =>
    cases ctr with
    | nil => rfl
    | cons c ctr =>
      simp only [incr, List.map_cons, ih ctr]
      have : (c + 1 < s) ↔ (c + 1 < max 1 s) := by omega
      simp only [this]

theorem all_zero_iff (l : List Nat) : l.all (· == 0) = true ↔ l = List.replicate l.length 0 := by
  rw [List.eq_replicate_iff]; simp

theorem combLoop_chain (seed z : List Nat) (rest : List (List Nat)) (t : List Nat) (res : List (List Nat))
    (fuel : Nat) (hf : rest.length < fuel)
    (hlen : ∀ u ∈ rest, u.length = z.length) (hz : z = List.replicate z.length 0)
    (hchain : (t :: rest).IsChain (fun a b => incr seed a = (b, false)))
    (hlast : ∀ u ∈ (t :: rest).getLast?, incr seed u = (z, true))
    (hnz : ∀ u ∈ rest, u ≠ z) :
    combLoop seed fuel t res = some (res ++ t :: rest) := by
  induction rest generalizing t res fuel with
  | nil =>
    obtain ⟨f, rfl⟩ : ∃ f, fuel = f + 1 := ⟨fuel - 1, by simp at hf; omega⟩
    have := hlast t (by simp)
    have hz' : z.all (· == 0) = true := (all_zero_iff z).2 hz
    simp only [combLoop, this, hz', if_true]
  | cons u rest ih =>
    obtain ⟨f, rfl⟩ : ∃ f, fuel = f + 1 := ⟨fuel - 1, by simp at hf; omega⟩
    have hstep := (List.isChain_cons_cons.1 hchain).1
    have hu : ¬ (u.all (· == 0) = true) := by
      rw [all_zero_iff, hlen u (by simp)]
      intro h
      exact hnz u (by simp) (h.trans hz.symm)
    simp only [combLoop, hstep, hu]
    rw [ih u (res ++ [t]) f (by simpa using hf) (fun v hv => hlen v (by simp [hv]))
      (List.isChain_cons_cons.1 hchain).2 (by simpa using hlast) (fun v hv => hnz v (by simp [hv]))]
    simp

/-- `ClusterCombinations` enumerates all tuples (a zero entry counts as one) -/
theorem clusterCombinations_eq (seed : List Nat) (fuel : Nat)
    (hf : (allTuples (seed.map (max 1))).length ≤ fuel) :
    clusterCombinations fuel seed = some (allTuples (seed.map (max 1))) := by
  have hpos : ∀ n ∈ seed.map (max 1), 0 < n := by
    intro n hn
    obtain ⟨m, _, rfl⟩ := List.mem_map.1 hn
    omega
  obtain ⟨h1, h2⟩ := allTuples_chain hpos
  have hh := allTuples_head hpos
  have hnd := allTuples_nodup (seed.map (max 1))
  have hmem := fun t => @mem_allTuples (seed.map (max 1)) t
  have hincr : incr (seed.map (max 1)) = incr seed := by funext c; exact (incr_max seed c).symm
  rw [hincr] at h1 h2
  unfold clusterCombinations
  cases ht : allTuples (seed.map (max 1)) with
  | nil => rw [ht] at hh; simp at hh
  | cons t rest =>
    rw [ht] at hh h1 h2 hnd hf
    simp only [List.head?_cons, Option.some.injEq, List.length_map] at hh
    subst hh
    rw [combLoop_chain seed (List.replicate seed.length 0) rest]
    · simp
    · simp at hf; omega
    · intro u hu
      have := (hmem u).1 (by rw [ht]; simp [hu])
      simpa using this.1
    · simp
    · exact h1
    · intro u hu; simpa using h2 u hu
    · intro u hu he
      subst he
      exact (List.nodup_cons.1 hnd).1 hu

/-! ### next_permutation -/

/-- all Boolean vectors of length `n` with `r` entries `true`, in lexicographic order -/
def bits : Nat → Nat → List (List Bool)
  | 0, 0 => [[]]
  | 0, _ + 1 => []
  | n + 1, 0 => (bits n 0).map (false :: ·)
  | n + 1, r + 1 => (bits n (r + 1)).map (false :: ·) ++ (bits n r).map (true :: ·)

theorem mem_bits {n r : Nat} {v : List Bool} :
    v ∈ bits n r ↔ v.length = n ∧ v.count true = r := by
  induction n generalizing r v with
  | zero =>
    cases r with
    | zero => simp [bits]; intro h; simp [h]
    | succ r => simp [bits]; intro h; subst h; simp
  | succ n ih =>
    cases v with
    | nil => cases r <;> simp [bits]
    | cons b v =>
      cases r with
      | zero =>
        simp only [bits, List.mem_map, List.cons.injEq, List.length_cons, Nat.add_right_cancel_iff]
        constructor
        · rintro ⟨u, hu, rfl, rfl⟩
          have := ih.1 hu
          simpa using this
        · rintro ⟨h1, h2⟩
          cases b with
          | true => simp at h2
          | false => exact ⟨v, ih.2 ⟨h1, by simpa using h2⟩, rfl, rfl⟩
      | succ r =>
        simp only [bits, List.mem_append, List.mem_map, List.cons.injEq, List.length_cons,
          Nat.add_right_cancel_iff]
        constructor
        · rintro (⟨u, hu, rfl, rfl⟩ | ⟨u, hu, rfl, rfl⟩)
          · have := ih.1 hu
            simpa using this
          · have := ih.1 hu
            simpa using this
        · rintro ⟨h1, h2⟩
          cases b with
          | true => exact .inr ⟨v, ih.2 ⟨h1, by simpa using h2⟩, rfl, rfl⟩
          | false => exact .inl ⟨v, ih.2 ⟨h1, by simpa using h2⟩, rfl, rfl⟩

theorem bits_nodup (n r : Nat) : (bits n r).Nodup := by
  induction n generalizing r with
  | zero => cases r <;> simp [bits]
  | succ n ih =>
    cases r with
    | zero => exact (ih 0).map (fun a b h => by simpa using h)
    | succ r =>
      unfold bits
      rw [List.nodup_append]
      refine ⟨(ih _).map (fun a b h => by simpa using h), (ih _).map (fun a b h => by simpa using h), ?_⟩
      intro a ha b hb
      obtain ⟨u, _, rfl⟩ := List.mem_map.1 ha
      obtain ⟨v, _, rfl⟩ := List.mem_map.1 hb
      simp

theorem bits_empty {n r : Nat} (h : n < r) : bits n r = [] := by
  induction n generalizing r with
  | zero => cases r with
    | zero => omega
    | succ r => rfl
  | succ n ih =>
    cases r with
    | zero => omega
    | succ r => unfold bits; rw [ih (by omega), ih (by omega)]; rfl

theorem bits_head {n r : Nat} (h : r ≤ n) :
    (bits n r).head? = some (List.replicate (n - r) false ++ List.replicate r true) := by
  induction n generalizing r with
  | zero => obtain rfl : r = 0 := by omega
            rfl
  | succ n ih =>
    cases r with
    | zero =>
      have := ih (r := 0) (by omega)
      simp only [bits, List.head?_map, this]
      simp [List.replicate_succ]
    | succ r =>
      unfold bits
      by_cases hr : r + 1 ≤ n
      · have := ih hr
        rw [List.head?_append, List.head?_map, this]
        simp only [Option.map_some, Option.some_or, Option.some.injEq]
        rw [show n + 1 - (r + 1) = (n - (r + 1)) + 1 by omega, List.replicate_succ]
        rfl
      · have e := bits_empty (n := n) (r := r + 1) (by omega)
        have := ih (r := r) (by omega)
        rw [e]
        simp only [List.map_nil, List.nil_append, List.head?_map, this, Option.map_some, Option.some.injEq]
        have h0 : n - r = 0 := by omega
        simp [show n + 1 - (r + 1) = 0 by omega, h0, List.replicate_succ]

theorem set_idxOf_true (m k : Nat) :
    (List.replicate m false ++ List.replicate (k + 1) true).set
      ((List.replicate m false ++ List.replicate (k + 1) true).idxOf true) false =
    List.replicate (m + 1) false ++ List.replicate k true := by
  induction m with
  | zero => simp [List.replicate_succ, List.idxOf_cons]
  | succ m ih =>
    simp only [List.replicate_succ (n := m), List.cons_append, List.idxOf_cons]
    simp only [show (false == true) = false from rfl, cond_false, List.set_cons_succ, ih]
    rfl

theorem bits_chain (n r : Nat) (h : r ≤ n) :
    (bits n r).IsChain (fun a b => nextPerm a = some b) ∧
    (∀ v ∈ (bits n r).getLast?, v = List.replicate r true ++ List.replicate (n - r) false ∧ nextPerm v = none) := by
  induction n generalizing r with
  | zero =>
    obtain rfl : r = 0 := by omega
    simp [bits, nextPerm]
  | succ n ih =>
    have hmapc : ∀ (b : Bool) (l : List (List Bool)), l.IsChain (fun a b => nextPerm a = some b) →
        (l.map (b :: ·)).IsChain (fun a b => nextPerm a = some b) := by
      intro b l hl
      rw [List.isChain_map]
      exact hl.imp (fun u v huv => by simp [nextPerm, huv])
    cases r with
    | zero =>
      obtain ⟨h1, h2⟩ := ih 0 (by omega)
      unfold bits
      refine ⟨hmapc _ _ h1, ?_⟩
      intro v hv
      rw [List.getLast?_map] at hv
      simp only [Option.mem_def, Option.map_eq_some_iff] at hv
      obtain ⟨u, hu, rfl⟩ := hv
      obtain ⟨e1, e2⟩ := h2 u hu
      refine ⟨by rw [e1]; simp [List.replicate_succ], ?_⟩
      simp only [nextPerm, e2]
      rw [if_neg (by rw [e1]; simp)]
    | succ r =>
      unfold bits
      obtain ⟨h1, h2⟩ := ih r (by omega)
      have hh := bits_head (n := n) (r := r) (by omega)
      have htrue : ∀ v ∈ ((bits n r).map (true :: ·)).getLast?,
          v = List.replicate (r + 1) true ++ List.replicate (n + 1 - (r + 1)) false ∧ nextPerm v = none := by
        intro v hv
        rw [List.getLast?_map] at hv
        simp only [Option.mem_def, Option.map_eq_some_iff] at hv
        obtain ⟨u, hu, rfl⟩ := hv
        obtain ⟨e1, e2⟩ := h2 u hu
        refine ⟨by rw [e1, show n + 1 - (r + 1) = n - r by omega]; simp [List.replicate_succ], ?_⟩
        simp [nextPerm, e2]
      have hne : (bits n r).map (true :: ·) ≠ [] := by
        intro he
        have : bits n r = [] := by simpa using he
        rw [this] at hh; simp at hh
      by_cases hr : r + 1 ≤ n
      · obtain ⟨g1, g2⟩ := ih (r + 1) hr
        constructor
        · rw [List.isChain_append]
          refine ⟨hmapc _ _ g1, hmapc _ _ h1, ?_⟩
          intro x hx y hy
          rw [List.getLast?_map] at hx
          simp only [Option.mem_def, Option.map_eq_some_iff] at hx
          obtain ⟨u, hu, rfl⟩ := hx
          obtain ⟨e1, e2⟩ := g2 u hu
          rw [List.head?_map, hh] at hy
          simp only [Option.map_some, Option.mem_def, Option.some.injEq] at hy
          subst hy
          simp only [nextPerm, e2]
          rw [if_pos ⟨trivial, by rw [e1]; simp⟩, e1]
          rw [show (List.replicate (r + 1) true ++ List.replicate (n - (r + 1)) false).reverse =
            List.replicate (n - (r + 1)) false ++ List.replicate (r + 1) true by simp]
          rw [set_idxOf_true, show n - (r + 1) + 1 = n - r by omega]
        · intro v hv
          rw [List.getLast?_append_of_ne_nil _ hne] at hv
          exact htrue v hv
      · have e := bits_empty (n := n) (r := r + 1) (by omega)
        rw [e]
        exact ⟨hmapc _ _ h1, htrue⟩

theorem permLoop_chain (rest : List (List Bool)) (v : List Bool) (res : List (List Nat)) (fuel : Nat)
    (hf : rest.length < fuel)
    (hchain : (v :: rest).IsChain (fun a b => nextPerm a = some b))
    (hlast : ∀ u ∈ (v :: rest).getLast?, nextPerm u = none) :
    permLoop fuel v res = some (res ++ (v :: rest).map trueIdx) := by
  induction rest generalizing v res fuel with
  | nil =>
    obtain ⟨f, rfl⟩ : ∃ f, fuel = f + 1 := ⟨fuel - 1, by simp at hf; omega⟩
    simp only [permLoop, hlast v (by simp)]
    rfl
  | cons u rest ih =>
    obtain ⟨f, rfl⟩ : ∃ f, fuel = f + 1 := ⟨fuel - 1, by simp at hf; omega⟩
    simp only [permLoop, (List.isChain_cons_cons.1 hchain).1]
    rw [ih u _ f (by simpa using hf) (List.isChain_cons_cons.1 hchain).2 (by simpa using hlast)]
    simp

theorem permLoop_eq {n r : Nat} (h : r ≤ n) (fuel : Nat) (hf : (bits n r).length ≤ fuel) :
    permLoop fuel (List.replicate (n - r) false ++ List.replicate r true) [] =
      some ((bits n r).map trueIdx) := by
  obtain ⟨h1, h2⟩ := bits_chain n r h
  have hh := bits_head h
  cases ht : bits n r with
  | nil => rw [ht] at hh; simp at hh
  | cons v rest =>
    rw [ht] at hh h1 h2 hf
    simp at hh
    subst hh
    rw [permLoop_chain rest _ _ _ (by simp at hf; omega) h1 (fun u hu => (h2 u hu).2)]
    simp

/-! ### index sets of Boolean vectors -/
theorem mem_trueIdx {v : List Bool} {i : Nat} : i ∈ trueIdx v ↔ v[i]?.getD false = true := by
  unfold trueIdx
  simp only [List.mem_filter, List.mem_range]
  constructor
  · exact fun h => h.2
  · intro h
    refine ⟨?_, h⟩
    by_contra hn
    rw [List.getElem?_eq_none (by omega)] at h
    simp at h

theorem trueIdx_sorted (v : List Bool) : (trueIdx v).Pairwise (· < ·) :=
  List.Pairwise.filter _ List.pairwise_lt_range

theorem trueIdx_length (v : List Bool) : (trueIdx v).length = v.count true := by
  have : ∀ (v : List Bool), trueIdx v = (List.range v.length).filter (fun i => v[i]?.getD false) := fun _ => rfl
  induction v with
  | nil => rfl
  | cons b v ih =>
    rw [this] at ih ⊢
    rw [List.length_cons, List.range_succ_eq_map, List.filter_cons, List.filter_map, List.count_cons]
    have hf : ((fun i => (b :: v)[i]?.getD false) ∘ Nat.succ) = fun i => v[i]?.getD false := by
      funext i; simp
    rw [hf]
    cases b <;> simp [ih]

theorem trueIdx_inj {v w : List Bool} (hl : v.length = w.length) (h : trueIdx v = trueIdx w) : v = w := by
  apply List.ext_getElem hl
  intro i h1 h2
  have a1 := @mem_trueIdx v i
  have a2 := @mem_trueIdx w i
  rw [h] at a1
  simp only [List.getElem?_eq_getElem h1, Option.getD_some] at a1
  simp only [List.getElem?_eq_getElem h2, Option.getD_some] at a2
  have := a1.symm.trans a2
  cases hv : v[i] <;> cases hw : w[i] <;> simp [hv, hw] at this ⊢

/-- the vector marking the members of `s` -/
def mark (n : Nat) (s : List Nat) : List Bool := (List.range n).map (fun i => decide (i ∈ s))

theorem trueIdx_mark {n : Nat} {s : List Nat} (h1 : s.Pairwise (· < ·)) (h2 : ∀ x ∈ s, x < n) :
    trueIdx (mark n s) = s := by
  have hm : ∀ i, i ∈ trueIdx (mark n s) ↔ i ∈ s := by
    intro i
    rw [mem_trueIdx]
    unfold mark
    by_cases hi : i < n
    · simp [hi]
    · rw [List.getElem?_eq_none (by simp; omega)]
      simp
      intro hs
      exact hi (h2 i hs)
  have hp : (trueIdx (mark n s)).Perm s := by
    rw [List.perm_ext_iff_of_nodup]
    · exact hm
    · exact (trueIdx_sorted _).imp (fun h => Nat.ne_of_lt h)
    · exact h1.imp (fun h => Nat.ne_of_lt h)
  exact hp.eq_of_pairwise (le := (· < ·)) (fun a b _ _ h1 h2 => absurd (Nat.lt_trans h1 h2) (Nat.lt_irrefl _))
    (trueIdx_sorted _) h1

/-- ascending index lists -/
theorem mem_simple {n r : Nat} {s : List Nat} :
    s ∈ (bits n r).map trueIdx ↔ s.Pairwise (· < ·) ∧ s.length = r ∧ ∀ x ∈ s, x < n := by
  constructor
  · intro h
    obtain ⟨v, hv, rfl⟩ := List.mem_map.1 h
    obtain ⟨e1, e2⟩ := mem_bits.1 hv
    refine ⟨trueIdx_sorted v, by rw [trueIdx_length, e2], ?_⟩
    intro x hx
    have : x ∈ List.range v.length := (List.mem_filter.1 hx).1
    rw [List.mem_range, e1] at this
    exact this
  · rintro ⟨h1, h2, h3⟩
    have e := trueIdx_mark h1 h3
    refine List.mem_map.2 ⟨mark n s, mem_bits.2 ⟨by simp [mark], ?_⟩, e⟩
    rw [← trueIdx_length, e, h2]

theorem simple_nodup (n r : Nat) : ((bits n r).map trueIdx).Nodup := by
  refine List.Nodup.map_on ?_ (bits_nodup n r)
  intro v hv w hw h
  exact trueIdx_inj ((mem_bits.1 hv).1.trans (mem_bits.1 hw).1.symm) h

end Verif.CMTool.Comb

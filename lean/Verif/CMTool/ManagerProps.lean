import Verif.CMTool.ManagerModel
import Verif.CMTool.MergeProps
import Verif.CMTool.MatchProps
/-! # Properties C12, C13, C14 (and C55) of the merge manager -/
namespace Verif.CMTool
open Verif

/-! ## lists of pairs -/
section
variable {α : Type}
theorem mem_pairsOf_pairwise {R : α → α → Prop} {l : List α} (h : l.Pairwise R) {a b : α}
    (hab : (a, b) ∈ pairsOf l) : R a b ∧ a ∈ l ∧ b ∈ l := by
  induction l with
  | nil => simp [pairsOf] at hab
  | cons x l ih =>
    rw [List.pairwise_cons] at h
    simp only [pairsOf, List.mem_append, List.mem_map, Prod.mk.injEq] at hab
    rcases hab with ⟨y, hy, rfl, rfl⟩ | hab
    · exact ⟨h.1 _ hy, by simp, by simp [hy]⟩
    · obtain ⟨h1, h2, h3⟩ := ih h.2 hab
      exact ⟨h1, by simp [h2], by simp [h3]⟩

theorem pairsOf_total {l : List α} {a b : α} (ha : a ∈ l) (hb : b ∈ l) (hne : a ≠ b) :
    (a, b) ∈ pairsOf l ∨ (b, a) ∈ pairsOf l := by
  induction l with
  | nil => simp at ha
  | cons x l ih =>
    simp only [pairsOf, List.mem_append, List.mem_map, Prod.mk.injEq]
    rcases List.mem_cons.1 ha with rfl | ha
    · rcases List.mem_cons.1 hb with rfl | hb
      · exact absurd rfl hne
      · exact .inl (.inl ⟨b, hb, rfl, rfl⟩)
    · rcases List.mem_cons.1 hb with hbx | hb
      · exact .inr (.inl ⟨a, ha, hbx.symm, rfl⟩)
      · rcases ih ha hb with h | h
        · exact .inl (.inr h)
        · exact .inr (.inr h)

theorem mem_pairsOf_iff {R : α → α → Prop} (hR : ∀ a b, R a b → ¬ R b a) {l : List α} (h : l.Pairwise R) {a b : α} :
    (a, b) ∈ pairsOf l ↔ a ∈ l ∧ b ∈ l ∧ R a b := by
  constructor
  · intro hab
    obtain ⟨h1, h2, h3⟩ := mem_pairsOf_pairwise h hab
    exact ⟨h2, h3, h1⟩
  · rintro ⟨h1, h2, h3⟩
    have hne : a ≠ b := by rintro rfl; exact hR a a h3 h3
    rcases pairsOf_total h1 h2 hne with h' | h'
    · exact h'
    · exact absurd (mem_pairsOf_pairwise h h').1 (hR a b h3)
end

theorem forEach_inv {σ α : Type} {I : List α → σ → Prop} (l : List α) (body : α → Exec σ Unit)
    (h : ∀ pre x post, l = pre ++ x :: post → Exec.Triple (I pre) (body x) (fun _ => I (pre ++ [x]))) :
    Exec.Triple (I []) (Exec.forEach l body) (fun _ => I l) := by
  have gen : ∀ (post pre : List α), l = pre ++ post → Exec.Triple (I pre) (Exec.forEach post body) (fun _ => I l) := by
    intro post
    induction post with
    | nil => intro pre hl; exact Exec.Triple.pure (fun s hs => by rw [hl]; simpa using hs)
    | cons x post ih =>
      intro pre hl
      exact Exec.Triple.bind (h pre x post hl) (fun _ => ih (pre ++ [x]) (by simp [hl]))
  exact gen l [] rfl

section
variable {η κ : Type} [LinearOrder κ] [Zero κ]

/-! ## Specification vocabulary -/

/-- `a` is visited before `b`: higher priority, or equal priority and smaller index -/
def Before (prio : Nat → κ) (a b : Nat) : Prop := prio b < prio a ∨ (prio a = prio b ∧ a < b)

/-- A merge link of one pass: two different clusters of positive priority on the same plane (planes are compared
modulo 256), at least one of them switched on, for which the merge algorithm answers `true`. -/
def Link (cs : List (Cluster η)) (flags : List Bool) (al : PassAlgs κ) (a b : Nat) : Prop :=
  a < cs.length ∧ b < cs.length ∧ al.prio a > 0 ∧ al.prio b > 0 ∧ Before al.prio a b ∧
  planeOf cs a % 256 = planeOf cs b % 256 ∧ (flags[a]? = some true ∨ flags[b]? = some true) ∧ al.mrg a b = true

/-- A separation request of one pass -/
def Sep (cs : List (Cluster η)) (al : PassAlgs κ) (a b : Nat) : Prop :=
  a < b ∧ b < cs.length ∧ planeOf cs a % 256 = planeOf cs b % 256 ∧ ∃ f, al.sep = some f ∧ f a b = true

/-! ## The pass -/

theorem uplane_ok (cs : List (Cluster η)) {i : Nat} (h : i < cs.length) (s : BK) :
    uplane cs i s = (.ok (planeOf cs i % 256), s) := by
  simp [uplane, planeOf, List.getElem?_eq_getElem h]

theorem conn_in_range {n s M P} (h : BK.Inv n M P s) {i j : Nat} (hc : Conn M i j) (hij : i ≠ j) : i < n ∧ j < n := by
  have gen : ∀ i j, Conn M i j → (i = j ∨ (i < n ∧ j < n)) := by
    intro i j hc
    induction hc with
    | rel x y hxy => exact .inr (h.mRange _ hxy)
    | refl x => exact .inl rfl
    | symm x y _ ih => rcases ih with rfl | ih; exact .inl rfl; exact .inr ⟨ih.2, ih.1⟩
    | trans x y z _ _ ih1 ih2 =>
      rcases ih1 with rfl | ih1
      · exact ih2
      · rcases ih2 with rfl | ih2
        · exact .inr ih1
        · exact .inr ⟨ih1.1, ih2.2⟩
  rcases gen i j hc with h | h
  · exact absurd h hij
  · exact h

theorem barred_mono {M M' P : List (Nat × Nat)} (h : ∀ p ∈ M, p ∈ M') {i j : Nat} (b : Barred M P i j) :
    Barred M' P i j := by
  obtain ⟨p, hp, h'⟩ := b
  refine ⟨p, hp, ?_⟩
  rcases h' with ⟨a, b⟩ | ⟨a, b⟩
  · exact .inl ⟨BK.conn_mono h a, BK.conn_mono h b⟩
  · exact .inr ⟨BK.conn_mono h a, BK.conn_mono h b⟩

/-- separation: all requested prohibitions are recorded, nothing merged -/
theorem runSeparate_spec (cs : List (Cluster η)) (al : PassAlgs κ) :
    Exec.Triple (fun s => s = BK.reset cs.length) (runSeparate cs al.sep)
      (fun _ s => ∃ P, BK.Reach cs.length s [] P ∧ ∀ a b, (a, b) ∈ P ↔ Sep cs al a b) := by
  unfold runSeparate
  cases hsep : al.sep with
  | none =>
    refine Exec.Triple.pure ?_
    rintro s rfl
    refine ⟨[], BK.Reach.reset _, ?_⟩
    intro a b
    simp [Sep, hsep]
  | some f =>
    have hpw : (List.range cs.length).Pairwise (· < ·) := List.pairwise_lt_range
    have hmem : ∀ a b, (a, b) ∈ pairsOf (List.range cs.length) ↔ a < b ∧ b < cs.length := by
      intro a b
      rw [mem_pairsOf_iff (R := (· < ·)) (fun a b h => by omega) hpw]
      simp only [List.mem_range]
      omega
    refine Exec.Triple.conseq (forEach_inv (I := fun pre s => ∃ P, BK.Reach cs.length s [] P ∧
      ∀ a b, (a, b) ∈ P ↔ (a, b) ∈ pre ∧ planeOf cs a % 256 = planeOf cs b % 256 ∧ f a b = true)
      (pairsOf (List.range cs.length)) (separatePair cs f) ?_) ?_ ?_
    · rintro pre ⟨a, b⟩ post hl s ⟨P, hr, hP⟩
      obtain ⟨hab, hb⟩ := (hmem a b).1 (by rw [hl]; simp)
      have ha : a < cs.length := by omega
      have e1 : separatePair cs f (a, b) s =
          (if planeOf cs a % 256 ≠ planeOf cs b % 256 then (.ok (), s) else
            if f a b then BK.prohibitMerge a b s else (.ok (), s)) := by
        unfold separatePair
        rw [Exec.bind_of_ok (uplane_ok cs ha s), Exec.bind_of_ok (uplane_ok cs hb s)]
        split
        · rfl
        · split <;> rfl
      rw [e1]
      split
      · rename_i hne
        refine ⟨(), s, rfl, P, hr, ?_⟩
        intro x y
        rw [hP]
        simp only [List.mem_append, List.mem_singleton, Prod.mk.injEq]
        constructor
        · rintro ⟨h1, h2⟩; exact ⟨.inl h1, h2⟩
        · rintro ⟨h1 | ⟨rfl, rfl⟩, h2⟩
          · exact ⟨h1, h2⟩
          · exact absurd h2.1 hne
      · rename_i heq
        split
        · rename_i hf
          have hinv := BK.reach_inv hr
          have hlab : BK.lab s a ≠ BK.lab s b := by
            intro h
            have := (hinv.eqv a b ha hb).1 h
            rw [BK.conn_nil] at this
            omega
          obtain ⟨s', e, _, _, _⟩ := BK.prohibit_ok hinv (by omega) ha hb hlab
          have hr' := BK.Reach.prohibit a b hr
          rw [e] at hr' ⊢
          refine ⟨(), s', rfl, (a, b) :: P, by simpa [Res.isOk] using hr', ?_⟩
          intro x y
          simp only [List.mem_cons, hP, List.mem_append, List.mem_singleton, Prod.mk.injEq]
          constructor
          · rintro (⟨rfl, rfl⟩ | h)
            · exact ⟨.inr (by simp), by simpa using heq, hf⟩
            · exact ⟨.inl h.1, h.2⟩
          · rintro ⟨h1 | h1, h2⟩
            · exact .inr ⟨h1, h2⟩
            · exact .inl (by simpa using h1)
        · rename_i hf
          refine ⟨(), s, rfl, P, hr, ?_⟩
          intro x y
          rw [hP]
          simp only [List.mem_append, List.mem_singleton, Prod.mk.injEq]
          constructor
          · rintro ⟨h1, h2⟩; exact ⟨.inl h1, h2⟩
          · rintro ⟨h1 | ⟨rfl, rfl⟩, h2⟩
            · exact ⟨h1, h2⟩
            · exact absurd h2.2 hf
    · rintro s rfl
      exact ⟨[], BK.Reach.reset _, by simp⟩
    · rintro _ s ⟨P, hr, hP⟩
      refine ⟨P, hr, ?_⟩
      intro a b
      rw [hP, hmem]
      simp only [Sep, hsep, Option.some.injEq, exists_eq_left']
      tauto

theorem before_asymm (prio : Nat → κ) (a b : Nat) (h : Before prio a b) : ¬ Before prio b a := by
  rintro h'
  rcases h with h | h <;> rcases h' with h' | h'
  · exact absurd h (not_lt.2 (le_of_lt h'))
  · rw [h'.1] at h; exact lt_irrefl _ h
  · rw [h.1] at h'; exact lt_irrefl _ h'
  · omega

theorem mem_pairs_order (prio : Nat → κ) (n a b : Nat) :
    (a, b) ∈ pairsOf (prioOrder prio n) ↔ a < n ∧ b < n ∧ prio a > 0 ∧ prio b > 0 ∧ Before prio a b := by
  obtain ⟨h1, h2⟩ := C15_priority_order prio n
  rw [mem_pairsOf_iff (R := Before prio) (before_asymm prio) h1, h2, h2]
  tauto

/-- one iteration of the inner loop of `RunMerge` -/
theorem mergePair_ok (cs : List (Cluster η)) (flags : List Bool) (ans : Nat → Nat → Bool) {a b : Nat}
    {s : BK} {M P : List (Nat × Nat)} (hr : BK.Reach cs.length s M P) (hab : a ≠ b)
    (ha : a < cs.length) (hb : b < cs.length) (hfl : flags.length = cs.length) :
    ∃ s' M', mergePair cs flags ans (a, b) s = (.ok (), s') ∧ BK.Reach cs.length s' M' P ∧
      (∀ p ∈ M, p ∈ M') ∧
      (∀ p ∈ M', p ∈ M ∨ (p = (a, b) ∧ planeOf cs a % 256 = planeOf cs b % 256 ∧
        (flags[a]? = some true ∨ flags[b]? = some true) ∧ ans a b = true)) ∧
      (planeOf cs a % 256 = planeOf cs b % 256 → (flags[a]? = some true ∨ flags[b]? = some true) →
        ans a b = true → Conn M' a b ∨ Barred M' P a b) := by
  have hfa : flags[a]? = some (flags[a]'(by omega)) := List.getElem?_eq_getElem (by omega)
  have hfb : flags[b]? = some (flags[b]'(by omega)) := List.getElem?_eq_getElem (by omega)
  obtain ⟨al, hal, half⟩ := C03_mergeAllowed_exact hr hab ha hb
  have e1 : mergePair cs flags ans (a, b) s =
      (if planeOf cs a % 256 ≠ planeOf cs b % 256 then (.ok (), s) else
        if !(flags[b]'(by omega)) && !(flags[a]'(by omega)) then (.ok (), s) else
        if !al then (.ok (), s) else if ans a b then BK.merge a b s else (.ok (), s)) := by
    unfold mergePair
    rw [Exec.bind_of_ok (uplane_ok cs ha s), Exec.bind_of_ok (uplane_ok cs hb s)]
    split
    · rfl
    · rw [Exec.bind_of_ok (show BK.liftRes (BK.atRes flags b) s = (.ok (flags[b]'(by omega)), s) by
          simp [BK.liftRes, BK.atRes, hfb]),
        Exec.bind_of_ok (show BK.liftRes (BK.atRes flags a) s = (.ok (flags[a]'(by omega)), s) by
          simp [BK.liftRes, BK.atRes, hfa])]
      split
      · rfl
      · rw [Exec.bind_of_ok hal]
        split
        · rfl
        · split <;> rfl
  rw [e1]
  split
  · rename_i h
    exact ⟨s, M, rfl, hr, fun p hp => hp, fun p hp => .inl hp, fun h' => absurd h' h⟩
  · rename_i hpl
    split
    · rename_i hf
      refine ⟨s, M, rfl, hr, fun p hp => hp, fun p hp => .inl hp, fun _ h' => ?_⟩
      rw [hfa, hfb] at h'
      simp only [Option.some.injEq] at h'
      simp only [Bool.and_eq_true, Bool.not_eq_true'] at hf
      rcases h' with h' | h' <;> simp_all
    · rename_i hf
      have hf' : flags[a]? = some true ∨ flags[b]? = some true := by
        rw [hfa, hfb]
        simp only [Bool.and_eq_true, Bool.not_eq_true', not_and, Bool.not_eq_false] at hf
        cases h : (flags[b]'(by omega)) with
        | true => exact .inr rfl
        | false => exact .inl (by rw [hf h])
      split
      · rename_i hna
        have : al = false := by simpa using hna
        have hbar := (half.1 this).2
        exact ⟨s, M, rfl, hr, fun p hp => hp, fun p hp => .inl hp, fun _ _ _ => .inr hbar⟩
      · rename_i hna
        split
        · rename_i hans
          have hok : (BK.merge a b s).1 = .ok () := by
            cases hm : (BK.merge a b s).1 with
            | ok u => rfl
            | throw =>
              have := ((C03_prohibitions_enforced hr).1 a b hab ha hb).1 hm
              exact absurd (half.2 this) (by simpa using hna)
            | ub => exact absurd hm (BK.merge_ne_ub (BK.reach_inv hr) a b)
          have hr' := BK.Reach.merge a b hr
          rw [hok] at hr'
          simp only [Res.isOk, if_true] at hr'
          refine ⟨(BK.merge a b s).2, (a, b) :: M, ?_, hr', fun p hp => by simp [hp], ?_, ?_⟩
          · rw [← hok]
          · intro p hp
            rcases List.mem_cons.1 hp with rfl | hp
            · exact .inr ⟨rfl, by simpa using hpl, hf', hans⟩
            · exact .inl hp
          · intro _ _ _
            exact .inl (Relation.EqvGen.rel _ _ (by simp))
        · rename_i hans
          exact ⟨s, M, rfl, hr, fun p hp => hp, fun p hp => .inl hp, fun _ _ h => absurd h hans⟩

theorem pass_spec (cs : List (Cluster η)) (flags : List Bool) (al : PassAlgs κ)
    (hfl : flags.length = cs.length) :
    ∃ bk M P, pass cs flags al = (.ok (), bk) ∧ BK.Reach cs.length bk M P ∧
      (∀ a b, (a, b) ∈ P ↔ Sep cs al a b) ∧ (∀ a b, (a, b) ∈ M → Link cs flags al a b) ∧
      (∀ a b, Link cs flags al a b → Conn M a b ∨ Barred M P a b) := by
  have ht : Exec.Triple (fun s => s = BK.reset cs.length)
      (do runSeparate cs al.sep
          runMerge cs flags (prioOrder al.prio cs.length) al.mrg : Exec BK Unit)
      (fun _ bk => ∃ M P, BK.Reach cs.length bk M P ∧ (∀ a b, (a, b) ∈ P ↔ Sep cs al a b) ∧
        (∀ a b, (a, b) ∈ M → Link cs flags al a b) ∧
        (∀ a b, Link cs flags al a b → Conn M a b ∨ Barred M P a b)) := by
    refine Exec.Triple.bind (runSeparate_spec cs al) (fun _ => ?_)
    rintro s ⟨P, hr, hP⟩
    unfold runMerge
    rw [if_neg (by simpa using hfl)]
    show ∃ a s', (Exec.forEach (pairsOf (prioOrder al.prio cs.length)) (mergePair cs flags al.mrg)) s = _ ∧ _
    have := forEach_inv (I := fun pre s => ∃ M, BK.Reach cs.length s M P ∧
      (∀ a b, (a, b) ∈ M → Link cs flags al a b) ∧
      (∀ a b, (a, b) ∈ pre → Link cs flags al a b → Conn M a b ∨ Barred M P a b))
      (pairsOf (prioOrder al.prio cs.length)) (mergePair cs flags al.mrg) ?_ s ⟨[], hr, by simp, by simp⟩
    · obtain ⟨u, s', e, M, h1, h2, h3⟩ := this
      refine ⟨u, s', e, M, P, h1, hP, h2, ?_⟩
      intro a b hl
      exact h3 a b ((mem_pairs_order al.prio _ a b).2 ⟨hl.1, hl.2.1, hl.2.2.1, hl.2.2.2.1, hl.2.2.2.2.1⟩) hl
    · rintro pre ⟨a, b⟩ post hl s ⟨M, h1, h2, h3⟩
      obtain ⟨ha, hb, pa, pb, hbef⟩ := (mem_pairs_order al.prio cs.length a b).1 (by rw [hl]; simp)
      have hab : a ≠ b := by rintro rfl; exact before_asymm _ _ _ hbef hbef
      obtain ⟨s', M', e, hr', k1, k2, k3⟩ := mergePair_ok cs flags al.mrg h1 hab ha hb hfl
      refine ⟨(), s', e, M', hr', ?_, ?_⟩
      · intro x y hxy
        rcases k2 _ hxy with h | ⟨h, h'⟩
        · exact h2 x y h
        · simp only [Prod.mk.injEq] at h
          obtain ⟨rfl, rfl⟩ := h
          exact ⟨ha, hb, pa, pb, hbef, h'⟩
      · intro x y hxy hlink
        rcases List.mem_append.1 hxy with h | h
        · rcases h3 x y h hlink with h | h
          · exact .inl (BK.conn_mono k1 h)
          · exact .inr (barred_mono k1 h)
        · simp only [List.mem_singleton, Prod.mk.injEq] at h
          obtain ⟨rfl, rfl⟩ := h
          exact k3 hlink.2.2.2.2.2.1 hlink.2.2.2.2.2.2.1 hlink.2.2.2.2.2.2.2
  obtain ⟨u, bk, e, M, P, h⟩ := ht _ rfl
  exact ⟨bk, M, P, e, h⟩

/-- **C14** One merging pass never throws. Two different clusters end up in one group only if a chain of merge
links (same plane, both of positive priority, answered `true` by the merge algorithm) connects them; a pair
for which the separation algorithm answered `true` is never in one group. -/
theorem C14_only_allowed_merges (cs : List (Cluster η)) (flags : List Bool) (al : PassAlgs κ)
    (hfl : flags.length = cs.length) :
    ∃ bk, pass cs flags al = (.ok (), bk) ∧
      (∀ i j, i < cs.length → j < cs.length → bk.isMerged i j = .ok true →
        Relation.EqvGen (Link cs flags al) i j) ∧
      (∀ i j, Sep cs al i j → bk.isMerged i j = .ok false) := by
  obtain ⟨bk, M, P, e, hr, hP, hM, hc⟩ := pass_spec cs flags al hfl
  refine ⟨bk, e, ?_, ?_⟩
  · intro i j hi hj hm
    have := (C02_isMerged_iff_connected hr i j)
    have hconn : Conn M i j := by
      exact (this.1 ⟨hi, hj⟩).2.2.1 hm
    exact Relation.EqvGen.mono (fun a b h => hM a b h) _ _ hconn
  · intro i j hs
    exact (C03_prohibitions_enforced hr).2 (i, j) ((hP i j).2 hs)

/-- **C14** (completeness) A merge link is refused only because of a separation request between the two groups:
for every link, at the end of the pass the two clusters are in one group, or some separation request relates a
member of one's group to a member of the other's group. -/
theorem C14_links_are_merged_unless_separated (cs : List (Cluster η)) (flags : List Bool) (al : PassAlgs κ)
    (hfl : flags.length = cs.length) :
    ∃ bk, pass cs flags al = (.ok (), bk) ∧
      ∀ i j, Link cs flags al i j → bk.isMerged i j = .ok true ∨
        ∃ a b, Sep cs al a b ∧ ((bk.isMerged i a = .ok true ∧ bk.isMerged j b = .ok true) ∨
          (bk.isMerged i b = .ok true ∧ bk.isMerged j a = .ok true)) := by
  obtain ⟨bk, M, P, e, hr, hP, hM, hc⟩ := pass_spec cs flags al hfl
  refine ⟨bk, e, ?_⟩
  intro i j hl
  have hmc : ∀ x y, x < cs.length → y < cs.length → Conn M x y → bk.isMerged x y = .ok true := by
    intro x y hx hy h
    exact ((C02_isMerged_iff_connected hr x y).1 ⟨hx, hy⟩).2.2.2 h
  rcases hc i j hl with h | ⟨p, hp, h⟩
  · exact .inl (hmc i j hl.1 hl.2.1 h)
  · right
    have hs := (hP p.1 p.2).1 hp
    have h2 : p.2 < cs.length := hs.2.1
    have h1 : p.1 < cs.length := Nat.lt_trans hs.1 h2
    refine ⟨p.1, p.2, hs, ?_⟩
    rcases h with ⟨a, b⟩ | ⟨a, b⟩
    · exact .inl ⟨hmc _ _ hl.1 h1 (BK.conn_symm a), hmc _ _ hl.2.1 h2 (BK.conn_symm b)⟩
    · exact .inr ⟨hmc _ _ hl.1 h2 (BK.conn_symm b), hmc _ _ hl.2.1 h1 (BK.conn_symm a)⟩

end

/-- Four clusters, three on plane 0: links 0-1 and 1-3, but 0 and 3 are separated, so the second link is refused;
cluster 2 on plane 1 stays alone. -/
example : let cs : List (Cluster Nat) := [⟨0, [1]⟩, ⟨0, [2]⟩, ⟨1, [3]⟩, ⟨0, [4]⟩]
    let r := pass cs [true, true, true, true] (κ := Int) ⟨fun _ => 1, some (fun a b => a == 0 && b == 3), fun a b => a == 0 && b == 1 || a == 1 && b == 3 || a == 0 && b == 2⟩
    r.1 = .ok () ∧ r.2.getResult = .ok [[0, 1], [2], [3]] := by decide

end Verif.CMTool

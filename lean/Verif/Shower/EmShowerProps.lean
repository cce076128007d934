import Verif.Shower.EmShowerModel
import Mathlib.Tactic.Ring
import Mathlib.Tactic.Linarith
import Mathlib.Tactic.NormNum
import Mathlib.Tactic.FieldSimp
import Mathlib.Data.List.Induction

/-!
Theorems on the space points, the initial track, dE/dx and the fits of `EMShowerAlg` (C230-C239).
-/

namespace Verif.EmShower

theorem foldl_inv {σ α : Type} (P : σ → Prop) (f : σ → α → σ) (l : List α) (h : ∀ s, P s → ∀ a ∈ l, P (f s a)) :
    ∀ s, P s → P (l.foldl f s) := by
  induction l with
  | nil => intro s hs; exact hs
  | cons a l ih =>
    intro s hs
    rw [List.foldl_cons]
    exact ih (fun s hs b hb => h s hs b (List.mem_cons_of_mem _ hb)) _ (h s hs a List.mem_cons_self)

/-- if every step keeps `P`, and the step with `a` makes it true, it is true at the end -/
theorem foldl_gets {σ α : Type} (P : σ → Prop) (f : σ → α → σ) (l : List α) (hkeep : ∀ s a, P s → P (f s a)) (a : α)
    (ha : a ∈ l) (hgets : ∀ s, P (f s a)) : ∀ s, P (l.foldl f s) := by
  induction l with
  | nil => simp at ha
  | cons b l ih =>
    intro s
    rw [List.foldl_cons]
    rcases List.mem_cons.1 ha with rfl | ha
    · exact foldl_inv P f l (fun s hs c _ => hkeep s c hs) _ (hgets s)
    · exact ih ha _

/-! ### Space points -/

/-- What a space point is: two hits of the same TPC in different planes, close to the point they make; or three, the third
in a third plane and the same TPC, close to the point of the first two. -/
def IsPoint (near2 : H → H → Bool) (near3 : H → H → H → Bool) (m : List (Nat × List H)) (l : List H) : Prop :=
  ∃ p q a b, p ≠ q ∧ a ∈ hitsOf m p ∧ b ∈ hitsOf m q ∧ a.tpc = b.tpc ∧
    ((l = [a, b] ∧ near2 a b = true) ∨
      ∃ r c, r ≠ p ∧ r ≠ q ∧ c ∈ hitsOf m r ∧ c.tpc = a.tpc ∧ l = [a, b, c] ∧ near3 a b c = true)

/-- the first two hits of a later point are in no earlier point -/
def Fresh (ps : List (List H)) : Prop := ps.Pairwise fun l l' => ∀ h ∈ l'.take 2, ∀ g ∈ l, g.id ≠ h.id

/-- the invariant of the loops -/
def SpInv (near2 : H → H → Bool) (near3 : H → H → H → Bool) (m : List (Nat × List H)) (s : SpState) : Prop :=
  s.1 = s.2.flatten.map H.id ∧ Fresh s.2 ∧ ∀ l ∈ s.2, IsPoint near2 near3 m l

theorem tryPoint_take (near2 : H → H → Bool) (near3 : H → H → H → Bool) (third : Option (List H)) (a b : H) (l : List H)
    (h : tryPoint near2 near3 third a b = some l) : l.take 2 = [a, b] := by
  unfold tryPoint at h
  match third, h with
  | some t, h =>
    dsimp only at h
    rw [Option.map_eq_some_iff] at h
    obtain ⟨c, _, rfl⟩ := h
    rfl
  | none, h =>
    dsimp only at h
    split at h
    · injection h with h; subst h; rfl
    · exact absurd h (by simp)

theorem spStep_inv (near2 : H → H → Bool) (near3 : H → H → H → Bool) (m : List (Nat × List H)) (third : Option (List H))
    (a b : H)
    (hgood : ∀ l, a.tpc = b.tpc → tryPoint near2 near3 third a b = some l → IsPoint near2 near3 m l) (s : SpState)
    (hs : SpInv near2 near3 m s) : SpInv near2 near3 m (spStep near2 near3 third a s b) := by
  unfold spStep
  split
  · exact hs
  · rename_i ha
    split
    · exact hs
    · rename_i hb
      rw [not_or] at hb
      match ht : tryPoint near2 near3 third a b with
      | none => exact hs
      | some l =>
        obtain ⟨h1, h2, h3⟩ := hs
        refine ⟨?_, ?_, ?_⟩
        · dsimp only
          rw [h1]
          simp
        · show Fresh (s.2 ++ [l])
          unfold Fresh
          rw [List.pairwise_append]
          refine ⟨h2, List.pairwise_singleton _ _, ?_⟩
          intro l' hl' l'' hl'' h hh g hg
          rw [List.mem_singleton] at hl''
          subst hl''
          rw [tryPoint_take near2 near3 third a b l'' ht] at hh
          have hmem : g.id ∈ s.1 := by
            rw [h1]
            exact List.mem_map.2 ⟨g, List.mem_flatten.2 ⟨l', hl', hg⟩, rfl⟩
          intro he
          rw [he] at hmem
          simp only [List.mem_cons, List.not_mem_nil, or_false] at hh
          rcases hh with rfl | rfl
          · exact ha hmem
          · exact hb.2 hmem
        · intro l' hl'
          rcases List.mem_append.1 hl' with hl' | hl'
          · exact h3 l' hl'
          · rw [List.mem_singleton] at hl'
            subst hl'
            exact hgood l' (by have := hb.1; push Not at this; exact this.symm) ht

theorem spPlane_inv (near2 : H → H → Bool) (near3 : H → H → H → Bool) (m : List (Nat × List H)) (second : List H)
    (third : Option (List H)) (hs : List H)
    (hgood : ∀ a ∈ hs, ∀ b ∈ second, ∀ l, a.tpc = b.tpc → tryPoint near2 near3 third a b = some l →
      IsPoint near2 near3 m l) (s : SpState)
    (hi : SpInv near2 near3 m s) : SpInv near2 near3 m (spPlane near2 near3 second third hs s) := by
  unfold spPlane
  refine foldl_inv (SpInv near2 near3 m) _ hs ?_ s hi
  intro s hi a ha
  refine foldl_inv (SpInv near2 near3 m) _ second ?_ s hi
  intro s hi b hb
  exact spStep_inv near2 near3 m third a b (hgood a ha b hb) s hi

theorem mem_others (n : Nat) (m : List (Nat × List H)) (p q : Nat) :
    q ∈ otherPlanes n m p ↔ q < n ∧ q ≠ p ∧ q ∈ m.map Prod.fst := by
  unfold otherPlanes
  rw [List.mem_filter, List.mem_range]
  simp

theorem others_nodup (n : Nat) (m : List (Nat × List H)) (p : Nat) : (otherPlanes n m p).Nodup :=
  List.nodup_range.filter _

theorem hitsOf_mem (m : List (Nat × List H)) (hnd : (m.map Prod.fst).Nodup) (q : Nat × List H) (hq : q ∈ m) :
    hitsOf m q.1 = q.2 := by
  unfold hitsOf
  have : m.find? (fun r => r.1 = q.1) = some q := by
    induction m with
    | nil => simp at hq
    | cons a m ih =>
      rw [List.map_cons, List.nodup_cons] at hnd
      rcases List.mem_cons.1 hq with rfl | hq
      · simp
      · have hne : a.1 ≠ q.1 := by
          intro h
          exact hnd.1 (List.mem_map.2 ⟨q, hq, h.symm⟩)
        rw [List.find?_cons_of_neg (by simpa using hne)]
        exact ih hnd.2 hq
  rw [this]
  rfl

/-- the points of one plane are points -/
theorem plane_good (near2 : H → H → Bool) (near3 : H → H → H → Bool) (n : Nat) (m : List (Nat × List H))
    (hnd : (m.map Prod.fst).Nodup) (q : Nat × List H) (hq : q ∈ m) (p : Nat) (ps : List Nat)
    (ho : otherPlanes n m q.1 = p :: ps) (a : H) (ha : a ∈ q.2) (b : H) (hb : b ∈ hitsOf m p) (l : List H)
    (hab : a.tpc = b.tpc) (ht : tryPoint near2 near3 (ps.head?.map (hitsOf m)) a b = some l) :
    IsPoint near2 near3 m l := by
  have hp := (mem_others n m q.1 p).1 (by rw [ho]; simp)
  have hn := others_nodup n m q.1
  refine ⟨q.1, p, a, b, hp.2.1.symm, by rw [hitsOf_mem m hnd q hq]; exact ha, hb, hab, ?_⟩
  match ps, ho, ht with
  | [], ho, ht =>
    left
    unfold tryPoint at ht
    simp only [List.head?_nil, Option.map_none] at ht
    split at ht
    · injection ht with ht
      exact ⟨ht.symm, by assumption⟩
    · exact absurd ht (by simp)
  | r :: ps, ho, ht =>
    right
    have hr := (mem_others n m q.1 r).1 (by rw [ho]; simp)
    rw [ho] at hn
    unfold tryPoint at ht
    simp only [List.head?_cons, Option.map_some] at ht
    rw [Option.map_eq_some_iff] at ht
    obtain ⟨c, hc, rfl⟩ := ht
    have h1 := List.mem_of_find?_eq_some hc
    have h2 := List.find?_some hc
    rw [Bool.and_eq_true, decide_eq_true_eq] at h2
    refine ⟨r, c, hr.2.1, ?_, h1, h2.1, rfl, h2.2⟩
    intro he
    subst he
    simp at hn

theorem spLoop_inv (near2 : H → H → Bool) (near3 : H → H → H → Bool) (n : Nat) (m : List (Nat × List H))
    (hnd : (m.map Prod.fst).Nodup) (t : List (Nat × List H)) (ht : ∀ q ∈ t, q ∈ m) :
    ∀ s, SpInv near2 near3 m s → SpInv near2 near3 m (spLoop near2 near3 n m t s) := by
  induction t with
  | nil => intro s hs; exact hs
  | cons q t ih =>
    intro s hs
    unfold spLoop
    match ho : otherPlanes n m q.1 with
    | [] => exact hs
    | p :: ps =>
      dsimp only
      refine ih (fun r hr => ht r (List.mem_cons_of_mem _ hr)) _ ?_
      refine spPlane_inv near2 near3 m _ _ _ ?_ s hs
      intro a ha b hb l hab hl
      exact plane_good near2 near3 n m hnd q (ht q List.mem_cons_self) p ps ho a ha b hb l hab hl

/-- C230: every space point is made of two or three close hits of one TPC in different planes. -/
theorem C230_points (near2 : H → H → Bool) (near3 : H → H → H → Bool) (n : Nat) (m : List (Nat × List H))
    (hnd : (m.map Prod.fst).Nodup) : ∀ l ∈ spacePoints near2 near3 n m, IsPoint near2 near3 m l :=
  (spLoop_inv near2 near3 n m hnd m (fun _ h => h) ([], []) ⟨rfl, List.Pairwise.nil, by simp⟩).2.2

/-- C230 (partial): the first two hits of a point are in no earlier point.  Missing: the third hit, see the refutation. -/
theorem C230_once_partial (near2 : H → H → Bool) (near3 : H → H → H → Bool) (n : Nat) (m : List (Nat × List H))
    (hnd : (m.map Prod.fst).Nodup) (i j : Nat) (hij : i < j) (l l' : List H)
    (hi : (spacePoints near2 near3 n m)[i]? = some l) (hj : (spacePoints near2 near3 n m)[j]? = some l') :
    ∀ h ∈ l'.take 2, ∀ g ∈ l, g.id ≠ h.id := by
  have := (spLoop_inv near2 near3 n m hnd m (fun _ h => h) ([], []) ⟨rfl, List.Pairwise.nil, by simp⟩).2.1
  obtain ⟨h1, e1⟩ := List.getElem?_eq_some_iff.1 hi
  obtain ⟨h2, e2⟩ := List.getElem?_eq_some_iff.1 hj
  have := List.pairwise_iff_getElem.1 this i j h1 h2 hij
  unfold spacePoints at e1 e2
  rw [e1, e2] at this
  exact this

/-- what a pair of hits has at the end: one is used, or they make no point -/
def PairDone (near2 : H → H → Bool) (near3 : H → H → H → Bool) (third : Option (List H)) (a b : H) (s : SpState) : Prop :=
  a.id ∈ s.1 ∨ b.id ∈ s.1 ∨ a.tpc ≠ b.tpc ∨ tryPoint near2 near3 third a b = none

theorem spStep_used (near2 : H → H → Bool) (near3 : H → H → H → Bool) (third : Option (List H)) (a : H) (s : SpState) (b : H)
    (k : Nat) (hk : k ∈ s.1) : k ∈ (spStep near2 near3 third a s b).1 := by
  unfold spStep
  split
  · exact hk
  · split
    · exact hk
    · match tryPoint near2 near3 third a b with
      | none => exact hk
      | some l => exact List.mem_append_left _ hk

theorem spPlane_used (near2 : H → H → Bool) (near3 : H → H → H → Bool) (second : List H) (third : Option (List H))
    (hs : List H) (s : SpState) (k : Nat) (hk : k ∈ s.1) : k ∈ (spPlane near2 near3 second third hs s).1 := by
  unfold spPlane
  refine foldl_inv (fun s : SpState => k ∈ s.1) _ hs ?_ s hk
  intro s hk a _
  refine foldl_inv (fun s : SpState => k ∈ s.1) _ second ?_ s hk
  intro s hk b _
  exact spStep_used near2 near3 third a s b k hk

theorem spLoop_used (near2 : H → H → Bool) (near3 : H → H → H → Bool) (n : Nat) (m t : List (Nat × List H)) (k : Nat) :
    ∀ s : SpState, k ∈ s.1 → k ∈ (spLoop near2 near3 n m t s).1 := by
  induction t with
  | nil => intro s hs; exact hs
  | cons q t ih =>
    intro s hs
    unfold spLoop
    match otherPlanes n m q.1 with
    | [] => exact hs
    | p :: ps => exact ih _ (spPlane_used near2 near3 _ _ _ s k hs)

theorem pairDone_mono (near2 : H → H → Bool) (near3 : H → H → H → Bool) (third : Option (List H)) (a b : H) (s s' : SpState)
    (h : ∀ k ∈ s.1, k ∈ s'.1) (hd : PairDone near2 near3 third a b s) : PairDone near2 near3 third a b s' := by
  rcases hd with h1 | h1 | h1
  · exact Or.inl (h _ h1)
  · exact Or.inr (Or.inl (h _ h1))
  · exact Or.inr (Or.inr h1)

theorem spPlane_done (near2 : H → H → Bool) (near3 : H → H → H → Bool) (second : List H) (third : Option (List H))
    (hs : List H) (s : SpState) (a b : H) (ha : a ∈ hs) (hb : b ∈ second) :
    PairDone near2 near3 third a b (spPlane near2 near3 second third hs s) := by
  unfold spPlane
  refine foldl_gets (PairDone near2 near3 third a b) _ hs ?_ a ha ?_ s
  · intro s c hd
    refine foldl_inv (PairDone near2 near3 third a b) _ second ?_ s hd
    intro s hd b' _
    exact pairDone_mono near2 near3 third a b s _ (fun k hk => spStep_used near2 near3 third c s b' k hk) hd
  · intro s
    refine foldl_gets (PairDone near2 near3 third a b) _ second ?_ b hb ?_ s
    · intro s c hd
      exact pairDone_mono near2 near3 third a b s _ (fun k hk => spStep_used near2 near3 third a s c k hk) hd
    · intro s
      unfold spStep
      split
      · rename_i h; exact Or.inl h
      · split
        · rename_i h
          rcases h with h | h
          · exact Or.inr (Or.inr (Or.inl (Ne.symm h)))
          · exact Or.inr (Or.inl h)
        · match ht : tryPoint near2 near3 third a b with
          | none => exact Or.inr (Or.inr (Or.inr ht))
          | some l =>
            left
            have := tryPoint_take near2 near3 third a b l ht
            have hal : a ∈ l := List.mem_of_mem_take (i := 2) (by rw [this]; simp)
            exact List.mem_append_right _ (List.mem_map.2 ⟨a, hal, rfl⟩)

theorem spLoop_done (near2 : H → H → Bool) (near3 : H → H → H → Bool) (n : Nat) (m t : List (Nat × List H))
    (hall : ∀ q ∈ t, otherPlanes n m q.1 ≠ []) (q : Nat × List H) (hq : q ∈ t) (p : Nat) (ps : List Nat)
    (ho : otherPlanes n m q.1 = p :: ps) (a b : H) (ha : a ∈ q.2) (hb : b ∈ hitsOf m p) :
    ∀ s, PairDone near2 near3 (ps.head?.map (hitsOf m)) a b (spLoop near2 near3 n m t s) := by
  induction t with
  | nil => simp at hq
  | cons r t ih =>
    intro s
    unfold spLoop
    match hr : otherPlanes n m r.1 with
    | [] => exact absurd hr (hall r List.mem_cons_self)
    | p' :: ps' =>
      dsimp only
      rcases List.mem_cons.1 hq with rfl | hq
      · rw [ho] at hr
        injection hr with h1 h2
        subst h1 h2
        refine pairDone_mono near2 near3 _ a b _ _ ?_ (spPlane_done near2 near3 (hitsOf m p) (ps.head?.map (hitsOf m)) q.2 s
          a b ha hb)
        intro k hk
        exact spLoop_used near2 near3 n m t k _ hk
      · exact ih (fun x hx => hall x (List.mem_cons_of_mem _ hx)) hq _

/-- C230: no point is missed between the two planes of a shower: if two close hits of one TPC are in the two planes, one
of them is in a space point. -/
theorem C230_complete_two (near2 : H → H → Bool) (near3 : H → H → H → Bool) (n p q : Nat) (hpq : p ≠ q) (hpn : p < n)
    (hqn : q < n) (A B : List H) (a b : H) (ha : a ∈ A) (hb : b ∈ B) (ht : a.tpc = b.tpc) (hc : near2 a b = true) :
    ∃ l ∈ spacePoints near2 near3 n [(p, A), (q, B)], ∃ h ∈ l, h.id = a.id ∨ h.id = b.id := by
  have hnd : ([(p, A), (q, B)].map Prod.fst).Nodup := by simpa using hpq
  have one : ∀ x y : Nat, x ≠ y → y < n → (∀ z, z ∈ [(p, A), (q, B)].map Prod.fst ↔ z = x ∨ z = y) →
      otherPlanes n [(p, A), (q, B)] x = [y] := by
    intro x y hxy hy hz
    have hn := others_nodup n [(p, A), (q, B)] x
    have hm : ∀ z, z ∈ otherPlanes n [(p, A), (q, B)] x ↔ z = y := by
      intro z
      rw [mem_others, hz]
      constructor
      · rintro ⟨_, h1, h2 | h2⟩
        · exact absurd h2 h1
        · exact h2
      · rintro rfl
        exact ⟨hy, hxy.symm, Or.inr rfl⟩
    generalize otherPlanes n [(p, A), (q, B)] x = l at hn hm
    match l, hn, hm with
    | [], _, hm => exact absurd ((hm y).2 rfl) (by simp)
    | [c], _, hm => rw [(hm c).1 (by simp)]
    | c :: d :: l, hn, hm =>
      have h1 := (hm c).1 (by simp)
      have h2 := (hm d).1 (by simp)
      simp [h1, h2] at hn
  have e1 := one p q hpq hqn (by intro z; simp)
  have e2 := one q p hpq.symm hpn (by intro z; simp [or_comm])
  have hd := spLoop_done near2 near3 n [(p, A), (q, B)] [(p, A), (q, B)]
    (by
      intro r hr
      simp only [List.mem_cons, List.not_mem_nil, or_false] at hr
      rcases hr with rfl | rfl
      · rw [e1]; simp
      · rw [e2]; simp) (p, A) (by simp) q [] e1 a b ha
    (by rw [show q = (q, B).1 from rfl, hitsOf_mem _ hnd (q, B) (by simp)]; exact hb) ([], [])
  have hi := spLoop_inv near2 near3 n [(p, A), (q, B)] hnd [(p, A), (q, B)] (fun _ h => h) ([], [])
    ⟨rfl, List.Pairwise.nil, by simp⟩
  have used : ∀ k, k ∈ (spLoop near2 near3 n [(p, A), (q, B)] [(p, A), (q, B)] ([], [])).1 →
      ∃ l ∈ spacePoints near2 near3 n [(p, A), (q, B)], ∃ h ∈ l, h.id = k := by
    intro k hk
    rw [hi.1, List.mem_map] at hk
    obtain ⟨g, hg, rfl⟩ := hk
    rw [List.mem_flatten] at hg
    obtain ⟨l, hl, hg⟩ := hg
    exact ⟨l, hl, g, hg, rfl⟩
  rcases hd with h | h | h | h
  · obtain ⟨l, hl, g, hg, he⟩ := used _ h
    exact ⟨l, hl, g, hg, Or.inl he⟩
  · obtain ⟨l, hl, g, hg, he⟩ := used _ h
    exact ⟨l, hl, g, hg, Or.inr he⟩
  · exact absurd ht h
  · unfold tryPoint at h
    simp only [List.head?_nil, Option.map_none] at h
    rw [if_pos hc] at h
    exact absurd h (by simp)

/-- hit `i` in TPC 0 -/
def sph (i : Nat) : H := ⟨i, 0, 0, 0, 0, 0⟩

/-- C230: the only hit of the third plane is used for two points. -/
theorem C230_once_refuted :
    (spacePoints (fun _ _ => true) (fun _ _ _ => true) 3 [(0, [sph 1, sph 2]), (1, [sph 3, sph 4]), (2, [sph 5])]).map
      (fun l => l.map H.id) = [[1, 3, 5], [2, 4, 5]] := by decide +kernel

example : (spacePoints (fun _ _ => true) (fun _ _ _ => true) 3 [(0, [sph 1, sph 2]), (2, [sph 5])]).map
    (fun l => l.map H.id) = [[1, 5]] := by decide +kernel

/-! ### dE/dx -/

theorem dq_fold (len pitch : ℚ) (hp : 0 ≤ pitch) (hits : List Q) : ∀ s : Acc,
    ∃ k, k ≤ hits.length ∧ (k = 0 ∨ s.dist + k * pitch < len) ∧ (k = hits.length ∨ len ≤ s.dist + (k + 1) * pitch) ∧
      hits.foldl (dqStep len pitch) s = ⟨s.charge + ((hits.take k).map Q.charge).sum, s.dist + k * pitch,
        s.time + ((hits.take k).map Q.time).sum, s.n + k⟩ := by
  induction hits with
  | nil => intro s; exact ⟨0, le_refl _, Or.inl rfl, Or.inl rfl, by simp⟩
  | cons h t ih =>
    intro s
    rw [List.foldl_cons]
    by_cases hc : s.dist + pitch < len
    · obtain ⟨k, h1, h2, h3, h4⟩ := ih (dqStep len pitch s h)
      have e : dqStep len pitch s h = ⟨s.charge + h.charge, s.dist + pitch, s.time + h.time, s.n + 1⟩ := if_pos hc
      rw [e] at h2 h3 h4 ⊢
      refine ⟨k + 1, by simpa using h1, Or.inr ?_, ?_, ?_⟩
      · rcases h2 with h2 | h2
        · subst h2; simpa using hc
        · push_cast
          have : s.dist + (k + 1) * pitch = s.dist + pitch + k * pitch := by ring
          rw [this]; exact h2
      · rcases h3 with h3 | h3
        · exact Or.inl (by simp [h3])
        · right
          push_cast
          have : s.dist + (k + 1 + 1) * pitch = s.dist + pitch + (k + 1) * pitch := by ring
          rw [this]; exact h3
      · rw [h4]
        simp only [List.take_succ_cons, List.map_cons, List.sum_cons]
        congr 1
        · ring
        · push_cast; ring
        · ring
        · omega
    · obtain ⟨k, h1, h2, h3, h4⟩ := ih (dqStep len pitch s h)
      have e : dqStep len pitch s h = s := if_neg hc
      rw [e] at h2 h3 h4 ⊢
      have hk : k = 0 := by
        rcases h2 with h2 | h2
        · exact h2
        · by_contra hne
          have : (1 : ℚ) ≤ k := by exact_mod_cast Nat.one_le_iff_ne_zero.2 hne
          have := mul_le_mul_of_nonneg_right this hp
          linarith
      subst hk
      refine ⟨0, Nat.zero_le _, Or.inl rfl, Or.inr ?_, by simpa using h4⟩
      push Not at hc
      simpa using hc

/-- C231 (partial): with a track, hits and a pitch between 0 and the length (exclusive), dE/dx comes from the first `k` hits,
as many as fit into the length: their charge over the length they cover, at their mean time.  Missing: pitch 0 or equal to
the length, see the refutations. -/
theorem C231_dqdx_partial (len pitch : ℚ) (h0 : 0 < pitch) (h1 : pitch < len) (hits : List Q) (hne : hits ≠ []) :
    ∃ k, 1 ≤ k ∧ k ≤ hits.length ∧ k * pitch < len ∧ (k = hits.length ∨ len ≤ (k + 1) * pitch) ∧
      dEdx true len pitch hits =
        .mean (((hits.take k).map Q.charge).sum / (k * pitch)) (((hits.take k).map Q.time).sum / k) := by
  obtain ⟨k, a1, a2, a3, a4⟩ := dq_fold len pitch h0.le hits ⟨0, 0, 0, 0⟩
  have hk : 1 ≤ k := by
    by_contra hc
    have : k = 0 := by omega
    subst this
    rcases a3 with a3 | a3
    · exact hne (List.length_eq_zero_iff.1 a3.symm)
    · simp at a3; linarith
  refine ⟨k, hk, a1, ?_, ?_, ?_⟩
  · rcases a2 with a2 | a2
    · omega
    · simpa using a2
  · rcases a3 with a3 | a3
    · exact Or.inl a3
    · exact Or.inr (by simpa using a3)
  · unfold dEdx
    rw [if_neg (by simp), if_neg (by linarith)]
    dsimp only
    rw [a4]
    dsimp only
    have hk0 : (k : ℚ) ≠ 0 := by positivity
    rw [if_neg (by
      simp only [zero_add, mul_eq_zero, not_or]
      exact ⟨by omega, hk0, h0.ne'⟩)]
    simp

/-- C231: a pitch longer than the length: the first hit alone. -/
theorem C231_long_pitch (len pitch : ℚ) (h : len < pitch) (hits : List Q) :
    dEdx true len pitch hits = .firstHit pitch := by
  unfold dEdx
  rw [if_neg (by simp), if_pos h]

/-- C231: no track, no value. -/
theorem C231_no_track (len pitch : ℚ) (hits : List Q) : dEdx false len pitch hits = .none := by
  unfold dEdx
  rw [if_pos rfl]

/-- C231: a pitch equal to the length uses no hit, and divides 0 by 0. -/
theorem C231_equal_pitch_refuted : dEdx true 1 1 [⟨5, 1⟩, ⟨6, 2⟩] = .undefined := by decide +kernel

/-- C231: without a pitch (0) the distance is 0. -/
theorem C231_no_pitch_refuted : dEdx true 1 0 [⟨5, 1⟩, ⟨6, 2⟩] = .undefined := by decide +kernel

example : dEdx true 1 (2/5) [⟨5, 1⟩, ⟨6, 3⟩, ⟨7, 4⟩] = .mean (55 / 4) 2 := by decide +kernel

/-! ### Initial track -/

theorem dirs_length (unit : V → V) (pts : List V) : ∀ (prev : Option V) (ds : List V),
    dirs unit prev pts = some ds → ds.length = pts.length := by
  induction pts with
  | nil => intro prev ds h; unfold dirs at h; injection h with h; subst h; rfl
  | cons p t ih =>
    intro prev ds h
    match t, ih with
    | [], _ =>
      unfold dirs at h
      rw [Option.map_eq_some_iff] at h
      obtain ⟨d, _, rfl⟩ := h
      rfl
    | q :: t, ih =>
      unfold dirs at h
      dsimp only at h
      rw [Option.map_eq_some_iff] at h
      obtain ⟨l, hl, rfl⟩ := h
      rw [List.length_cons, ih _ l hl]
      rfl

theorem dirs_some (unit : V → V) (pts : List V) : ∀ (prev : Option V), (prev = none → pts.length ≠ 1) →
    ∃ ds, dirs unit prev pts = some ds := by
  induction pts with
  | nil => intro prev _; exact ⟨[], rfl⟩
  | cons p t ih =>
    intro prev h
    match t, ih with
    | [], _ =>
      match prev, h with
      | none, h => exact absurd rfl (h rfl)
      | some d, _ => exact ⟨[d], rfl⟩
    | q :: t, ih =>
      obtain ⟨l, hl⟩ := ih (some (dirAt unit prev p (q :: t))) (by simp)
      refine ⟨dirAt unit prev p (q :: t) :: l, ?_⟩
      unfold dirs
      dsimp only
      rw [hl]
      rfl

/-- the direction at a point that differs from the next one aims at the next one -/
theorem dirs_at (unit : V → V) (pts : List V) : ∀ (prev : Option V) (ds : List V), dirs unit prev pts = some ds →
    ∀ (i : Nat) (p q : V), pts[i]? = some p → pts[i + 1]? = some q → q ≠ p → ds[i]? = some (unit (q.sub p)) := by
  induction pts with
  | nil => intro prev ds h i p q hp; simp at hp
  | cons a t ih =>
    intro prev ds h i p q hp hq hne
    match t, ih with
    | [], _ =>
      simp at hq
    | b :: t, ih =>
      unfold dirs at h
      dsimp only at h
      rw [Option.map_eq_some_iff] at h
      obtain ⟨l, hl, rfl⟩ := h
      match i with
      | 0 =>
        have e1 : a = p := by simpa using hp
        have e2 : b = q := by simpa using hq
        subst e1 e2
        simp [dirAt, hne]
      | i + 1 =>
        have := ih _ l hl i p q (by simpa using hp) (by simpa using hq) hne
        simpa using this

theorem dirs_last (unit : V → V) (pts : List V) : ∀ (prev : Option V) (ds : List V), dirs unit prev pts = some ds →
    2 ≤ pts.length → ds[pts.length - 1]? = ds[pts.length - 2]? := by
  induction pts with
  | nil => intro prev ds _ h; simp at h
  | cons a t ih =>
    intro prev ds h h2
    match t, ih with
    | [], _ => simp at h2
    | [b], _ =>
      simp [dirs] at h
      subst h
      rfl
    | b :: c :: t, ih =>
      unfold dirs at h
      dsimp only at h
      rw [Option.map_eq_some_iff] at h
      obtain ⟨l, hl, rfl⟩ := h
      have := ih _ l hl (by simp)
      simp only [List.length_cons, Nat.add_sub_cancel] at this ⊢
      simpa using this

/-- C232: a track of at least two points has a direction for each point, and starts at the end of the given points whose
projections are farther from the centres; the points are the given ones or their reverse. -/
theorem C232_start (unit : V → V) (centres : List Nat) (dist : Nat → V → ℚ) (pts : List V) (v e : V)
    (hv : pts.head? = some v) (he : pts.getLast? = some e) (h2 : 2 ≤ pts.length) :
    ∃ xs ds, constructTrack unit centres dist pts = some (xs, ds) ∧ ds.length = xs.length ∧
      (xs = pts ∨ xs = pts.reverse) ∧
      ∀ a b, xs.head? = some a → xs.getLast? = some b →
        (centres.map fun p => dist p b).sum ≤ (centres.map fun p => dist p a).sum := by
  obtain ⟨ds, hds⟩ := dirs_some unit pts none (by intro _; omega)
  have hl := dirs_length unit pts none ds hds
  unfold constructTrack
  rw [hv, he, hds]
  dsimp only
  split
  · rename_i hc
    refine ⟨_, _, rfl, by simp [hl], Or.inr rfl, ?_⟩
    intro a b ha hb
    rw [List.head?_reverse, he] at ha
    rw [List.getLast?_reverse, hv] at hb
    injection ha with ha
    injection hb with hb
    subst ha hb
    have hpos : (0 : ℚ) < centres.length := by
      have := List.length_pos_iff.2 hc.1
      exact_mod_cast this
    have := hc.2
    rw [gt_iff_lt, div_lt_div_iff_of_pos_right hpos] at this
    exact this.le
  · rename_i hc
    refine ⟨_, _, rfl, hl, Or.inl rfl, ?_⟩
    intro a b ha hb
    rw [hv] at ha
    rw [he] at hb
    injection ha with ha
    injection hb with hb
    subst ha hb
    by_cases hce : centres = []
    · subst hce; simp
    · rw [not_and] at hc
      have hc := hc hce
      have hpos : (0 : ℚ) < centres.length := by
        have := List.length_pos_iff.2 hce
        exact_mod_cast this
      rw [gt_iff_lt, not_lt, div_le_div_iff_of_pos_right hpos] at hc
      exact hc

/-- C232 (partial): a track that is not reversed has at each point the direction to the next one, and at the last point the
direction before.  Missing: reversed tracks, see the refutation. -/
theorem C232_directions_partial (unit : V → V) (centres : List Nat) (dist : Nat → V → ℚ) (pts xs ds : List V)
    (h : constructTrack unit centres dist pts = some (xs, ds)) (hx : xs = pts) (hrev : pts.reverse ≠ pts)
    (i : Nat) (p q : V) (hp : xs[i]? = some p) (hq : xs[i + 1]? = some q) (hne : q ≠ p) :
    ds[i]? = some (unit (q.sub p)) := by
  unfold constructTrack at h
  match hd : dirs unit none pts with
  | none => rw [hd] at h; split at h <;> simp_all
  | some l =>
    rw [hd] at h
    match hv : pts.head?, he : pts.getLast? with
    | some v, some e =>
      rw [hv, he] at h
      dsimp only at h
      split at h
      · injection h with h
        injection h with h1 h2
        rw [hx] at h1
        exact absurd h1 hrev
      · injection h with h
        injection h with h1 h2
        subst h2
        rw [hx] at hp hq
        exact dirs_at unit pts none l hd i p q hp hq hne
    | none, _ => rw [hv] at h; simp at h
    | some v, none => rw [hv, he] at h; simp at h

/-- C232: a track with a corner, reversed: the directions stay in the old order. -/
theorem C232_directions_refuted :
    constructTrack id [0] (fun _ v => v.x + v.y) [⟨0, 0, 0⟩, ⟨2, 0, 0⟩, ⟨2, 3, 0⟩] =
      some ([⟨2, 3, 0⟩, ⟨2, 0, 0⟩, ⟨0, 0, 0⟩], [⟨-2, 0, 0⟩, ⟨0, -3, 0⟩, ⟨0, -3, 0⟩]) := by decide +kernel

/-- C232: a track of one point reads a direction that is not there. -/
theorem C232_one_point_refuted : constructTrack id [0] (fun _ v => v.x) [⟨1, 2, 3⟩] = none := by decide +kernel

example : constructTrack id [0] (fun _ v => v.x) [⟨1, 0, 0⟩, ⟨0, 1, 0⟩] =
    some ([⟨1, 0, 0⟩, ⟨0, 1, 0⟩], [⟨-1, 1, 0⟩, ⟨-1, 1, 0⟩]) := by decide +kernel

end Verif.EmShower

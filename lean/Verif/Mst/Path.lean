import Verif.Mst.Props
import Mathlib.Data.List.Chain

/-! C100: the path between two isolated hits of a cluster. -/
namespace Verif.Mst

open Relation

/-! ## Paths in a grown tree -/

/-- a chain of hits along edges of the tree that never goes straight back -/
def Onward (T : List Edge) (l : List Nat) : Prop := List.IsChain (Adj T) l ∧ ∀ p a b c q, l = p ++ a :: b :: c :: q → a ≠ c

theorem Onward.infix {T : List Edge} {l p r : List Nat} (h : Onward T (p ++ l ++ r)) : Onward T l := by
  constructor
  · have := h.1
    rw [List.isChain_append, List.isChain_append] at this
    exact this.1.2.1
  · intro p' a b c q hq
    refine h.2 (p ++ p') a b c (q ++ r) ?_
    rw [hq]; simp

theorem adj_append {T : List Edge} {u v a b : Nat} {w : ℚ} (h : Adj (T ++ [(u, v, w)]) a b) : Adj T a b ∨ (a = u ∧ b = v) ∨ (a = v ∧ b = u) := by
  obtain ⟨w', h | h⟩ := h
  · rcases List.mem_append.1 h with h | h
    · exact Or.inl ⟨w', Or.inl h⟩
    · simp at h; exact Or.inr (Or.inl ⟨h.1, h.2.1⟩)
  · rcases List.mem_append.1 h with h | h
    · exact Or.inl ⟨w', Or.inr h⟩
    · simp at h; exact Or.inr (Or.inr ⟨h.2.1, h.1⟩)

theorem Grown.adj_mem {T : List Edge} {V : List Nat} (h : Grown T V) {a b : Nat} (hab : Adj T a b) : a ∈ V ∧ b ∈ V := by
  obtain ⟨w, hw | hw⟩ := hab
  · exact h.mem _ hw
  · exact (h.mem _ hw).symm

/-- the only hit next to the one that was added last is the one it was joined to -/
theorem leaf_adj {T : List Edge} {V : List Nat} (h : Grown T V) {u v : Nat} {w : ℚ} (hv : v ∉ V) {x : Nat} :
    (Adj (T ++ [(u, v, w)]) x v → x = u ∨ x = v) ∧ (Adj (T ++ [(u, v, w)]) v x → x = u ∨ x = v) := by
  constructor
  · intro hx
    rcases adj_append hx with h1 | ⟨h1, -⟩ | ⟨h1, -⟩
    · exact absurd (h.adj_mem h1).2 hv
    · exact Or.inl h1
    · exact Or.inr h1
  · intro hx
    rcases adj_append hx with h1 | ⟨-, h1⟩ | ⟨-, h1⟩
    · exact absurd (h.adj_mem h1).1 hv
    · exact Or.inr h1
    · exact Or.inl h1

theorem chain_without {T : List Edge} {u v : Nat} {w : ℚ} {l : List Nat} (h : List.IsChain (Adj (T ++ [(u, v, w)])) l) (hv : v ∉ l) : List.IsChain (Adj T) l := by
  induction l with
  | nil => exact .nil
  | cons a l ih =>
    cases l with
    | nil => exact .singleton _
    | cons b l =>
      rw [List.isChain_cons_cons] at h ⊢
      refine ⟨?_, ih h.2 (by simp at hv ⊢; tauto)⟩
      rcases adj_append h.1 with h1 | ⟨-, h1⟩ | ⟨h1, -⟩
      · exact h1
      · simp [h1] at hv
      · simp [h1] at hv

theorem Onward.without {T : List Edge} {u v : Nat} {w : ℚ} {l : List Nat} (h : Onward (T ++ [(u, v, w)]) l) (hv : v ∉ l) : Onward T l :=
  ⟨chain_without h.1 hv, h.2⟩

theorem first_occ {v : Nat} {l : List Nat} (h : v ∈ l) : ∃ p q, l = p ++ v :: q ∧ v ∉ p := by
  obtain ⟨p, q, h1, h2⟩ := List.eq_append_cons_of_mem h
  exact ⟨p, q, h1, h2⟩

/-- two hits of a tree are joined by at most one edge -/
theorem Grown.incident_unique {T : List Edge} {V : List Nat} (h : Grown T V) {a : Nat} {e f : Edge} (he : e ∈ incident T a) (hf : f ∈ incident T a) (hef : e.2.1 = f.2.1) : e = f := by
  have key : ∀ {T V}, Grown T V → ∀ a b w w', ((a, b, w) ∈ T ∨ (b, a, w) ∈ T) → ((a, b, w') ∈ T ∨ (b, a, w') ∈ T) → w = w' := by
    intro T V h
    induction h with
    | single h => intro a b w w' h1; simp at h1
    | @grow T V u v x hT hu hv ih =>
      intro a b w w' h1 h2
      have hin : ∀ y, (a, b, y) ∈ T ∨ (b, a, y) ∈ T → a ≠ v ∧ b ≠ v := by
        intro y hy
        rcases hy with hy | hy <;> have := hT.mem _ hy <;> refine ⟨fun hh => hv (hh ▸ ?_), fun hh => hv (hh ▸ ?_)⟩
        · exact this.1
        · exact this.2
        · exact this.2
        · exact this.1
      have split : ∀ y, (a, b, y) ∈ T ++ [(u, v, x)] ∨ (b, a, y) ∈ T ++ [(u, v, x)] → ((a, b, y) ∈ T ∨ (b, a, y) ∈ T) ∨ (y = x ∧ (a = v ∨ b = v)) := by
        intro y hy
        rcases hy with hy | hy <;> rcases List.mem_append.1 hy with hy | hy
        · exact Or.inl (Or.inl hy)
        · simp at hy; exact Or.inr ⟨hy.2.2, Or.inr hy.2.1⟩
        · exact Or.inl (Or.inr hy)
        · simp at hy; exact Or.inr ⟨hy.2.2, Or.inl hy.2.1⟩
      rcases split w h1 with g1 | ⟨g1, k1⟩ <;> rcases split w' h2 with g2 | ⟨g2, k2⟩
      · exact ih a b w w' g1 g2
      · have := hin w g1; tauto
      · have := hin w' g2; tauto
      · rw [g1, g2]
  obtain ⟨rfl, h1⟩ := mem_incident.1 he
  obtain ⟨h0, h2⟩ := mem_incident.1 hf
  obtain ⟨e1, e2, ew⟩ := e
  obtain ⟨f1, f2, fw⟩ := f
  simp only at *
  subst hef; subst h0
  rw [key h _ _ _ _ h1 h2]

/-- in a tree, a chain that never goes straight back never visits a hit twice -/
theorem Grown.onward_nodup {T : List Edge} {V : List Nat} (h : Grown T V) : ∀ l, Onward T l → l.Nodup := by
  induction h with
  | single h =>
    intro l hl
    match l, hl with
    | [], _ => simp
    | [_], _ => simp
    | a :: b :: l, hl =>
      have := hl.1
      rw [List.isChain_cons_cons] at this
      obtain ⟨w, hw | hw⟩ := this.1 <;> simp at hw
  | @grow T V u v w hT hu hv ih =>
    have huv : u ≠ v := fun h => hv (h ▸ hu)
    intro l hl
    by_cases hvl : v ∈ l
    swap
    · exact ih l (hl.without hvl)
    obtain ⟨p, q, rfl, hp⟩ := first_occ hvl
    have hpn : Onward (T ++ [(u, v, w)]) p := Onward.infix (p := []) (r := v :: q) (by simpa using hl)
    have hqn : Onward (T ++ [(u, v, w)]) q := Onward.infix (p := p ++ [v]) (r := []) (by simpa using hl)
    -- what comes before and after `v`
    have hlast : ∀ p' x, p = p' ++ [x] → x = u := by
      rintro p' x rfl
      have := hl.1
      rw [List.append_assoc, List.singleton_append, List.isChain_append, List.isChain_cons_cons] at this
      rcases (leaf_adj hT hv).1 this.2.1.1 with h | h
      · exact h
      · exfalso; apply hp; simp [h]
    have hhead : ∀ q' x, q = x :: q' → x = u := by
      rintro q' x rfl
      have := hl.1
      rw [List.isChain_append, List.isChain_cons_cons] at this
      rcases (leaf_adj hT hv).2 this.2.1.1 with h | h
      · exact h
      · exfalso
        have h2 := this.2.1.1
        rw [h] at h2
        rcases adj_append h2 with h3 | ⟨h3, -⟩ | ⟨-, h3⟩
        · exact hv (hT.adj_mem h3).1
        · exact huv h3.symm
        · exact huv h3.symm
    rcases List.eq_nil_or_concat p with rfl | ⟨p', x, rfl⟩
    · -- `v` is the first hit
      by_cases hvq : v ∈ q
      · exfalso
        obtain ⟨p2, q2, rfl, hp2⟩ := first_occ hvq
        have h2 : Onward (T ++ [(u, v, w)]) p2 := Onward.infix (p := []) (r := v :: q2) (by simpa using hqn)
        have hnd := ih p2 (h2.without hp2)
        rcases List.eq_nil_or_concat p2 with rfl | ⟨p3, y, rfl⟩
        · exact huv (hhead q2 v rfl).symm
        · have hy : y = u := by
            have := hqn.1
            rw [List.concat_eq_append, List.append_assoc, List.singleton_append, List.isChain_append, List.isChain_cons_cons] at this
            rcases (leaf_adj hT hv).1 this.2.1.1 with h | h
            · exact h
            · exfalso; apply hp2; simp [h]
          subst hy
          cases p3 with
          | nil => exact hl.2 [] v y v q2 (by simp) rfl
          | cons z p3 =>
            have hz := hhead _ z rfl
            subst hz
            simp at hnd
      · simp [hvq, ih q (hqn.without hvq)]
    · rw [List.concat_eq_append] at *
      have hx := hlast p' x rfl
      cases q with
      | nil =>
        have := ih _ (hpn.without hp)
        rw [List.nodup_append]
        exact ⟨this, by simp, by intro a ha b hb; simp at hb; subst hb; exact fun h => hp (h ▸ ha)⟩
      | cons y q =>
        have hy := hhead q y rfl
        exfalso
        exact hl.2 p' x v y q (by simp) (by rw [hx, hy])

theorem Onward.mem {T : List Edge} {V : List Nat} (h : Grown T V) {a b : Nat} {l : List Nat} (hl : List.IsChain (Adj T) (a :: b :: l)) : ∀ x ∈ a :: b :: l, x ∈ V := by
  induction l generalizing a b with
  | nil =>
    rw [List.isChain_cons_cons] at hl
    have := h.adj_mem hl.1
    intro x hx; simp at hx; rcases hx with rfl | rfl
    · exact this.1
    · exact this.2
  | cons c l ih =>
    rw [List.isChain_cons_cons] at hl
    intro x hx
    rcases List.mem_cons.1 hx with rfl | hx
    · exact (h.adj_mem hl.1).1
    · exact ih hl.2 x hx

/-- the hits a simple path goes through, from one end to the other -/
structure SimplePath (T : List Edge) (a b : Nat) (l : List Nat) : Prop where
  head : l.head? = some a
  last : l.getLast? = some b
  chain : List.IsChain (Adj T) l
  nodup : l.Nodup

theorem Adj.mono {T T' : List Edge} (h : ∀ e ∈ T, e ∈ T') {a b : Nat} (hab : Adj T a b) : Adj T' a b := by
  obtain ⟨w, hw | hw⟩ := hab
  · exact ⟨w, Or.inl (h _ hw)⟩
  · exact ⟨w, Or.inr (h _ hw)⟩

theorem SimplePath.mono {T T' : List Edge} (h : ∀ e ∈ T, e ∈ T') {a b : Nat} {l : List Nat} (hp : SimplePath T a b l) : SimplePath T' a b l :=
  ⟨hp.head, hp.last, hp.chain.imp (fun _ _ => Adj.mono h), hp.nodup⟩

theorem SimplePath.reverse {T : List Edge} {a b : Nat} {l : List Nat} (hp : SimplePath T a b l) : SimplePath T b a l.reverse := by
  refine ⟨by simpa using hp.last, by simpa using hp.head, ?_, by simpa using hp.nodup⟩
  rw [List.isChain_reverse]
  exact hp.chain.imp (fun _ _ h => h.symm)

theorem Grown.path {T : List Edge} {V : List Nat} (h : Grown T V) : ∀ a ∈ V, ∀ b ∈ V, ∃ l, SimplePath T a b l ∧ ∀ x ∈ l, x ∈ V := by
  induction h with
  | single h =>
    intro a ha b hb
    simp at ha hb; subst ha; subst hb
    exact ⟨[b], ⟨rfl, rfl, .singleton _, by simp⟩, by simp⟩
  | @grow T V u v w hT hu hv ih =>
    have hm : ∀ e ∈ T, e ∈ T ++ [(u, v, w)] := fun e he => List.mem_append_left _ he
    have key : ∀ b ∈ V, ∃ l, SimplePath (T ++ [(u, v, w)]) v b l ∧ ∀ x ∈ l, x ∈ V ++ [v] := by
      intro b hb
      obtain ⟨l, hl, hlV⟩ := ih u hu b hb
      refine ⟨v :: l, ⟨rfl, ?_, ?_, ?_⟩, ?_⟩
      · cases l with
        | nil => exact absurd hl.head (by simp)
        | cons y l => rw [List.getLast?_cons_cons]; exact hl.last
      · cases l with
        | nil => exact .singleton _
        | cons y l =>
          rw [List.isChain_cons_cons]
          have := hl.head; simp at this; subst this
          exact ⟨⟨w, Or.inr (by simp)⟩, (hl.mono hm).chain⟩
      · exact List.nodup_cons.2 ⟨fun h => hv (hlV v h), hl.nodup⟩
      · intro x hx
        rcases List.mem_cons.1 hx with rfl | hx
        · simp
        · exact List.mem_append_left _ (hlV x hx)
    intro a ha b hb
    rcases List.mem_append.1 ha with ha1 | ha1 <;> rcases List.mem_append.1 hb with hb1 | hb1
    · obtain ⟨l, hl, hlV⟩ := ih a ha1 b hb1
      exact ⟨l, hl.mono hm, fun x hx => List.mem_append_left _ (hlV x hx)⟩
    · rw [List.mem_singleton.1 hb1]
      obtain ⟨l, hl, hlV⟩ := key a ha1
      exact ⟨l.reverse, hl.reverse, by simpa using hlV⟩
    · rw [List.mem_singleton.1 ha1]; exact key b hb1
    · rw [List.mem_singleton.1 ha1, List.mem_singleton.1 hb1]
      exact ⟨[v], ⟨rfl, rfl, .singleton _, by simp⟩, by simp⟩

theorem SimplePath.cons {T : List Edge} {a b c : Nat} {l : List Nat} (h : SimplePath T a b (a :: c :: l)) : SimplePath T c b (c :: l) ∧ Adj T a c ∧ a ∉ c :: l := by
  have h1 := h.chain
  rw [List.isChain_cons_cons] at h1
  refine ⟨⟨rfl, ?_, h1.2, (List.nodup_cons.1 h.nodup).2⟩, h1.1, (List.nodup_cons.1 h.nodup).1⟩
  have := h.last
  rwa [List.getLast?_cons_cons] at this

theorem SimplePath.self {T : List Edge} {a : Nat} {l : List Nat} (h : SimplePath T a a l) : l = [a] := by
  match l, h with
  | [], h => exact absurd h.head (by simp)
  | [x], h => have := h.head; simpa using this
  | x :: y :: l, h =>
    exfalso
    have hx := h.head; simp at hx; subst hx
    have h1 := h.cons
    have h2 : x ∈ y :: l := List.mem_of_getLast? h1.1.last
    exact h1.2.2 h2

theorem SimplePath.cases {T : List Edge} {a b : Nat} {l : List Nat} (h : SimplePath T a b l) (hab : a ≠ b) : ∃ c l', l = a :: c :: l' := by
  match l, h with
  | [], h => exact absurd h.head (by simp)
  | [x], h =>
    have h1 := h.head; have h2 := h.last
    simp at h1 h2
    exact absurd (h1 ▸ h2) hab
  | x :: y :: l, h => have hx := h.head; simp at hx; exact ⟨y, l, by rw [hx]⟩

/-- in a tree there is only one simple path between two hits -/
theorem Grown.path_unique {T : List Edge} {V : List Nat} (h : Grown T V) : ∀ a b l l', SimplePath T a b l → SimplePath T a b l' → l = l' := by
  induction h with
  | single h =>
    intro a b l l' hl hl'
    by_cases hab : a = b
    · subst hab; rw [hl.self, hl'.self]
    · obtain ⟨c, l1, rfl⟩ := hl.cases hab
      obtain ⟨w, hw | hw⟩ := hl.cons.2.1 <;> simp at hw
  | @grow T V u v w hT hu hv ih =>
    have huv : u ≠ v := fun h => hv (h ▸ hu)
    -- paths that start at `v`
    have start : ∀ b l l', v ≠ b → SimplePath (T ++ [(u, v, w)]) v b l → SimplePath (T ++ [(u, v, w)]) v b l' → l = l' := by
      intro b l l' hb hl hl'
      obtain ⟨c, l1, rfl⟩ := hl.cases hb
      obtain ⟨c', l1', rfl⟩ := hl'.cases hb
      obtain ⟨h1, h2, h3⟩ := hl.cons
      obtain ⟨h1', h2', h3'⟩ := hl'.cons
      have e1 : c = u := by
        rcases (leaf_adj hT hv).2 h2 with h | h
        · exact h
        · subst h; simp at h3
      have e2 : c' = u := by
        rcases (leaf_adj hT hv).2 h2' with h | h
        · exact h
        · subst h; simp at h3'
      subst e1; subst e2
      rw [ih c' b (c' :: l1) (c' :: l1') ⟨rfl, h1.last, chain_without h1.chain h3, h1.nodup⟩ ⟨rfl, h1'.last, chain_without h1'.chain h3', h1'.nodup⟩]
    -- paths with `v` inside
    have inside : ∀ a b l, a ≠ v → b ≠ v → SimplePath (T ++ [(u, v, w)]) a b l → v ∉ l := by
      intro a b l ha hb hl hvl
      obtain ⟨p, q, rfl, hp⟩ := first_occ hvl
      rcases List.eq_nil_or_concat p with rfl | ⟨p', x, rfl⟩
      · have := hl.head; simp at this; exact ha this.symm
      · cases q with
        | nil => have := hl.last; simp at this; exact hb this.symm
        | cons y q =>
          have hc := hl.chain
          rw [List.concat_eq_append, List.append_assoc, List.singleton_append, List.isChain_append, List.isChain_cons_cons, List.isChain_cons_cons] at hc
          have hn := hl.nodup
          rw [List.concat_eq_append] at hn
          simp only [List.append_assoc, List.singleton_append, List.nodup_append, List.nodup_cons, List.mem_cons] at hn
          have hx : x = u := by
            rcases (leaf_adj hT hv).1 hc.2.1.1 with h | h
            · exact h
            · exfalso; apply hp; simp [h]
          have hy : y = u := by
            rcases (leaf_adj hT hv).2 hc.2.1.2.1 with h | h
            · exact h
            · exfalso; subst h; simp at hn
          subst hx; subst hy
          simp at hn
    intro a b l l' hl hl'
    by_cases hab : a = b
    · subst hab; rw [hl.self, hl'.self]
    by_cases ha : a = v
    · subst ha; exact start b l l' hab hl hl'
    by_cases hb : b = v
    · subst hb
      have := start a _ _ (fun h => hab h.symm) hl.reverse hl'.reverse
      exact List.reverse_injective this
    · have i1 := inside a b l ha hb hl
      have i2 := inside a b l' ha hb hl'
      exact ih a b l l' ⟨hl.head, hl.last, chain_without hl.chain i1, hl.nodup⟩ ⟨hl'.head, hl'.last, chain_without hl'.chain i2, hl'.nodup⟩

/-! ## The search -/

/-- the next edge of a walk: from the end of the last one, not back to its start -/
def Follows (m : Nat → List Edge) (e d : Edge) : Prop := d ∈ m e.2.1 ∧ d.2.1 ≠ e.1

/-- no walk that starts with the edge `e` comes to the goal after it -/
def NoWay (m : Nat → List Edge) (goal : Nat) (e : Edge) : Prop := ∀ es, List.IsChain (Follows m) (e :: es) → ∀ x ∈ es, x.2.1 ≠ goal

theorem noWay_of {m : Nat → List Edge} {goal : Nat} {e : Edge} (h : ∀ d ∈ m e.2.1, d.2.1 ≠ e.1 → d.2.1 ≠ goal ∧ NoWay m goal d) : NoWay m goal e := by
  intro es hes x hx
  cases es with
  | nil => simp at hx
  | cons d es =>
    rw [List.isChain_cons_cons] at hes
    obtain ⟨h1, h2⟩ := h d hes.1.1 hes.1.2
    rcases List.mem_cons.1 hx with rfl | hx
    · exact h1
    · exact h2 es hes.2 x hx

/-- what the search returns: nothing changed and no way, or a walk -/
def LcpResult (m : Nat → List Edge) (goal : Nat) (e : Edge) (b : Best) (r : Option ℚ × Best) : Prop :=
  (r = (none, b) ∧ NoWay m goal e) ∨
  ∃ es d, List.IsChain (Follows m) (e :: es ++ [d]) ∧ d.2.1 = goal ∧ (∀ x ∈ es, x.2.1 ≠ goal) ∧
    r = (some (weightSum (es ++ [d])), (e :: es).map (fun x => x.2.1) ++ b.1 ++ [goal], (e :: es) ++ b.2 ++ [d])

theorem lcp_result (m : Nat → List Edge) (goal : Nat) : ∀ fuel e b r, lcp m goal fuel e b = some r → LcpResult m goal e b r := by
  intro fuel
  induction fuel with
  | zero => intro e b r h; simp [lcp] at h
  | succ fuel ih =>
    intro e b r h
    have scan : ∀ ds r, (∀ d ∈ ds, d ∈ m e.2.1) → lcpScan (lcp m goal fuel) goal e.1 ds b = some r →
        (r = (none, b) ∧ ∀ d ∈ ds, d.2.1 ≠ e.1 → d.2.1 ≠ goal ∧ NoWay m goal d) ∨
        ∃ es d, List.IsChain (Follows m) (e :: es ++ [d]) ∧ d.2.1 = goal ∧ (∀ x ∈ es, x.2.1 ≠ goal) ∧
          r = (some (weightSum (es ++ [d])), es.map (fun x => x.2.1) ++ b.1 ++ [goal], es ++ b.2 ++ [d]) := by
      intro ds
      induction ds with
      | nil => intro r _ h; simp [lcpScan] at h; left; exact ⟨h.symm, by simp⟩
      | cons d ds ihd =>
        intro r hm h
        rw [lcpScan] at h
        split at h
        · next hd =>
          rcases ihd r (fun x hx => hm x (by simp [hx])) h with ⟨h1, h2⟩ | h1
          · left; refine ⟨h1, ?_⟩
            intro x hx hx2
            rcases List.mem_cons.1 hx with rfl | hx
            · exact absurd hd hx2
            · exact h2 x hx hx2
          · right; exact h1
        · next hd =>
          split at h
          · next hg =>
            right
            refine ⟨[], d, ?_, hg, by simp, ?_⟩
            · simp only [List.cons_append, List.nil_append, List.isChain_cons_cons]
              exact ⟨⟨hm d (by simp), hd⟩, .singleton _⟩
            · simp at h; rw [← h]; simp [weightSum]
          · next hg =>
            split at h
            · simp at h
            · next c b' hc =>
              rcases ih _ _ _ hc with ⟨h1, -⟩ | ⟨es, d', h1, h2, h3, h4⟩
              · simp at h1
              · right
                refine ⟨d :: es, d', ?_, h2, ?_, ?_⟩
                · simp only [List.cons_append, List.isChain_cons_cons]
                  exact ⟨⟨hm d (by simp), hd⟩, by simpa using h1⟩
                · intro x hx
                  rcases List.mem_cons.1 hx with rfl | hx
                  · exact hg
                  · exact h3 x hx
                · simp at h h4
                  rw [← h, h4.1, h4.2]
                  simp [weightSum]
            · next b' hc =>
              rcases ih _ _ _ hc with ⟨h1, h1'⟩ | ⟨es, d', h1, h2, h3, h4⟩
              · simp at h1; rw [h1] at h
                rcases ihd r (fun x hx => hm x (by simp [hx])) h with ⟨h5, h6⟩ | h5
                · left; refine ⟨h5, ?_⟩
                  intro x hx hx2
                  rcases List.mem_cons.1 hx with rfl | hx
                  · exact ⟨hg, h1'⟩
                  · exact h6 x hx hx2
                · right; exact h5
              · simp at h4
    rw [lcp] at h
    split at h
    · simp at h
    · next b' hs =>
      rcases scan _ _ (fun _ h => h) hs with ⟨h1, h2⟩ | ⟨es, d, h1, h2, h3, h4⟩
      · left
        simp at h h1
        exact ⟨by rw [← h, h1], noWay_of h2⟩
      · simp at h4
    · next c b' hs =>
      rcases scan _ _ (fun _ h => h) hs with ⟨h1, h2⟩ | ⟨es, d, h1, h2, h3, h4⟩
      · simp at h1
      · right
        simp at h h4
        refine ⟨es, d, h1, h2, h3, ?_⟩
        rw [← h, h4.1, h4.2]; simp

/-- the hits of a walk -/
def verts (e : Edge) (es : List Edge) : List Nat := e.1 :: (e :: es).map (fun x => x.2.1)

theorem walk_onward {T : List Edge} : ∀ (es : List Edge) (e : Edge), e ∈ incident T e.1 → List.IsChain (Follows (incident T)) (e :: es) → Onward T (verts e es) := by
  intro es
  induction es with
  | nil =>
    intro e he _
    rw [mem_incident] at he
    refine ⟨?_, ?_⟩
    · simp only [verts, List.map_cons, List.map_nil, List.isChain_cons_cons]
      refine ⟨?_, .singleton _⟩
      rcases he.2 with h | h
      · exact ⟨_, Or.inl h⟩
      · exact ⟨_, Or.inr h⟩
    · intro p a b c q h
      exfalso
      have := congrArg List.length h
      simp [verts] at this
      omega
  | cons d es ih =>
    intro e he hc
    rw [List.isChain_cons_cons] at hc
    have hd := mem_incident.1 hc.1.1
    have h1 := ih d (by rw [mem_incident]; exact ⟨rfl, hd.2⟩) hc.2
    have hv : verts e (d :: es) = e.1 :: verts d es := by simp [verts, hd.1]
    rw [hv]
    refine ⟨?_, ?_⟩
    · simp only [verts, List.isChain_cons_cons] at h1 ⊢
      refine ⟨?_, h1.1⟩
      rw [hd.1]
      rw [mem_incident] at he
      rcases he.2 with h | h
      · exact ⟨_, Or.inl h⟩
      · exact ⟨_, Or.inr h⟩
    · intro p a b c q h
      cases p with
      | nil =>
        simp [verts] at h
        have := hc.1.2
        intro hac
        apply this
        rw [h.1, hac, ← h.2.2.1]
      | cons x p =>
        simp at h
        exact h1.2 p a b c q h.2

/-- the depth of the search in a tree is less than the number of its hits -/
theorem lcp_ends {T : List Edge} {V : List Nat} (hT : Grown T V) (goal : Nat) : ∀ fuel p e b, (∀ f l, p ++ [e] = f :: l → f ∈ incident T f.1) →
    List.IsChain (Follows (incident T)) (p ++ [e]) → V.length < fuel + p.length + 2 → lcp (incident T) goal fuel e b ≠ none := by
  have len : ∀ p, p ≠ [] → (∀ f l, p = f :: l → f ∈ incident T f.1) → List.IsChain (Follows (incident T)) p → p.length + 1 ≤ V.length := by
    intro p hp h1 h2
    cases p with
    | nil => exact absurd rfl hp
    | cons f l =>
      have h3 := walk_onward l f (h1 f l rfl) h2
      have h4 := hT.onward_nodup _ h3
      have h5 := Onward.mem hT h3.1
      have := (List.Nodup.subperm h4 (fun x hx => h5 x hx)).length_le
      simp [verts] at this ⊢
      omega
  intro fuel
  induction fuel with
  | zero =>
    intro p e b h1 h2 h3
    have := len (p ++ [e]) (by simp) h1 h2
    simp at this; omega
  | succ fuel ih =>
    intro p e b h1 h2 h3
    have scan : ∀ ds b, (∀ d ∈ ds, d ∈ incident T e.2.1) → lcpScan (lcp (incident T) goal fuel) goal e.1 ds b ≠ none := by
      intro ds
      induction ds with
      | nil => intro b _; simp [lcpScan]
      | cons d ds ihd =>
        intro b hm
        rw [lcpScan]
        split
        · exact ihd b (fun x hx => hm x (by simp [hx]))
        · next hd =>
          split
          · simp
          · have := ih (p ++ [e]) d b (by
              intro f l hfl
              cases p with
              | nil => simp at hfl; exact h1 f [] (by simp [hfl.1])
              | cons x p => simp at hfl; exact h1 f (p ++ [e]) (by simp [hfl.1])) (by
              rw [List.isChain_append]
              refine ⟨h2, .singleton _, ?_⟩
              intro x hx y hy
              simp at hx hy
              subst hx; subst hy
              exact ⟨hm d (by simp), hd⟩) (by simp; omega)
            cases hl : lcp (incident T) goal fuel d b with
            | none => exact absurd hl this
            | some r =>
              obtain ⟨c, b'⟩ := r
              cases c with
              | none => exact ihd b' (fun x hx => hm x (by simp [hx]))
              | some c => simp
    rw [lcp]
    have := scan (incident T e.2.1) b (fun _ h => h)
    cases hs : lcpScan (lcp (incident T) goal fuel) goal e.1 (incident T e.2.1) b with
    | none => exact absurd hs this
    | some r => obtain ⟨c, b'⟩ := r; cases c <;> simp

/-- a simple path as a walk along edges -/
theorem path_walk {T : List Edge} : ∀ (l : List Nat) (a b : Nat), SimplePath T a b (a :: l) → l ≠ [] →
    ∃ e es, e ∈ incident T a ∧ List.IsChain (Follows (incident T)) (e :: es) ∧ (e :: es).map (fun x => x.2.1) = l := by
  intro l
  induction l with
  | nil => intro a b _ h; exact absurd rfl h
  | cons c l ih =>
    intro a b h _
    obtain ⟨h1, h2, h3⟩ := h.cons
    have hd : ∃ d ∈ incident T a, d.2.1 = c ∧ d.1 = a := by
      obtain ⟨w, hw | hw⟩ := h2
      · exact ⟨(a, c, w), mem_incident.2 ⟨rfl, Or.inl hw⟩, rfl, rfl⟩
      · exact ⟨(a, c, w), mem_incident.2 ⟨rfl, Or.inr hw⟩, rfl, rfl⟩
    obtain ⟨d, hd1, hd2, hd3⟩ := hd
    by_cases hl : l = []
    · subst hl
      exact ⟨d, [], hd1, .singleton _, by simp [hd2]⟩
    · obtain ⟨e, es, he1, he2, he3⟩ := ih c b h1 hl
      refine ⟨d, e :: es, hd1, ?_, ?_⟩
      · rw [List.isChain_cons_cons]
        refine ⟨⟨by rw [hd2]; exact he1, ?_⟩, he2⟩
        rw [hd3]
        intro hea
        apply h3
        have : e.2.1 ∈ l := by rw [← he3]; simp
        rw [hea] at this
        simp [this]
      · rw [List.map_cons, he3, hd2]

/-- the isolated hits of a tree with more than one hit are at least two -/
theorem Grown.two_leaves {T : List Edge} {V : List Nat} (h : Grown T V) : 2 ≤ V.length → ∃ a ∈ V, ∃ b ∈ V, a ≠ b ∧ (incident T a).length = 1 ∧ (incident T b).length = 1 := by
  induction h with
  | single h => intro h; simp at h
  | @grow T V u v w hT hu hv ih =>
    intro _
    have huv : u ≠ v := fun h => hv (h ▸ hu)
    have hinc : ∀ x, incident (T ++ [(u, v, w)]) x = incident T x ++ ((if u = x then [(u, v, w)] else []) ++ (if v = x then [(v, u, w)] else [])) := by
      intro x; simp [incident]
    have hv0 : incident T v = [] := by
      rw [List.eq_nil_iff_forall_not_mem]
      intro e he
      rw [mem_incident] at he
      obtain ⟨rfl, h | h⟩ := he
      · exact hv (hT.mem _ h).1
      · exact hv (hT.mem _ h).2
    have hv1 : (incident (T ++ [(u, v, w)]) v).length = 1 := by rw [hinc, hv0]; simp [huv]
    by_cases h2 : 2 ≤ V.length
    · obtain ⟨a, ha, b, hb, hab, ha1, hb1⟩ := ih h2
      by_cases hau : a = u
      · refine ⟨b, List.mem_append_left _ hb, v, by simp, fun h => hv (h ▸ hb), ?_, hv1⟩
        have hub : u ≠ b := fun h => hab (hau.trans h)
        have hvb : v ≠ b := fun h => hv (h ▸ hb)
        rw [hinc]; simp [hub, hvb, hb1]
      · refine ⟨a, List.mem_append_left _ ha, v, by simp, fun h => hv (h ▸ ha), ?_, hv1⟩
        have hva : v ≠ a := fun h => hv (h ▸ ha)
        rw [hinc]; simp [Ne.symm hau, hva, ha1]
    · have hV : V = [u] := by
        match V, hu, h2 with
        | [x], hu, _ => simp at hu; rw [hu]
        | x :: y :: l, _, h2 => simp at h2
      have hl := hT.length
      have hT0 : T = [] := List.length_eq_zero_iff.1 (by rw [hV] at hl; simpa using hl)
      refine ⟨u, by simp [hu], v, by simp, huv, ?_, hv1⟩
      rw [hinc, hT0]; simp [incident, Ne.symm huv]

/-- the walk from an isolated hit to another hit that is not next to it -/
theorem tree_search {T : List Edge} {V : List Nat} (hT : Grown T V) {start goal : Nat} {e : Edge} (hs : start ∈ V) (hg : goal ∈ V) (hsg : start ≠ goal) (he : incident T start = [e]) (hge : e.2.1 ≠ goal)
    (fuel : Nat) (hf : V.length ≤ fuel + 1) (b : Best) :
    ∃ es d, List.IsChain (Follows (incident T)) (e :: es ++ [d]) ∧ d.2.1 = goal ∧
      lcp (incident T) goal fuel e b = some (some (weightSum (es ++ [d])), (e :: es).map (fun x => x.2.1) ++ b.1 ++ [goal], (e :: es) ++ b.2 ++ [d]) := by
  have hem : e ∈ incident T start := by rw [he]; simp
  have hes : e.1 = start := (mem_incident.1 hem).1
  have hends := lcp_ends hT goal fuel [] e b (by intro f l h; simp at h; rw [← h.1, hes]; exact hem) (.singleton _) (by simp; omega)
  cases hr : lcp (incident T) goal fuel e b with
  | none => exact absurd hr hends
  | some r =>
    rcases lcp_result _ _ _ _ _ _ hr with ⟨h1, h2⟩ | ⟨es, d, h1, h2, h3, h4⟩
    · exfalso
      obtain ⟨l, hl, -⟩ := hT.path start hs goal hg
      obtain ⟨c, l', rfl⟩ := hl.cases hsg
      obtain ⟨e', es, h5, h6, h7⟩ := path_walk _ _ _ hl (by simp)
      rw [he] at h5
      simp at h5; subst h5
      have hlast : (c :: l').getLast? = some goal := by
        have := hl.last
        rwa [List.getLast?_cons_cons] at this
      rw [← h7] at hlast
      cases es with
      | nil => simp at hlast; exact hge hlast
      | cons x es =>
        have : goal ∈ (x :: es).map (fun x => x.2.1) := by
          rw [List.map_cons, List.map_cons, List.getLast?_cons_cons] at hlast
          exact List.mem_of_getLast? hlast
        obtain ⟨y, hy, hyg⟩ := List.mem_map.1 this
        exact h2 _ h6 y hy hyg
    · exact ⟨es, d, h1, h2, by rw [h4]⟩

theorem walk_sources {T : List Edge} : ∀ (es : List Edge) (e : Edge), List.IsChain (Follows (incident T)) (e :: es) → es.map (fun x => x.1) = ((e :: es).map (fun x => x.2.1)).dropLast ∧
    ∀ x ∈ es, x ∈ incident T x.1 := by
  intro es
  induction es with
  | nil => intro e _; simp
  | cons d es ih =>
    intro e h
    rw [List.isChain_cons_cons] at h
    obtain ⟨h1, h2⟩ := ih d h.2
    have hd := mem_incident.1 h.1.1
    refine ⟨?_, ?_⟩
    · rw [List.map_cons, h1, hd.1]; simp
    · intro x hx
      rcases List.mem_cons.1 hx with rfl | hx
      · exact mem_incident.2 ⟨rfl, hd.2⟩
      · exact h2 x hx

/-- the hits of a cluster that are joined by an edge of its map -/
def Clus.Next (c : Clus) (a b : Nat) : Prop := ∃ e ∈ c.emap a, e.2.1 = b

/-- **C100**: in every cluster of more than two hits there are at least two isolated ones, and the search from the first to the last of them, in whatever order they come, ends at a depth that is not more than the number
of hits; when the lists were empty it leaves the hits of the only path between the two in `getBestHitPairListPtr`, from start to stop, and the edges between them in `getBestEdgeList`.
(When the lists were not empty, the old content is left inside the new path, before its last hit.) -/
theorem C100_path (F : Finder) (att0 : Nat → Bool) (hits : List Nat) (before : List Clus) (hF : ∀ a ∈ hits, ∀ b, F.Nb a b → b ∈ hits) :
    ∃ cs, runPrim F att0 hits before = some (before ++ cs) ∧ ∀ c ∈ cs, c.hits.length > 2 → ∀ order : List Nat → List Nat, (∀ l, (order l).Perm l) →
      ∃ start stop nodes edges d, (order c.isolated).head? = some start ∧ (order c.isolated).getLast? = some stop ∧ start ≠ stop ∧
        (∀ b : Best, findBest c order c.hits.length b = some (nodes ++ b.1 ++ [stop], edges ++ b.2 ++ [d])) ∧
        (nodes ++ [stop]).head? = some start ∧ (nodes ++ [stop]).Nodup ∧ (∀ x ∈ nodes ++ [stop], x ∈ c.hits) ∧
        (edges ++ [d]).map (fun e => e.1) = nodes ∧ (edges ++ [d]).map (fun e => e.2.1) = (nodes ++ [stop]).tail ∧ (∀ e ∈ edges ++ [d], e ∈ c.emap e.1) ∧
        ∀ other, other.head? = some start → other.getLast? = some stop → List.IsChain c.Next other → other.Nodup → other = nodes ++ [stop] := by
  obtain ⟨cs, h1, h2, h3, h4⟩ := runPrim_inv (F := F) (att0 := att0) before hF
  refine ⟨cs, h1, ?_⟩
  intro c hc hlen order horder
  obtain ⟨p, q, hpq⟩ := List.append_of_mem hc
  obtain ⟨T, hMT, hm⟩ := h2.tree p c q hpq
  have hT := hMT.grown
  have hmf : c.emap = incident T := funext hm
  have hiso : ∀ x, x ∈ c.isolated ↔ x ∈ c.hits ∧ (incident T x).length = 1 := by
    intro x; simp [Clus.isolated, hmf]
  have hnd : (order c.isolated).Nodup := (horder _).nodup_iff.2 (hT.nodup.filter _)
  have hmem : ∀ x, x ∈ order c.isolated ↔ x ∈ c.isolated := fun x => (horder _).mem_iff
  obtain ⟨x1, hx1, x2, hx2, hx12, hl1, hl2⟩ := hT.two_leaves (by omega)
  have hfb : ∀ b, findBest c order c.hits.length b = (match order c.isolated with
    | [] => some b
    | [_] => some b
    | start :: x :: l =>
      match c.emap start with
      | [] => none
      | e :: _ =>
        match lcp c.emap ((x :: l).getLast (by simp)) c.hits.length e b with
        | none => none
        | some (_, b') => some (start :: b'.1, b'.2)) := by
    intro b; unfold findBest; rw [if_pos hlen]; rfl
  match ho : order c.isolated with
  | [] =>
    exfalso
    have := (hmem x1).2 ((hiso x1).2 ⟨hx1, hl1⟩)
    rw [ho] at this; simp at this
  | [y] =>
    exfalso
    have g1 := (hmem x1).2 ((hiso x1).2 ⟨hx1, hl1⟩)
    have g2 := (hmem x2).2 ((hiso x2).2 ⟨hx2, hl2⟩)
    rw [ho] at g1 g2; simp at g1 g2
    exact hx12 (g1.trans g2.symm)
  | start :: x :: l =>
    rw [ho] at hnd hmem
    have hstop : (x :: l).getLast (by simp) ∈ x :: l := List.getLast_mem _
    have hlast? : (start :: x :: l).getLast? = some ((x :: l).getLast (by simp)) := by
      rw [List.getLast?_cons_cons, List.getLast?_eq_some_getLast (by simp)]
    simp only [ho] at hfb
    generalize hgs : (x :: l).getLast (by simp) = stop at hfb hstop hlast?
    have hne : start ≠ stop := by
      intro h
      rw [h] at hnd
      exact (List.nodup_cons.1 hnd).1 hstop
    obtain ⟨hs1, hs2⟩ := (hiso start).1 ((hmem start).1 (by simp))
    obtain ⟨ht1, ht2⟩ := (hiso stop).1 ((hmem stop).1 (List.mem_cons_of_mem _ hstop))
    obtain ⟨e, he⟩ := List.length_eq_one_iff.1 hs2
    have hem : e ∈ incident T start := by rw [he]; simp
    have hes : e.1 = start := (mem_incident.1 hem).1
    -- the neighbour of an isolated hit is not isolated
    have hge : e.2.1 ≠ stop := by
      intro hge
      obtain ⟨z, hz, hz1, hz2⟩ : ∃ z ∈ c.hits, z ≠ start ∧ z ≠ stop := by
        by_contra hcon
        push Not at hcon
        have : c.hits.length ≤ [start, stop].length := (List.Nodup.subperm hT.nodup (fun z hz => by
          by_cases hzs : z = start
          · simp [hzs]
          · simp [hcon z hz hzs])).length_le
        simp at this; omega
      obtain ⟨pth, hp, -⟩ := hT.path start hs1 z hz
      obtain ⟨y, l', rfl⟩ := hp.cases (Ne.symm hz1)
      obtain ⟨f, fs, f1, f2, f3⟩ := path_walk _ _ _ hp (by simp)
      rw [he] at f1; simp at f1; subst f1
      have hy : f.2.1 = y := by simpa using congrArg List.head? f3
      cases fs with
      | nil =>
        simp at f3
        have := hp.last
        rw [f3.2] at this; simp at this
        exact hz2 (by rw [← this, ← hy, hge])
      | cons g fs =>
        rw [List.isChain_cons_cons] at f2
        obtain ⟨g1, g2⟩ := f2.1
        rw [hge] at g1
        have hback : (f.2.1, f.1, f.2.2) ∈ incident T stop := by
          rw [mem_incident]
          refine ⟨hge, ?_⟩
          have := (mem_incident.1 hem).2
          simpa using this.symm
        obtain ⟨k, hk⟩ := List.length_eq_one_iff.1 ht2
        rw [hk] at g1 hback
        simp at g1 hback
        apply g2
        rw [g1, ← hback]
    have hfuel : c.hits.length ≤ c.hits.length + 1 := by omega
    obtain ⟨es, d, w1, w2, -⟩ := tree_search hT hs1 ht1 hne he hge c.hits.length hfuel ([], [])
    have hsrc := walk_sources (es ++ [d]) e (by simpa using w1)
    have hon := walk_onward (es ++ [d]) e (by rw [hes]; exact hem) (by simpa using w1)
    have hverts : verts e (es ++ [d]) = start :: (e :: es).map (fun x => x.2.1) ++ [stop] := by
      simp [verts, hes, w2]
    rw [hverts] at hon
    have hnodes := hT.onward_nodup _ hon
    refine ⟨start, stop, start :: (e :: es).map (fun x => x.2.1), e :: es, d, rfl, hlast?, hne, ?_, by simp, hnodes, ?_, ?_, ?_, ?_, ?_⟩
    · intro b
      obtain ⟨es', d', w1', w2', w3'⟩ := tree_search hT hs1 ht1 hne he hge c.hits.length hfuel b
      have hon' := walk_onward (es' ++ [d']) e (by rw [hes]; exact hem) (by simpa using w1')
      have hverts' : verts e (es' ++ [d']) = start :: (e :: es').map (fun x => x.2.1) ++ [stop] := by
        simp [verts, hes, w2']
      rw [hverts'] at hon'
      have hsame : start :: (e :: es').map (fun x => x.2.1) ++ [stop] = start :: (e :: es).map (fun x => x.2.1) ++ [stop] :=
        hT.path_unique start stop _ _ ⟨rfl, List.getLast?_concat .., hon'.1, hT.onward_nodup _ hon'⟩ ⟨rfl, List.getLast?_concat .., hon.1, hnodes⟩
      rw [hfb b, hmf, he]
      simp only
      rw [w3']
      have h5 : (e :: es').map (fun x => x.2.1) = (e :: es).map (fun x => x.2.1) := by simpa using hsame
      rw [h5]
      have h6 : es' ++ [d'] = es ++ [d] := by
        -- the edges are determined by the hits
        have key : ∀ (r r' : List Edge) (k : Edge), List.IsChain (Follows (incident T)) (k :: r) → List.IsChain (Follows (incident T)) (k :: r') →
            r.map (fun x => x.2.1) = r'.map (fun x => x.2.1) → r = r' := by
          intro r
          induction r with
          | nil => intro r' k _ _ hr; simp at hr; exact hr.symm
          | cons g r ih =>
            intro r' k hk hk' hr
            cases r' with
            | nil => simp at hr
            | cons g' r' =>
              rw [List.isChain_cons_cons] at hk hk'
              simp only [List.map_cons, List.cons.injEq] at hr
              have hgg : g = g' := hT.incident_unique hk.1.1 hk'.1.1 hr.1
              subst hgg
              rw [ih r' g hk.2 hk'.2 hr.2]
        refine key _ _ e (by simpa using w1') (by simpa using w1) ?_
        have : es'.map (fun x => x.2.1) = es.map (fun x => x.2.1) := by simpa using h5
        simp [this, w2, w2']
      have h7 := List.append_inj' h6 rfl
      rw [h7.1]
      simp at h7
      rw [h7.2]
      simp
    · intro x hx
      exact Onward.mem hT (a := start) (b := e.2.1) (l := es.map (fun x => x.2.1) ++ [stop]) (by simpa using hon.1) x (by simpa using hx)
    · rw [List.cons_append, List.map_cons, hes, hsrc.1, ← List.cons_append, List.map_append, List.map_singleton, List.dropLast_concat]
    · simp [w2]
    · intro g hg
      rw [hmf]
      rcases List.mem_cons.1 (by simpa using hg : g ∈ e :: (es ++ [d])) with rfl | hg
      · rw [hes]; exact hem
      · exact hsrc.2 g hg
    · intro other o1 o2 o3 o4
      refine hT.path_unique start stop _ _ ⟨o1, o2, o3.imp ?_, o4⟩ ⟨rfl, List.getLast?_concat .., hon.1, hnodes⟩
      rintro a b ⟨g, hg, rfl⟩
      rw [hmf, mem_incident] at hg
      obtain ⟨rfl, h | h⟩ := hg
      · exact ⟨_, Or.inl h⟩
      · exact ⟨_, Or.inr h⟩

example : (runPrim sampleFinder (fun _ => false) [0, 1, 2, 3, 4] []).map (List.map Clus.isolated) = some [[1, 2], []] := by decide +kernel

example : ((runPrim sampleFinder (fun _ => false) [0, 1, 2, 3, 4] []).getD []).map (fun c => ((findBest c id 5 ([], [])).getD ([], [])).1) = [[1, 0, 3, 2], []] := by decide +kernel

example : ((runPrim sampleFinder (fun _ => false) [0, 1, 2, 3, 4] []).getD []).map (fun c => ((findBest c id 5 ([], [])).getD ([], [])).2) = [[(1, 0, 1), (0, 3, 2), (3, 2, 1)], []] := by decide +kernel

end Verif.Mst

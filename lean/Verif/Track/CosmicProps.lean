import Verif.Track.CosmicModel
import Mathlib.Tactic.FieldSimp
import Mathlib.Tactic.Linarith
import Mathlib.Tactic.NormNum
import Mathlib.Algebra.BigOperators.Fin
/-!
# `Track3D`, `MakeSPT` and the trajectory clean-up of the cosmic tracker
-/
namespace Verif.Cosmic
open Verif

section
variable {R : Type} [Field R] [LinearOrder R]
variable (E : Env R) (c : Cfg R)

/-! ## One hit per wire -/

/-- strictly increasing wire numbers -/
def ByWire (m : List Nat) : Prop := m.Pairwise (fun a b => E.wire a < E.wire b)

theorem mem_setWire {h x : Nat} {m : List Nat} : x ∈ setWire E h m → x = h ∨ x ∈ m := by
  induction m with
  | nil => simp [setWire]
  | cons y l ih =>
    unfold setWire
    split
    · intro hx; simpa using hx
    · split
      · intro hx
        rcases List.mem_cons.1 hx with h1 | h1
        · exact .inl h1
        · exact .inr (by simp [h1])
      · intro hx
        rcases List.mem_cons.1 hx with h1 | h1
        · exact .inr (by simp [h1])
        · rcases ih h1 with h2 | h2
          · exact .inl h2
          · exact .inr (by simp [h2])

theorem setWire_self (h : Nat) (m : List Nat) : h ∈ setWire E h m := by
  induction m with
  | nil => simp [setWire]
  | cons y l ih =>
    unfold setWire
    split
    · simp
    · split
      · simp
      · simp [ih]

theorem setWire_keep {h x : Nat} {m : List Nat} (hx : x ∈ m) (hw : E.wire x ≠ E.wire h) : x ∈ setWire E h m := by
  induction m with
  | nil => simp at hx
  | cons y l ih =>
    unfold setWire
    split
    · simp [List.mem_cons.1 hx]
    · split
      · rename_i h1 h2
        rcases List.mem_cons.1 hx with rfl | h3
        · exact absurd h2.symm hw
        · simp [h3]
      · rcases List.mem_cons.1 hx with rfl | h3
        · simp
        · simp [ih h3]

theorem setWire_byWire {h : Nat} {m : List Nat} (hm : ByWire E m) : ByWire E (setWire E h m) := by
  induction m with
  | nil => simp [setWire, ByWire]
  | cons y l ih =>
    unfold ByWire at hm ih ⊢
    rw [List.pairwise_cons] at hm
    unfold setWire
    split
    · rename_i h1
      rw [List.pairwise_cons, List.pairwise_cons]
      refine ⟨?_, hm⟩
      intro a ha
      rcases List.mem_cons.1 ha with rfl | ha
      · exact h1
      · exact h1.trans (hm.1 a ha)
    · split
      · rename_i h1 h2
        rw [List.pairwise_cons]
        exact ⟨fun a ha => h2 ▸ hm.1 a ha, hm.2⟩
      · rename_i h1 h2
        rw [List.pairwise_cons]
        refine ⟨?_, ih hm.2⟩
        intro a ha
        rcases mem_setWire E ha with rfl | ha
        · omega
        · exact hm.1 a ha

theorem byWire_unique {m : List Nat} (hm : ByWire E m) {x y : Nat} (hx : x ∈ m) (hy : y ∈ m) (h : E.wire x = E.wire y) : x = y := by
  obtain ⟨i, hi, rfl⟩ := List.getElem_of_mem hx
  obtain ⟨j, hj, rfl⟩ := List.getElem_of_mem hy
  unfold ByWire at hm
  rw [List.pairwise_iff_getElem] at hm
  rcases Nat.lt_trichotomy i j with h1 | h1 | h1
  · have := hm i j hi hj h1; omega
  · subst h1; rfl
  · have := hm j i hj hi h1; omega

/-- the last hit on wire `w` of plane `p`, as a specification: it is in the list and no later hit of the list is on that wire -/
def LastOnWire (hits : List Nat) (p : Nat) (h : Nat) : Prop :=
  ∃ pre post, hits = pre ++ h :: post ∧ E.plane h = p ∧ ∀ x ∈ post, E.plane x = p → E.wire x ≠ E.wire h

theorem planeMap_spec (hits : List Nat) (p : Nat) :
    ByWire E (planeMap E hits p) ∧ (∀ h ∈ planeMap E hits p, h ∈ hits ∧ E.plane h = p) ∧
    (∀ h ∈ planeMap E hits p, LastOnWire E hits p h) ∧
    (∀ h ∈ hits, E.plane h = p → ∃ h' ∈ planeMap E hits p, E.wire h' = E.wire h) := by
  unfold planeMap
  induction hits using List.reverseRecOn with
  | nil => simp [ByWire]
  | append_singleton l h ih =>
    obtain ⟨i1, i2, i3, i4⟩ := ih
    rw [List.foldl_append]
    simp only [List.foldl_cons, List.foldl_nil]
    generalize l.foldl (fun m h => if E.plane h = p then setWire E h m else m) [] = m at *
    by_cases hp : E.plane h = p
    · rw [if_pos hp]
      refine ⟨setWire_byWire E i1, ?_, ?_, ?_⟩
      · intro x hx
        rcases mem_setWire E hx with rfl | hx
        · exact ⟨by simp, hp⟩
        · exact ⟨by simp [(i2 x hx).1], (i2 x hx).2⟩
      · intro x hx
        by_cases hxh : x = h
        · subst hxh
          exact ⟨l, [], by simp, hp, by simp⟩
        · have hxm := (mem_setWire E hx).resolve_left hxh
          obtain ⟨pre, post, h1, h2, h3⟩ := i3 x hxm
          refine ⟨pre, post ++ [h], by rw [h1]; simp, h2, ?_⟩
          intro y hy hyp
          rcases List.mem_append.1 hy with hy | hy
          · exact h3 y hy hyp
          · rw [List.mem_singleton.1 hy]
            intro hw
            exact hxh (byWire_unique E (setWire_byWire E i1) hx (setWire_self E h m) hw.symm)
      · intro x hx hxp
        by_cases hw : E.wire x = E.wire h
        · exact ⟨h, setWire_self E h m, hw.symm⟩
        · rcases List.mem_append.1 hx with hx | hx
          · obtain ⟨y, hy, hyw⟩ := i4 x hx hxp
            exact ⟨y, setWire_keep E hy (by rw [hyw]; exact hw), hyw⟩
          · exact absurd (by rw [List.mem_singleton.1 hx]) hw
    · rw [if_neg hp]
      refine ⟨i1, ?_, ?_, ?_⟩
      · intro x hx; exact ⟨by simp [(i2 x hx).1], (i2 x hx).2⟩
      · intro x hx
        obtain ⟨pre, post, h1, h2, h3⟩ := i3 x hx
        refine ⟨pre, post ++ [h], by rw [h1]; simp, h2, ?_⟩
        intro y hy hyp
        rcases List.mem_append.1 hy with hy | hy
        · exact h3 y hy hyp
        · rw [List.mem_singleton.1 hy] at hyp; exact absurd hyp hp
      · intro x hx hxp
        rcases List.mem_append.1 hx with hx | hx
        · exact i4 x hx hxp
        · rw [List.mem_singleton.1 hx] at hxp; exact absurd hxp hp

/-! ## Choice of the planes -/

theorem pick_spec (n : Nat → Nat) :
    (∃ a b, pick n = (some a, some b) ∧ a < 3 ∧ b < 3 ∧ a ≠ b ∧ 0 < n a ∧ n a ≤ n b ∧
      ∀ q, q < 3 → q ≠ a → q ≠ b → n q ≤ n a) ∨
    (((pick n).1 = none ∨ (pick n).2 = none) ∧ ∀ p q, p < 3 → q < 3 → p ≠ q → n p = 0 ∨ n q = 0) := by
  have hq : ∀ P : Nat → Prop, (∀ q, q < 3 → P q) ↔ P 0 ∧ P 1 ∧ P 2 := by
    intro P
    constructor
    · intro h; exact ⟨h 0 (by omega), h 1 (by omega), h 2 (by omega)⟩
    · rintro ⟨h0, h1, h2⟩ q hq
      match q, hq with
      | 0, _ => exact h0
      | 1, _ => exact h1
      | 2, _ => exact h2
  have hpq : (∀ p q, p < 3 → q < 3 → p ≠ q → n p = 0 ∨ n q = 0) ↔
      (n 0 = 0 ∨ n 1 = 0) ∧ (n 0 = 0 ∨ n 2 = 0) ∧ (n 1 = 0 ∨ n 2 = 0) := by
    constructor
    · intro h
      exact ⟨h 0 1 (by omega) (by omega) (by omega), h 0 2 (by omega) (by omega) (by omega), h 1 2 (by omega) (by omega) (by omega)⟩
    · rintro ⟨h1, h2, h3⟩ p q hp hq hne
      have h : p = 0 ∨ p = 1 ∨ p = 2 := by omega
      have h' : q = 0 ∨ q = 1 ∨ q = 2 := by omega
      rcases h with rfl | rfl | rfl <;> rcases h' with rfl | rfl | rfl <;> first | exact absurd rfl hne | assumption | (apply Or.symm; assumption)
  rw [hpq]
  have key : ∀ a b, a < 3 → b < 3 → a ≠ b → 0 < n a → n a ≤ n b → ((∀ q, q < 3 → q ≠ a → q ≠ b → n q ≤ n a)) →
      pick n = (some a, some b) → (∃ a b, pick n = (some a, some b) ∧ a < 3 ∧ b < 3 ∧ a ≠ b ∧ 0 < n a ∧ n a ≤ n b ∧
      ∀ q, q < 3 → q ≠ a → q ≠ b → n q ≤ n a) := fun a b h1 h2 h3 h4 h5 h6 h7 => ⟨a, b, h7, h1, h2, h3, h4, h5, h6⟩
  have hall : ∀ a b, (∀ q, q < 3 → q ≠ a → q ≠ b → n q ≤ n a) ↔
      ((0 ≠ a → 0 ≠ b → n 0 ≤ n a) ∧ (1 ≠ a → 1 ≠ b → n 1 ≤ n a) ∧ (2 ≠ a → 2 ≠ b → n 2 ≤ n a)) := by
    intro a b; exact hq (fun q => q ≠ a → q ≠ b → n q ≤ n a)
  simp only [hall]
  by_cases h0 : 0 < n 0 <;> by_cases h1 : n 0 < n 1 <;> by_cases h1' : 0 < n 1 <;> by_cases h2 : n 0 < n 2 <;>
    by_cases h3 : n 1 < n 2 <;> by_cases h4 : 0 < n 2 <;> simp (config := {decide := true}) [pick, pickStep, h0, h1, h1', h2, h3, h4] <;> omega

theorem third_spec : ∀ a b, a < 3 → b < 3 → a ≠ b → third a b < 3 ∧ third a b ≠ a ∧ third a b ≠ b := by
  intro a b ha hb hab
  have h := (by decide +kernel : ∀ a b : Fin 3, a ≠ b → third a b < 3 ∧ third a b ≠ a ∧ third a b ≠ b) ⟨a, ha⟩ ⟨b, hb⟩
    (fun h => hab (Fin.mk.inj_iff.1 h))
  exact h

theorem replaceEmpty_spec (m : Nat → List Nat) (a b t : Nat) (hab : a ≠ b) (hta : t ≠ a) (htb : t ≠ b)
    (ha : a < 3) (hb : b < 3) (ht : t < 3) :
    let s := replaceEmpty m a b t
    s.1 ≠ s.2 ∧ s.1 < 3 ∧ s.2 < 3 := by
  unfold replaceEmpty
  dsimp only
  split <;> split <;> simp only <;> refine ⟨?_, ?_, ?_⟩ <;> omega

/-! ## Matching -/

/-- hit `h2` at position `k2` of the second plane may be paired with `h1` if the times agree and it is not in `used` -/
def Free (m2 used : List Nat) (h1 k2 h2 : Nat) : Prop :=
  m2[k2]? = some h2 ∧ h2 ∉ used ∧ |E.time h1 - E.time h2| < c.tmatch

theorem partner_aux (m1 m2 used : List Nat) (k1 h1 : Nat) (l : List (Nat × Nat)) (d0 : R) (o0 : Option Nat) :
    let r := l.foldl (fun s e =>
      if e.1 ∈ used then s
      else if |E.time h1 - E.time e.1| < c.tmatch ∧ mismatch E m1 m2 k1 e.2 < s.1 then (mismatch E m1 m2 k1 e.2, some e.1)
      else s) (d0, o0)
    r.1 ≤ d0 ∧ (∀ e ∈ l, e.1 ∉ used → |E.time h1 - E.time e.1| < c.tmatch → r.1 ≤ mismatch E m1 m2 k1 e.2) ∧
    (r = (d0, o0) ∨ ∃ e ∈ l, e.1 ∉ used ∧ |E.time h1 - E.time e.1| < c.tmatch ∧ r = (mismatch E m1 m2 k1 e.2, some e.1) ∧
      mismatch E m1 m2 k1 e.2 < d0) := by
  induction l generalizing d0 o0 with
  | nil => exact ⟨le_refl _, by simp, .inl rfl⟩
  | cons a l ih =>
    simp only [List.foldl_cons]
    by_cases hu : a.1 ∈ used
    · simp only [if_pos hu]
      obtain ⟨h1', h2, h3⟩ := ih d0 o0
      refine ⟨h1', ?_, ?_⟩
      · intro e he hne ht
        rcases List.mem_cons.1 he with rfl | he
        · exact absurd hu hne
        · exact h2 e he hne ht
      · rcases h3 with h3 | ⟨e, he, h4⟩
        · exact .inl h3
        · exact .inr ⟨e, by simp [he], h4⟩
    · simp only [if_neg hu]
      by_cases hc : |E.time h1 - E.time a.1| < c.tmatch ∧ mismatch E m1 m2 k1 a.2 < d0
      · simp only [if_pos hc]
        obtain ⟨h1', h2, h3⟩ := ih (mismatch E m1 m2 k1 a.2) (some a.1)
        refine ⟨h1'.trans hc.2.le, ?_, ?_⟩
        · intro e he hne ht
          rcases List.mem_cons.1 he with rfl | he
          · exact h1'
          · exact h2 e he hne ht
        · rcases h3 with h3 | ⟨e, he, h4, h5, h6, h7⟩
          · exact .inr ⟨a, by simp, hu, hc.1, h3, hc.2⟩
          · exact .inr ⟨e, by simp [he], h4, h5, h6, h7.trans hc.2⟩
      · simp only [if_neg hc]
        obtain ⟨h1', h2, h3⟩ := ih d0 o0
        refine ⟨h1', ?_, ?_⟩
        · intro e he hne ht
          rcases List.mem_cons.1 he with rfl | he
          · have := not_and.1 hc ht
            exact h1'.trans (not_lt.1 this)
          · exact h2 e he hne ht
        · rcases h3 with h3 | ⟨e, he, h4⟩
          · exact .inl h3
          · exact .inr ⟨e, by simp [he], h4⟩

theorem partner_spec (m1 m2 used : List Nat) (k1 h1 : Nat) :
    let r := partner E c m1 m2 used k1 h1
    (r = (c.bigD, none) ∧ ∀ k2 h2, Free E c m2 used h1 k2 h2 → c.bigD ≤ mismatch E m1 m2 k1 k2) ∨
    ∃ k2 h2, r = (mismatch E m1 m2 k1 k2, some h2) ∧ Free E c m2 used h1 k2 h2 ∧ mismatch E m1 m2 k1 k2 < c.bigD ∧
      ∀ k h, Free E c m2 used h1 k h → mismatch E m1 m2 k1 k2 ≤ mismatch E m1 m2 k1 k := by
  obtain ⟨_, h2, h3⟩ := partner_aux E c m1 m2 used k1 h1 m2.zipIdx c.bigD none
  have hz : ∀ k h, m2[k]? = some h → (h, k) ∈ m2.zipIdx := fun k h hk => List.mem_zipIdx_iff_getElem?.2 (by simpa using hk)
  unfold partner
  dsimp only at h2 h3 ⊢
  rcases h3 with h3 | ⟨e, he, h4, h5, h6, h7⟩
  · left
    rw [h3] at h2 ⊢
    exact ⟨rfl, fun k2 h hf => h2 (h, k2) (hz k2 h hf.1) hf.2.1 hf.2.2⟩
  · right
    rw [h6] at h2 ⊢
    refine ⟨e.2, e.1, rfl, ⟨?_, h4, h5⟩, h7, fun k h hf => h2 (h, k) (hz k h hf.1) hf.2.1 hf.2.2⟩
    have := List.mem_zipIdx_iff_getElem?.1 he
    simpa using this

/-- is the crossing point usable? -/
def Crosses (h1 h2 : Nat) (y z : R) : Prop := E.cross h1 h2 = some (y, z) ∧ -c.bigC < y ∧ -c.bigC < z

/-- What `Track3D` promises for the hit `h1` at position `k1` of the first plane. `taken` are the hits of the second plane used by
points of smaller wire numbers. Either it makes one point with the best free hit, or none, because no free hit is close enough
or because its wire and that of the best free hit do not cross. -/
def HitDone (m1 m2 : List Nat) (out : List (Pt R)) (k1 h1 : Nat) : Prop :=
  let taken := (out.filter (fun q => decide (E.wire q.h1 < E.wire h1))).map (·.h2)
  (∃ q ∈ out, q.h1 = h1 ∧ ∃ k2, Free E c m2 taken h1 k2 q.h2 ∧ mismatch E m1 m2 k1 k2 < c.smatch ∧
    ∀ k h, Free E c m2 taken h1 k h → mismatch E m1 m2 k1 k2 ≤ mismatch E m1 m2 k1 k) ∨
  ((∀ q ∈ out, q.h1 ≠ h1) ∧
    ((∀ k h, Free E c m2 taken h1 k h → c.smatch ≤ mismatch E m1 m2 k1 k) ∨
     ∃ k2 h2, Free E c m2 taken h1 k2 h2 ∧ (∀ k h, Free E c m2 taken h1 k h → mismatch E m1 m2 k1 k2 ≤ mismatch E m1 m2 k1 k) ∧
      ∀ y z, ¬ Crosses E c h1 h2 y z))

/-- properties of the points made -/
structure Pts (m1 m2 : List Nat) (out : List (Pt R)) : Prop where
  mem1 : ∀ q ∈ out, q.h1 ∈ m1
  mem2 : ∀ q ∈ out, q.h2 ∈ m2
  time : ∀ q ∈ out, |E.time q.h1 - E.time q.h2| < c.tmatch
  cross : ∀ q ∈ out, Crosses E c q.h1 q.h2 q.y q.z
  x : ∀ q ∈ out, q.x = E.x q.h2
  order : (out.map (·.h1)).Pairwise (fun a b => E.wire a < E.wire b)
  once : (out.map (·.h2)).Nodup

theorem matchLoop_spec (m1 m2 : List Nat) (hw : ByWire E m1) (hs : c.smatch ≤ c.bigD)
    (pre rest : List (Nat × Nat)) (hsplit : m1.zipIdx = pre ++ rest) (out : List (Pt R)) (used : List Nat)
    (hu : used = (out.map (·.h2)).reverse) (hp : Pts E c m1 m2 out)
    (hin : ∀ q ∈ out, ∃ e ∈ pre, e.1 = q.h1) (hd : ∀ e ∈ pre, HitDone E c m1 m2 out e.2 e.1) :
    ∃ out', matchLoop E c m1 m2 rest used out = .ok out' ∧ Pts E c m1 m2 out' ∧
      ∀ e ∈ m1.zipIdx, HitDone E c m1 m2 out' e.2 e.1 := by
  induction rest generalizing pre out used with
  | nil =>
    refine ⟨out, rfl, hp, ?_⟩
    rw [hsplit, List.append_nil]
    exact hd
  | cons e rest ih =>
    obtain ⟨h1, k1⟩ := e
    have hmem : (h1, k1) ∈ m1.zipIdx := by rw [hsplit]; simp
    have hget : m1[k1]? = some h1 := by
      have := List.mem_zipIdx_iff_getElem?.1 hmem
      simpa using this
    have hlt : ∀ e ∈ pre, E.wire e.1 < E.wire h1 := by
      intro e he
      have hz : m1.zipIdx.Pairwise (fun a b => E.wire a.1 < E.wire b.1) := by
        have : (m1.zipIdx.map Prod.fst).Pairwise (fun a b => E.wire a < E.wire b) := by
          rw [List.zipIdx_map_fst]; exact hw
        exact (List.pairwise_map (f := Prod.fst) (R := fun a b => E.wire a < E.wire b)).1 this
      rw [hsplit, List.pairwise_append] at hz
      exact hz.2.2 e he (h1, k1) (by simp)
    have hall : ∀ q ∈ out, E.wire q.h1 < E.wire h1 := by
      intro q hq
      obtain ⟨e, he, h⟩ := hin q hq
      rw [← h]; exact hlt e he
    have htaken : (out.filter (fun q => decide (E.wire q.h1 < E.wire h1))).map (·.h2) = out.map (·.h2) := by
      rw [List.filter_eq_self.2]
      intro q hq; simpa using hall q hq
    have hfree : ∀ k h, Free E c m2 used h1 k h ↔ Free E c m2 (out.map (·.h2)) h1 k h := by
      intro k h; unfold Free; rw [hu]; simp
    have hno : ∀ q ∈ out, q.h1 ≠ h1 := by
      intro q hq h
      have := hall q hq
      rw [h] at this; omega
    -- skipping a hit
    have skip : ((∀ k h, Free E c m2 (out.map (·.h2)) h1 k h → c.smatch ≤ mismatch E m1 m2 k1 k) ∨
        ∃ k2 h2, Free E c m2 (out.map (·.h2)) h1 k2 h2 ∧ (∀ k h, Free E c m2 (out.map (·.h2)) h1 k h → mismatch E m1 m2 k1 k2 ≤ mismatch E m1 m2 k1 k) ∧
          ∀ y z, ¬ Crosses E c h1 h2 y z) →
        ∃ out', matchLoop E c m1 m2 rest used out = .ok out' ∧ Pts E c m1 m2 out' ∧
          ∀ e ∈ m1.zipIdx, HitDone E c m1 m2 out' e.2 e.1 := by
      intro hreason
      refine ih (pre ++ [(h1, k1)]) (by rw [hsplit]; simp) out used hu hp ?_ ?_
      · intro q hq
        obtain ⟨e, he, h⟩ := hin q hq
        exact ⟨e, by simp [he], h⟩
      · intro e he
        rcases List.mem_append.1 he with he | he
        · exact hd e he
        · rw [List.mem_singleton.1 he]
          unfold HitDone
          rw [htaken]
          exact .inr ⟨hno, hreason⟩
    unfold matchLoop
    rcases partner_spec E c m1 m2 used k1 h1 with ⟨hr, hall2⟩ | ⟨k2, h2, hr, hf, hlt2, hmin⟩
    · simp only [hr]
      rw [if_neg (not_lt.2 hs)]
      exact skip (.inl fun k h hf' => hs.trans (hall2 k h ((hfree k h).2 hf')))
    · simp only [hr]
      by_cases hsm : mismatch E m1 m2 k1 k2 < c.smatch
      · rw [if_pos hsm]
        have hreject : (∀ y z, ¬ Crosses E c h1 h2 y z) → ∃ out', matchLoop E c m1 m2 rest used out = .ok out' ∧ Pts E c m1 m2 out' ∧
            ∀ e ∈ m1.zipIdx, HitDone E c m1 m2 out' e.2 e.1 := fun h =>
          skip (.inr ⟨k2, h2, (hfree _ _).1 hf, fun k h' hf' => hmin k h' ((hfree _ _).2 hf'), h⟩)
        cases hc : E.cross h1 h2 with
        | none =>
          simp only
          exact hreject (fun y z h => by rw [h.1] at hc; cases hc)
        | some yz =>
          obtain ⟨y, z⟩ := yz
          simp only
          by_cases hb : -c.bigC < y ∧ -c.bigC < z
          · rw [if_pos hb]
            have hcr : Crosses E c h1 h2 y z := ⟨hc, hb.1, hb.2⟩
            have hf' := (hfree _ _).1 hf
            refine ih (pre ++ [(h1, k1)]) (by rw [hsplit]; simp) (out ++ [⟨E.x h2, y, z, h1, h2⟩]) (h2 :: used) ?_ ?_ ?_ ?_
            · rw [hu]; simp
            · refine ⟨?_, ?_, ?_, ?_, ?_, ?_, ?_⟩
              · intro q hq
                rcases List.mem_append.1 hq with hq | hq
                · exact hp.mem1 q hq
                · rw [List.mem_singleton.1 hq]; exact List.mem_of_getElem? hget
              · intro q hq
                rcases List.mem_append.1 hq with hq | hq
                · exact hp.mem2 q hq
                · rw [List.mem_singleton.1 hq]; exact List.mem_of_getElem? hf.1
              · intro q hq
                rcases List.mem_append.1 hq with hq | hq
                · exact hp.time q hq
                · rw [List.mem_singleton.1 hq]; exact hf.2.2
              · intro q hq
                rcases List.mem_append.1 hq with hq | hq
                · exact hp.cross q hq
                · rw [List.mem_singleton.1 hq]; exact hcr
              · intro q hq
                rcases List.mem_append.1 hq with hq | hq
                · exact hp.x q hq
                · rw [List.mem_singleton.1 hq]
              · rw [List.map_append, List.pairwise_append]
                refine ⟨hp.order, by simp, ?_⟩
                intro a ha b hb'
                obtain ⟨q, hq, rfl⟩ := List.mem_map.1 ha
                simp only [List.map_cons, List.map_nil, List.mem_singleton] at hb'
                rw [hb']; exact hall q hq
              · rw [List.map_append, List.nodup_append]
                refine ⟨hp.once, by simp, ?_⟩
                intro a ha b hb' hab
                simp only [List.map_cons, List.map_nil, List.mem_singleton] at hb'
                subst hab
                rw [hb'] at ha
                exact hf'.2.1 ha
            · intro q hq
              rcases List.mem_append.1 hq with hq | hq
              · obtain ⟨e, he, h⟩ := hin q hq
                exact ⟨e, by simp [he], h⟩
              · rw [List.mem_singleton.1 hq]; exact ⟨(h1, k1), by simp, rfl⟩
            · intro e he
              rcases List.mem_append.1 he with he | he
              · have h := hd e he
                have hsame : ((out ++ [(⟨E.x h2, y, z, h1, h2⟩ : Pt R)]).filter (fun q => decide (E.wire q.h1 < E.wire e.1))).map (·.h2) =
                    (out.filter (fun q => decide (E.wire q.h1 < E.wire e.1))).map (·.h2) := by
                  rw [List.filter_append, List.filter_cons_of_neg (by simpa using (hlt e he).le), List.filter_nil, List.append_nil]
                unfold HitDone at h ⊢
                rw [hsame]
                rcases h with ⟨q, hq, h5⟩ | ⟨h5, h6⟩
                · exact .inl ⟨q, by simp [hq], h5⟩
                · refine .inr ⟨?_, h6⟩
                  intro q hq
                  rcases List.mem_append.1 hq with hq | hq
                  · exact h5 q hq
                  · rw [List.mem_singleton.1 hq]
                    intro h7
                    have := hlt e he
                    simp only at h7
                    rw [← h7] at this
                    omega
              · rw [List.mem_singleton.1 he]
                have hsame : ((out ++ [(⟨E.x h2, y, z, h1, h2⟩ : Pt R)]).filter (fun q => decide (E.wire q.h1 < E.wire h1))).map (·.h2) = out.map (·.h2) := by
                  rw [List.filter_append, List.filter_cons_of_neg (by simp), List.filter_nil, List.append_nil]
                  exact htaken
                unfold HitDone
                rw [hsame]
                exact .inl ⟨⟨E.x h2, y, z, h1, h2⟩, by simp, rfl, k2, hf', hsm, fun k h' hf'' => hmin k h' ((hfree _ _).2 hf'')⟩
          · rw [if_neg hb]
            refine hreject (fun y' z' h => hb ?_)
            have := h.1
            rw [hc] at this
            cases this
            exact h.2
      · rw [if_neg hsm]
        exact skip (.inl fun k h hf' => (not_lt.1 hsm).trans (hmin k h ((hfree k h).2 hf')))

/-- the hits of one plane as `Track3D` uses them: hits of the input, all on the plane, one per wire, the last of the input -/
structure PlaneHits (hits : List Nat) (p : Nat) (m : List Nat) : Prop where
  byWire : ByWire E m
  last : ∀ h ∈ m, LastOnWire E hits p h

theorem selected_spec (hits : List Nat) (a b p : Nat) : PlaneHits E hits p (selected E c hits a b p) := by
  obtain ⟨h1, _, h3, _⟩ := planeMap_spec E hits p
  unfold selected
  dsimp only
  split
  · exact ⟨List.Pairwise.sublist List.filter_sublist h1, fun h hh => h3 h (List.mem_filter.1 hh).1⟩
  · exact ⟨h1, h3⟩

theorem tMin_le_iff (m : List Nat) (hne : m ≠ []) (hb : ∀ x ∈ m, E.time x ≤ c.bigT) (t : R) :
    tMin E c m ≤ t ↔ ∃ x ∈ m, E.time x ≤ t := by
  have key : ∀ (l : List Nat) (a : R),
      l.foldl (fun a h => if E.time h < a then E.time h else a) a ≤ t ↔ a ≤ t ∨ ∃ x ∈ l, E.time x ≤ t := by
    intro l
    induction l with
    | nil => intro a; simp
    | cons x l ih =>
      intro a
      rw [List.foldl_cons, ih]
      split
      · rename_i hx
        constructor
        · rintro (h | ⟨y, hy, h⟩)
          · exact .inr ⟨x, by simp, h⟩
          · exact .inr ⟨y, by simp [hy], h⟩
        · rintro (h | ⟨y, hy, h⟩)
          · exact .inl (hx.le.trans h)
          · rcases List.mem_cons.1 hy with rfl | hy
            · exact .inl h
            · exact .inr ⟨y, hy, h⟩
      · rename_i hx
        constructor
        · rintro (h | ⟨y, hy, h⟩)
          · exact .inl h
          · exact .inr ⟨y, by simp [hy], h⟩
        · rintro (h | ⟨y, hy, h⟩)
          · exact .inl h
          · rcases List.mem_cons.1 hy with rfl | hy
            · exact .inl ((not_lt.1 hx).trans h)
            · exact .inr ⟨y, hy, h⟩
  unfold tMin
  rw [key]
  constructor
  · rintro (h | h)
    · obtain ⟨x, l, rfl⟩ := List.exists_cons_of_ne_nil hne
      exact ⟨x, by simp, (hb x (by simp)).trans h⟩
    · exact h
  · exact .inr

theorem le_tMax_iff (m : List Nat) (hne : m ≠ []) (hb : ∀ x ∈ m, -c.bigT ≤ E.time x) (t : R) :
    t ≤ tMax E c m ↔ ∃ x ∈ m, t ≤ E.time x := by
  have key : ∀ (l : List Nat) (a : R),
      t ≤ l.foldl (fun a h => if a < E.time h then E.time h else a) a ↔ t ≤ a ∨ ∃ x ∈ l, t ≤ E.time x := by
    intro l
    induction l with
    | nil => intro a; simp
    | cons x l ih =>
      intro a
      rw [List.foldl_cons, ih]
      split
      · rename_i hx
        constructor
        · rintro (h | ⟨y, hy, h⟩)
          · exact .inr ⟨x, by simp, h⟩
          · exact .inr ⟨y, by simp [hy], h⟩
        · rintro (h | ⟨y, hy, h⟩)
          · exact .inl (h.trans hx.le)
          · rcases List.mem_cons.1 hy with rfl | hy
            · exact .inl h
            · exact .inr ⟨y, hy, h⟩
      · rename_i hx
        constructor
        · rintro (h | ⟨y, hy, h⟩)
          · exact .inl h
          · exact .inr ⟨y, by simp [hy], h⟩
        · rintro (h | ⟨y, hy, h⟩)
          · exact .inl h
          · rcases List.mem_cons.1 hy with rfl | hy
            · exact .inl (h.trans (not_lt.1 hx))
            · exact .inr ⟨y, hy, h⟩
  unfold tMax
  rw [key]
  constructor
  · rintro (h | h)
    · obtain ⟨x, l, rfl⟩ := List.exists_cons_of_ne_nil hne
      exact ⟨x, by simp, h.trans (hb x (by simp))⟩
    · exact h
  · exact .inr

/-- **C169 (partial), the common time range**: a hit is kept for the matching exactly when, up to the tolerance, it is
neither earlier than every hit nor later than every hit of either of the two planes. -/
theorem C169_range_partial [IsStrictOrderedRing R] (ma mb : List Nat) (ha : ma ≠ []) (hb : mb ≠ [])
    (hba : ∀ x ∈ ma, -c.bigT ≤ E.time x ∧ E.time x ≤ c.bigT) (hbb : ∀ x ∈ mb, -c.bigT ≤ E.time x ∧ E.time x ≤ c.bigT) (h : Nat) :
    inRange E c ma mb h = true ↔
      ∀ m ∈ [ma, mb], (∃ x ∈ m, E.time x - c.tmatch ≤ E.time h) ∧ (∃ x ∈ m, E.time h ≤ E.time x + c.tmatch) := by
  have e1 : ∀ m, m ≠ [] → (∀ x ∈ m, -c.bigT ≤ E.time x ∧ E.time x ≤ c.bigT) →
      (tMin E c m - c.tmatch ≤ E.time h ↔ ∃ x ∈ m, E.time x - c.tmatch ≤ E.time h) := by
    intro m hm hbm
    rw [sub_le_iff_le_add, tMin_le_iff E c m hm (fun x hx => (hbm x hx).2)]
    simp only [sub_le_iff_le_add]
  have e2 : ∀ m, m ≠ [] → (∀ x ∈ m, -c.bigT ≤ E.time x ∧ E.time x ≤ c.bigT) →
      (E.time h ≤ tMax E c m + c.tmatch ↔ ∃ x ∈ m, E.time h ≤ E.time x + c.tmatch) := by
    intro m hm hbm
    rw [← sub_le_iff_le_add, le_tMax_iff E c m hm (fun x hx => (hbm x hx).1)]
    simp only [sub_le_iff_le_add]
  simp only [List.forall_mem_cons, List.not_mem_nil, false_imp_iff, implies_true, and_true]
  rw [← e1 ma ha hba, ← e1 mb hb hbb, ← e2 ma ha hba, ← e2 mb hb hbb]
  unfold inRange
  rw [Bool.not_eq_true', Bool.or_eq_false_iff, decide_eq_false_iff_not, decide_eq_false_iff_not, not_lt, not_lt]
  have h1 : max (tMin E c ma) (tMin E c mb) - c.tmatch ≤ E.time h ↔
      tMin E c ma - c.tmatch ≤ E.time h ∧ tMin E c mb - c.tmatch ≤ E.time h := by
    simp only [sub_le_iff_le_add, max_le_iff]
  have h2 : E.time h ≤ min (tMax E c ma) (tMax E c mb) + c.tmatch ↔
      E.time h ≤ tMax E c ma + c.tmatch ∧ E.time h ≤ tMax E c mb + c.tmatch := by
    simp only [← sub_le_iff_le_add, le_min_iff]
  rw [h1, h2]
  tauto


/-- **C169 (partial)** For every list of hits on planes 0-2: `Track3D` makes points from two different planes, each point of exactly one hit
of either plane, with times that agree within the cut and wires that cross at the point's y and z; no hit is used twice; only
the last hit on a wire is used; and every hit of the first plane either makes a point with the best free hit of the second or
none can be made (`HitDone`). The only exception is undefined behaviour when plane 0 has no hits left
(`C169_plane0_refuted`). -/
theorem C169_points_partial (hits : List Nat) (hpl : ∀ h ∈ hits, E.plane h < 3) (hs : c.smatch ≤ c.bigD) :
    track3D E c hits = .ok [] ∨
    (track3D E c hits = .ub ∧ ∃ a b, selected E c hits a b 0 = [] ∧ ∃ p q, p ≠ q ∧ p ≠ 0 ∧ q ≠ 0 ∧
      selected E c hits a b p ≠ [] ∧ selected E c hits a b q ≠ []) ∨
    ∃ p q m1 m2 out, track3D E c hits = .ok out ∧ p < 3 ∧ q < 3 ∧ p ≠ q ∧ PlaneHits E hits p m1 ∧ PlaneHits E hits q m2 ∧
      Pts E c m1 m2 out ∧ ∀ (k1 : Nat) (h1 : Nat), m1[k1]? = some h1 → HitDone E c m1 m2 out k1 h1 := by
  unfold track3D
  rw [if_pos (by simpa using hpl)]
  rcases pick_spec (fun p => (planeMap E hits p).length) with ⟨a, b, hpick, ha, hb, hab, _⟩ | ⟨hnone, _⟩
  · rw [hpick]
    simp only
    obtain ⟨t1, t2, t3⟩ := third_spec a b ha hb hab
    obtain ⟨r1, r2, r3⟩ := replaceEmpty_spec (selected E c hits a b) a b (third a b) hab t2 t3 ha hb t1
    generalize replaceEmpty (selected E c hits a b) a b (third a b) = s at *
    split
    · exact .inl rfl
    · rename_i hne
      obtain ⟨n1, n2⟩ := not_or.1 hne
      split
      · rename_i h0
        refine .inr (.inl ⟨rfl, a, b, h0, s.1, s.2, r1, ?_, ?_, n1, n2⟩)
        · intro h; rw [h] at n1; exact n1 h0
        · intro h; rw [h] at n2; exact n2 h0
      · right; right
        have h1 := selected_spec E c hits a b s.1
        have h2 := selected_spec E c hits a b s.2
        obtain ⟨out, e1, e2, e3⟩ := matchLoop_spec E c (selected E c hits a b s.1) (selected E c hits a b s.2) h1.byWire hs [] _ rfl [] [] rfl
          ⟨by simp, by simp, by simp, by simp, by simp, by simp, by simp⟩ (by simp) (by simp)
        refine ⟨s.1, s.2, _, _, out, e1, r2, r3, r1, h1, h2, e2, ?_⟩
        intro k h hk
        exact e3 (h, k) (List.mem_zipIdx_iff_getElem?.2 (by simpa using hk))
  · left
    split
    · rename_i a b h
      rw [h] at hnone
      simp at hnone
    · rfl

/-- **C169** (one hit per wire) `Track3D` keeps, per plane, exactly one hit for each wire number hit: the last one of the input.
In particular hits on equal wire numbers of different TPCs displace each other. -/
theorem C169_one_hit_per_wire (hits : List Nat) (p : Nat) (h : Nat) (hm : h ∈ hits) (hp : E.plane h = p) :
    ∃! h', h' ∈ planeMap E hits p ∧ E.wire h' = E.wire h := by
  obtain ⟨h1, _, _, h4⟩ := planeMap_spec E hits p
  obtain ⟨x, hx, hw⟩ := h4 h hm hp
  exact ⟨x, ⟨hx, hw⟩, fun y hy => byWire_unique E h1 hy.1 hx (hy.2.trans hw.symm)⟩

end

/-! ## The two defects of `Track3D` -/

/-- two hits on planes 1 and 2 each, at equal times, all wires crossing -/
def envNoPlane0 : Env Rat :=
  { plane := fun h => h / 2 + 1, wire := fun h => h, time := fun h => ((h % 2 : Nat) : Rat), x := fun _ => 0,
    cross := fun _ _ => some (0, 0), hyp := fun a b => |a| + |b|, wirePitch := 1, tickLen := 1 }

/-- **C169 (refuted)** A track without hits on plane 0 but with good hits on the other two planes is undefined behaviour: the wire
pitch is taken from the first hit of plane 0. -/
theorem C169_plane0_refuted : track3D envNoPlane0 ⟨5, 3, 1000000000, 10000000000, 1000000000⟩ [0, 1, 2, 3] = .ub := by
  decide +kernel

/-- hits 0, 1 on wires 1000, 1001 of plane 0 at times 0, 1; hits 2, 3 on wires 1000, 1001 of plane 1 at times 1, 0: the same
track seen with opposite wire order. `hyp` is any function between the larger leg and the sum of the legs. -/
def envRev (hyp : Rat → Rat → Rat) : Env Rat :=
  { plane := fun h => h / 2, wire := fun h => 1000 + h % 2, time := fun h => if h = 1 ∨ h = 2 then 1 else 0, x := fun _ => 0,
    cross := fun _ _ => some (0, 0), hyp := hyp, wirePitch := 1, tickLen := 1 }

/-- **C169 (refuted)** "Hits at equal path fractions are matched": for a track whose wires run in opposite order in the two planes the
total length is computed with wire and time of the first hit exchanged, the flipped lengths are off by hundreds of cm, and no
point at all is made from two perfectly matching pairs of hits (the cut is 3 cm). -/
theorem C169_swapped_length_refuted (hyp : Rat → Rat → Rat) (hlo : ∀ a b, |a| ≤ hyp a b) (hhi : ∀ a b, hyp a b ≤ |a| + |b|)
    (cc : Cfg Rat) (hcc : cc = ⟨5, 3, 1000000000, 10000000000, 1000000000⟩) :
    track3D (envRev hyp) cc [0, 1, 2, 3] = .ok [] := by
  have hsel0 : selected (envRev hyp) cc [0, 1, 2, 3] 1 0 0 = [0, 1] := by
    subst hcc
    norm_num [selected, planeMap, setWire, envRev, inRange, tMin, tMax]
  have hsel1 : selected (envRev hyp) cc [0, 1, 2, 3] 1 0 1 = [2, 3] := by
    subst hcc
    norm_num [selected, planeMap, setWire, envRev, inRange, tMin, tMax]
  have hpick : pick (fun p => (planeMap (envRev hyp) [0, 1, 2, 3] p).length) = (some 1, some 0) := by
    simp [planeMap, setWire, envRev, pick, pickStep]
  have hrev : isRev (envRev hyp) [2, 3] [0, 1] = true := by
    norm_num [isRev, envRev]
  have ht1 : totLen (envRev hyp) [2, 3] = 0 + hyp ((1001 - 1) * 1) ((0 - 1000) * 1) := by
    norm_num [totLen, totLoop, envRev]
  have ht0 : totLen (envRev hyp) [0, 1] = 0 + hyp ((1001 - 0) * 1) ((1 - 1000) * 1) := by
    norm_num [totLen, totLoop, envRev]
  have hl10 : lenTo (envRev hyp) [2, 3] 0 = 0 := by simp [lenTo]
  have hl11 : lenTo (envRev hyp) [2, 3] 1 = 0 + hyp ((-1) * 1) ((1 - 0) * 1) := by
    norm_num [lenTo, envRev]
  have hl00 : lenTo (envRev hyp) [0, 1] 0 = 0 := by simp [lenTo]
  have hl01 : lenTo (envRev hyp) [0, 1] 1 = 0 + hyp ((-1) * 1) ((0 - 1) * 1) := by
    norm_num [lenTo, envRev]
  norm_num at ht1 ht0 hl11 hl01
  have b1 := hlo 1000 (-1000)
  have b2 := hlo 1001 (-999)
  have b3 := hhi (-1) 1
  have b3' := hlo (-1) 1
  have b4 := hhi (-1) (-1)
  have b4' := hlo (-1) (-1)
  norm_num at b1 b2 b3 b4 b3' b4'
  have hmis : ∀ k1 k2, k1 < 2 → k2 < 2 → 3 ≤ mismatch (envRev hyp) [2, 3] [0, 1] k1 k2 := by
    intro k1 k2 h1 h2
    have hk1 : lenTo (envRev hyp) [2, 3] k1 ≤ 2 := by
      have : k1 = 0 ∨ k1 = 1 := by omega
      rcases this with rfl | rfl
      · rw [hl10]; norm_num
      · rw [hl11]; exact b3
    have hk2 : lenTo (envRev hyp) [0, 1] k2 ≤ 2 := by
      have : k2 = 0 ∨ k2 = 1 := by omega
      rcases this with rfl | rfl
      · rw [hl00]; norm_num
      · rw [hl01]; exact b4
    unfold mismatch
    rw [hrev]
    simp only [if_true]
    generalize lenTo (envRev hyp) [2, 3] k1 = x at *
    generalize lenTo (envRev hyp) [0, 1] k2 = y at *
    rw [ht1, ht0]
    generalize hyp 1000 (-1000) = T1 at *
    generalize hyp 1001 (-999) = T0 at *
    have hT0 : (0 : Rat) < T0 := by linarith
    have e : T1 / T0 * (T0 - y) = T1 - T1 * (y / T0) := by field_simp
    have hy : y / T0 ≤ 1 / 2 := by
      rw [div_le_iff₀ hT0]; linarith
    have : T1 * (y / T0) ≤ T1 * (1 / 2) := mul_le_mul_of_nonneg_left hy (by linarith)
    rw [e]
    refine le_trans ?_ (le_abs_self _)
    linarith
  unfold track3D
  rw [if_pos (by simp [envRev]), hpick]
  simp only
  have hrep : replaceEmpty (selected (envRev hyp) cc [0, 1, 2, 3] 1 0) 1 0 (third 1 0) = (1, 0) := by
    unfold replaceEmpty; rw [hsel1, hsel0]; rfl
  rw [hrep]
  simp only [hsel0, hsel1]
  rw [if_neg (by simp), if_neg (by simp)]
  have hskip : ∀ k1 h1 l, k1 < 2 → matchLoop (envRev hyp) cc [2, 3] [0, 1] ((h1, k1) :: l) [] [] =
      matchLoop (envRev hyp) cc [2, 3] [0, 1] l [] [] := by
    intro k1 h1 l hk
    rw [matchLoop]
    rw [if_neg]
    rcases partner_spec (envRev hyp) cc [2, 3] [0, 1] [] k1 h1 with ⟨hr, _⟩ | ⟨k2, h2, hr, hf, _⟩
    · rw [hr, hcc]; norm_num
    · rw [hr, hcc]
      have : k2 < 2 := (List.getElem?_eq_some_iff.1 hf.1).1
      exact not_lt.2 (hmis k1 k2 hk this)
  show matchLoop (envRev hyp) cc [2, 3] [0, 1] [(2, 0), (3, 1)] [] [] = .ok []
  rw [hskip 0 2 _ (by norm_num), hskip 1 3 _ (by norm_num)]
  rfl

/-! ## `MakeSPT` -/

section
variable {R : Type} [Field R] [LinearOrder R] [IsStrictOrderedRing R]

theorem nearest_aux (h : R × R) (l : List ((R × R) × Nat)) (d0 : R) (o0 : Option Nat) :
    let r := l.foldl (fun s e => if dist2 h e.1 < s.1 then (dist2 h e.1, some e.2) else s) (d0, o0)
    r.1 ≤ d0 ∧ (∀ e ∈ l, r.1 ≤ dist2 h e.1) ∧ (r = (d0, o0) ∨ ∃ e ∈ l, r = (dist2 h e.1, some e.2) ∧ dist2 h e.1 < d0) := by
  induction l generalizing d0 o0 with
  | nil => exact ⟨le_refl _, by simp, .inl rfl⟩
  | cons a l ih =>
    simp only [List.foldl_cons]
    by_cases hc : dist2 h a.1 < d0
    · simp only [if_pos hc]
      obtain ⟨h1, h2, h3⟩ := ih (dist2 h a.1) (some a.2)
      refine ⟨h1.trans hc.le, ?_, ?_⟩
      · intro e he
        rcases List.mem_cons.1 he with rfl | he
        · exact h1
        · exact h2 e he
      · rcases h3 with h3 | ⟨e, he, h4, h5⟩
        · exact .inr ⟨a, by simp, h3, hc⟩
        · exact .inr ⟨e, by simp [he], h4, h5.trans hc⟩
    · simp only [if_neg hc]
      obtain ⟨h1, h2, h3⟩ := ih d0 o0
      refine ⟨h1, ?_, ?_⟩
      · intro e he
        rcases List.mem_cons.1 he with rfl | he
        · exact h1.trans (not_lt.1 hc)
        · exact h2 e he
      · rcases h3 with h3 | ⟨e, he, h4⟩
        · exact .inl h3
        · exact .inr ⟨e, by simp [he], h4⟩

theorem nearest_spec (big : R) (pr : Proj R) (h : R × R) (hne : pr ≠ []) (hb : ∀ p ∈ pr, dist2 h p < big) :
    ∃ i p, (nearest big pr h).2 = some i ∧ pr[i]? = some p ∧ ∀ q ∈ pr, dist2 h p ≤ dist2 h q := by
  obtain ⟨_, h2, h3⟩ := nearest_aux h pr.zipIdx big none
  unfold nearest
  have hz : ∀ q ∈ pr, ∃ k, (q, k) ∈ pr.zipIdx := by
    intro q hq
    obtain ⟨k, hk, rfl⟩ := List.getElem_of_mem hq
    exact ⟨k, List.mem_zipIdx_iff_getElem?.2 (by simp [hk])⟩
  rcases h3 with h3 | ⟨e, he, h4, h5⟩
  · exfalso
    obtain ⟨q, hq⟩ := List.exists_mem_of_ne_nil pr hne
    obtain ⟨k, hk⟩ := hz q hq
    have := h2 _ hk
    rw [h3] at this
    exact absurd (hb q hq) (not_lt.2 this)
  · rw [h4] at h2 ⊢
    refine ⟨e.2, e.1, rfl, by simpa using List.mem_zipIdx_iff_getElem?.1 he, ?_⟩
    intro q hq
    obtain ⟨k, hk⟩ := hz q hq
    exact h2 _ hk

/-- the code's test for "on the other side" of the hit -/
def otherSide (h p1 p : R × R) : Prop := (h.1 - p1.1) * (h.1 - p.1) + (h.2 - p.2) * (h.2 - p.2) < 0

theorem second_aux (h : R × R) (i : Nat) (p1 : R × R) (l : List ((R × R) × Nat)) (s0 : (R × Option Nat) × (R × Option Nat)) :
    let r := l.foldl (fun s e =>
      if e.2 = i then s
      else
        let d := dist2 h e.1
        let s1 := if d < s.1.1 then (d, some e.2) else s.1
        let dot := (h.1 - p1.1) * (h.1 - e.1.1) + (h.2 - e.1.2) * (h.2 - e.1.2)
        let s2 := if dot < 0 ∧ d < s.2.1 then (d, some e.2) else s.2
        (s1, s2)) s0
    (r.1.1 ≤ s0.1.1 ∧ (∀ e ∈ l, e.2 ≠ i → r.1.1 ≤ dist2 h e.1) ∧
      (r.1 = s0.1 ∨ ∃ e ∈ l, e.2 ≠ i ∧ r.1 = (dist2 h e.1, some e.2) ∧ dist2 h e.1 < s0.1.1)) ∧
    (r.2.1 ≤ s0.2.1 ∧ (∀ e ∈ l, e.2 ≠ i → otherSide h p1 e.1 → r.2.1 ≤ dist2 h e.1) ∧
      (r.2 = s0.2 ∨ ∃ e ∈ l, e.2 ≠ i ∧ otherSide h p1 e.1 ∧ r.2 = (dist2 h e.1, some e.2) ∧ dist2 h e.1 < s0.2.1)) := by
  induction l generalizing s0 with
  | nil => exact ⟨⟨le_refl _, by simp, .inl rfl⟩, ⟨le_refl _, by simp, .inl rfl⟩⟩
  | cons a l ih =>
    simp only [List.foldl_cons]
    by_cases hi : a.2 = i
    · simp only [if_pos hi]
      obtain ⟨⟨h1, h2, h3⟩, ⟨k1, k2, k3⟩⟩ := ih s0
      refine ⟨⟨h1, ?_, ?_⟩, ⟨k1, ?_, ?_⟩⟩
      · intro e he hne
        rcases List.mem_cons.1 he with rfl | he
        · exact absurd hi hne
        · exact h2 e he hne
      · rcases h3 with h3 | ⟨e, he, h4⟩
        · exact .inl h3
        · exact .inr ⟨e, by simp [he], h4⟩
      · intro e he hne ho
        rcases List.mem_cons.1 he with rfl | he
        · exact absurd hi hne
        · exact k2 e he hne ho
      · rcases k3 with h3 | ⟨e, he, h4⟩
        · exact .inl h3
        · exact .inr ⟨e, by simp [he], h4⟩
    · simp only [if_neg hi]
      obtain ⟨⟨h1, h2, h3⟩, ⟨k1, k2, k3⟩⟩ := ih
        (if dist2 h a.1 < s0.1.1 then (dist2 h a.1, some a.2) else s0.1,
         if (h.1 - p1.1) * (h.1 - a.1.1) + (h.2 - a.1.2) * (h.2 - a.1.2) < 0 ∧ dist2 h a.1 < s0.2.1 then (dist2 h a.1, some a.2) else s0.2)
      refine ⟨?_, ?_⟩
      · by_cases hc : dist2 h a.1 < s0.1.1
        · simp only [if_pos hc] at h1 h2 h3 ⊢
          refine ⟨h1.trans hc.le, ?_, ?_⟩
          · intro e he hne
            rcases List.mem_cons.1 he with rfl | he
            · exact h1
            · exact h2 e he hne
          · rcases h3 with h3 | ⟨e, he, h4, h5, h6⟩
            · exact .inr ⟨a, by simp, hi, h3, hc⟩
            · exact .inr ⟨e, by simp [he], h4, h5, h6.trans hc⟩
        · simp only [if_neg hc] at h1 h2 h3 ⊢
          refine ⟨h1, ?_, ?_⟩
          · intro e he hne
            rcases List.mem_cons.1 he with rfl | he
            · exact h1.trans (not_lt.1 hc)
            · exact h2 e he hne
          · rcases h3 with h3 | ⟨e, he, h4⟩
            · exact .inl h3
            · exact .inr ⟨e, by simp [he], h4⟩
      · by_cases hc : (h.1 - p1.1) * (h.1 - a.1.1) + (h.2 - a.1.2) * (h.2 - a.1.2) < 0 ∧ dist2 h a.1 < s0.2.1
        · simp only [if_pos hc] at k1 k2 k3 ⊢
          refine ⟨k1.trans hc.2.le, ?_, ?_⟩
          · intro e he hne ho
            rcases List.mem_cons.1 he with rfl | he
            · exact k1
            · exact k2 e he hne ho
          · rcases k3 with h3 | ⟨e, he, h4, h5, h6, h7⟩
            · exact .inr ⟨a, by simp, hi, hc.1, h3, hc.2⟩
            · exact .inr ⟨e, by simp [he], h4, h5, h6, h7.trans hc.2⟩
        · simp only [if_neg hc] at k1 k2 k3 ⊢
          refine ⟨k1, ?_, ?_⟩
          · intro e he hne ho
            rcases List.mem_cons.1 he with rfl | he
            · exact k1.trans (not_lt.1 (not_and.1 hc ho))
            · exact k2 e he hne ho
          · rcases k3 with h3 | ⟨e, he, h4⟩
            · exact .inl h3
            · exact .inr ⟨e, by simp [he], h4⟩

/-- what a hit gets: `i` is a trajectory point nearest to the hit in its plane; `j` is another point, either the nearest of the
others or on the other side of the hit in the wire coordinate and the nearest of those that pass the code's test; `ratio`
puts the foot of the perpendicular from the hit on the line through the two; the direction is that of `i`, or of `j` if that of `i` is null -/
structure HitPosSpec (zeroDir : Nat → Bool) (pr : Proj R) (h : R × R) (x : HitPos R) : Prop where
  ne : x.i ≠ x.j
  points : ∃ p1 p2, pr[x.i]? = some p1 ∧ pr[x.j]? = some p2 ∧
    (∀ q ∈ pr, dist2 h p1 ≤ dist2 h q) ∧
    ((∀ k q, pr[k]? = some q → k ≠ x.i → dist2 h p2 ≤ dist2 h q) ∨ ((h.1 - p1.1) * (h.1 - p2.1) < 0 ∧
      ∀ k q, pr[k]? = some q → k ≠ x.i → otherSide h p1 q → dist2 h p2 ≤ dist2 h q)) ∧
    (h.1 - (p1.1 + x.ratio * (p2.1 - p1.1))) * (p2.1 - p1.1) + (h.2 - (p1.2 + x.ratio * (p2.2 - p1.2))) * (p2.2 - p1.2) = 0
  dir : x.dir = if zeroDir x.i then (if zeroDir x.j then .chord x.i x.j else .at x.j) else .at x.i

theorem sptHit_spec (big : R) (pr : Proj R) (zeroDir : Nat → Bool) (h : R × R) (h2 : 2 ≤ pr.length) (hnd : pr.Nodup)
    (hb : ∀ p ∈ pr, dist2 h p < big) :
    ∃ x, sptHit big pr zeroDir h = .ok (some x) ∧ HitPosSpec zeroDir pr h x := by
  have hne : pr ≠ [] := by intro h0; rw [h0] at h2; simp at h2
  obtain ⟨i, p1, hn, hp1, hmin⟩ := nearest_spec big pr h hne hb
  unfold sptHit
  rw [hn]
  simp only [hp1]
  obtain ⟨⟨_, s2, s3⟩, ⟨_, t2, t3⟩⟩ := second_aux h i p1 pr.zipIdx ((big, none), (big, none))
  unfold second
  dsimp only at s2 s3 t2 t3 ⊢
  have hz : ∀ k q, pr[k]? = some q → (q, k) ∈ pr.zipIdx := fun k q hk => List.mem_zipIdx_iff_getElem?.2 (by simpa using hk)
  generalize hr : (pr.zipIdx.foldl (fun s e =>
      if e.2 = i then s
      else
        (if dist2 h e.1 < s.1.1 then (dist2 h e.1, some e.2) else s.1,
         if (h.1 - p1.1) * (h.1 - e.1.1) + (h.2 - e.1.2) * (h.2 - e.1.2) < 0 ∧ dist2 h e.1 < s.2.1 then (dist2 h e.1, some e.2) else s.2))
      (((big, none), (big, none)) : (R × Option Nat) × (R × Option Nat))) = r at *
  -- the second point
  have hsec : ∃ j p2, r.2.2.or r.1.2 = some j ∧ j ≠ i ∧ pr[j]? = some p2 ∧
      ((∀ k q, pr[k]? = some q → k ≠ i → dist2 h p2 ≤ dist2 h q) ∨ ((h.1 - p1.1) * (h.1 - p2.1) < 0 ∧
        ∀ k q, pr[k]? = some q → k ≠ i → otherSide h p1 q → dist2 h p2 ≤ dist2 h q)) := by
    rcases t3 with t3 | ⟨e, he, e1, e2, e3, _⟩
    · rcases s3 with s3 | ⟨e, he, e1, e3, _⟩
      · exfalso
        obtain ⟨k, hk1, hk2⟩ : ∃ k, k < pr.length ∧ k ≠ i := by
          by_cases h0 : i = 0
          · exact ⟨1, by omega, by omega⟩
          · exact ⟨0, by omega, fun h => h0 h.symm⟩
        have hq : pr[k]? = some pr[k] := List.getElem?_eq_getElem hk1
        have := s2 (pr[k], k) (hz k _ hq) hk2
        rw [s3] at this
        exact absurd (hb _ (List.getElem_mem hk1)) (not_lt.2 this)
      · rw [t3, e3]
        rw [e3] at s2
        refine ⟨e.2, e.1, rfl, e1, by simpa using List.mem_zipIdx_iff_getElem?.1 he, .inl ?_⟩
        intro k q hk hki
        exact s2 (q, k) (hz k q hk) hki
    · rw [e3]
      rw [e3] at t2
      refine ⟨e.2, e.1, rfl, e1, by simpa using List.mem_zipIdx_iff_getElem?.1 he, .inr ⟨?_, ?_⟩⟩
      · unfold otherSide at e2
        have := mul_self_nonneg (h.2 - e.1.2)
        linarith
      · intro k q hk hki ho
        exact t2 (q, k) (hz k q hk) hki ho
  obtain ⟨j, p2, hj, hji, hp2, hsel⟩ := hsec
  rw [hj]
  simp only [hp2]
  have hp12 : p1 ≠ p2 := by
    intro heq
    subst heq
    have hi' := (List.getElem?_eq_some_iff.1 hp1)
    have hj' := (List.getElem?_eq_some_iff.1 hp2)
    obtain ⟨hi1, hi2⟩ := hi'
    obtain ⟨hj1, hj2⟩ := hj'
    exact hji ((List.Nodup.getElem_inj_iff hnd).1 (hj2.trans hi2.symm))
  have hmag : (p2.1 - p1.1) * (p2.1 - p1.1) + (p2.2 - p1.2) * (p2.2 - p1.2) ≠ 0 := by
    intro h0
    have a1 := mul_self_nonneg (p2.1 - p1.1)
    have a2 := mul_self_nonneg (p2.2 - p1.2)
    have b1 : p2.1 - p1.1 = 0 := mul_self_eq_zero.1 (by linarith)
    have b2 : p2.2 - p1.2 = 0 := mul_self_eq_zero.1 (by linarith)
    exact hp12 (Prod.ext (by linarith) (by linarith))
  rw [if_neg hmag]
  refine ⟨_, rfl, ⟨fun h => hji h.symm, ⟨p1, p2, hp1, hp2, hmin, hsel, ?_⟩, ?_⟩⟩
  · simp only
    generalize hm : (p2.1 - p1.1) * (p2.1 - p1.1) + (p2.2 - p1.2) * (p2.2 - p1.2) = m at *
    have e : ((h.1 - p1.1) * (p2.1 - p1.1) + (h.2 - p1.2) * (p2.2 - p1.2)) / m * m =
        (h.1 - p1.1) * (p2.1 - p1.1) + (h.2 - p1.2) * (p2.2 - p1.2) := div_mul_cancel₀ _ hmag
    generalize ((h.1 - p1.1) * (p2.1 - p1.1) + (h.2 - p1.2) * (p2.2 - p1.2)) / m = t at *
    rw [← hm] at e
    linarith
  · simp only
    by_cases z1 : zeroDir i = true <;> by_cases z2 : zeroDir j = true <;> simp [z1, z2]

/-- **C170 (partial)** If every hit sees at least two trajectory points, all within range and with different projections, `MakeSPT` gives
every hit one position and one direction, in the order of the hits, as specified by `HitPosSpec`. Missing: that a point on
the other side is preferred whenever there is one, which is false (`C170_other_side_refuted`), and trajectories with equal
projections, for which the module throws (`C170_equal_projection_refuted`). -/
theorem C170_positions_partial (big : R) (zeroDir : Nat → Bool) (l : List (Proj R × (R × R)))
    (h : ∀ e ∈ l, 2 ≤ e.1.length ∧ e.1.Nodup ∧ ∀ p ∈ e.1, dist2 e.2 p < big) :
    ∃ r, makeSPT big zeroDir l = .ok r ∧ List.Forall₂ (fun e x => HitPosSpec zeroDir e.1 e.2 x) l r := by
  induction l with
  | nil => exact ⟨[], rfl, .nil⟩
  | cons e l ih =>
    obtain ⟨pr, hh⟩ := e
    obtain ⟨h1, h2, h3⟩ := h (pr, hh) (by simp)
    obtain ⟨x, hx, hs⟩ := sptHit_spec big pr zeroDir hh h1 h2 h3
    obtain ⟨r, hr, hf⟩ := ih (fun e he => h e (by simp [he]))
    refine ⟨x :: r, ?_, .cons hs hf⟩
    rw [makeSPT, hx]
    simp only [hr]
    rfl

/-- **C170** (three dimensions) If the projection to the plane of the hit is affine, the position given to the hit projects exactly
onto the foot of the perpendicular of `HitPosSpec`. -/
theorem C170_projects_to_foot (a b : Fin 3 → R) (a0 b0 : R) (P : Nat → Fin 3 → R) (i j : Nat) (t : R) :
    let proj := fun p : Fin 3 → R => (a0 + ∑ k, a k * p k, b0 + ∑ k, b k * p k)
    proj (fun k => P i k + t * (P j k - P i k)) =
      ((proj (P i)).1 + t * ((proj (P j)).1 - (proj (P i)).1), (proj (P i)).2 + t * ((proj (P j)).2 - (proj (P i)).2)) := by
  simp only [Fin.sum_univ_three, Prod.mk.injEq]
  constructor <;> ring

/-- **C170 (refuted)** "The second point is on the other side of the hit if there is such a point": points at times 0, 1, 10 of one
wire and a hit at time 2: nearest is the point at 1; the point at 10 is on the other side, but the point at 0 is taken, and the
hit position is extrapolated. -/
theorem C170_other_side_refuted :
    ∃ x, sptHit (1000 : Rat) [(0, 0), (0, 1), (0, 10)] (fun _ => false) (0, 2) = .ok (some x) ∧ x.i = 1 ∧ x.j = 0 ∧ x.ratio < 0 :=
  ⟨⟨1, 0, -1, .at 1⟩, by decide +kernel, rfl, rfl, by norm_num⟩

/-- **C170 (refuted)** Two different trajectory points that project onto the same place in the plane of a hit (they differ along the
wire) make the whole module throw. -/
theorem C170_equal_projection_refuted (big : R) (p h : R × R) (z : Nat → Bool) (l : List (Proj R × (R × R))) (hb : dist2 h p < big)
    : makeSPT big z (([p, p], h) :: l) = .throw := by
  have : sptHit big [p, p] z h = .throw := by
    have h0 : ¬ (dist2 h p < dist2 h p) := lt_irrefl _
    unfold sptHit
    have hn : (nearest big [p, p] h).2 = some 0 := by
      simp [nearest, hb]
    rw [hn]
    simp only [List.getElem?_cons_zero]
    have hs : (second big [p, p] h 0 p).2.2.or (second big [p, p] h 0 p).1.2 = some 1 := by
      simp only [second, List.zipIdx_cons, List.zipIdx_nil, List.foldl_cons, List.foldl_nil, if_true, hb]
      simp only [Nat.zero_add, one_ne_zero, if_false, and_true]
      split <;> rfl
    rw [hs]
    simp
  rw [makeSPT, this]

omit [IsStrictOrderedRing R] in
/-- **C169 (refuted)** With `SPTAlg = 1` and full output (`TrajOnly` off) every hit list for which `Track3D` makes a point is undefined
behaviour: the projections of the trajectory were never computed. -/
theorem C169_sptalg1_refuted (E : Env R) (c : Cfg R) (hits : List Nat) (pts : List (Pt R)) (h : track3D E c hits = .ok pts)
    (hne : pts ≠ []) : sptReco1 E c false hits = .ub ∧ sptReco1 E c true hits = .ok pts := by
  unfold sptReco1
  rw [h]
  simp [hne]

end

/-! ## Clean-up -/

/-- **C174** Removing repeated points keeps position and direction paired, in order, leaves no two equal neighbours, keeps every
position and the last point, and changes nothing if there are no equal neighbours. -/
theorem C174_drop_repeats {α β : Type} [DecidableEq α] (l : List (α × β)) :
    (dropRepeats l).Sublist l ∧ (dropRepeats l).IsChain (fun a b => a.1 ≠ b.1) ∧
    (∀ p ∈ l, ∃ q ∈ dropRepeats l, q.1 = p.1) ∧ (dropRepeats l).getLast? = l.getLast? ∧
    (l.IsChain (fun a b => a.1 ≠ b.1) → dropRepeats l = l) := by
  have key : ∀ (l : List (α × β)) (a : α × β), (dropRepeats (a :: l)).Sublist (a :: l) ∧
      (dropRepeats (a :: l)).IsChain (fun a b => a.1 ≠ b.1) ∧ (∀ p ∈ a :: l, ∃ q ∈ dropRepeats (a :: l), q.1 = p.1) ∧
      (dropRepeats (a :: l)).getLast? = (a :: l).getLast? ∧
      ((a :: l).IsChain (fun a b => a.1 ≠ b.1) → dropRepeats (a :: l) = a :: l) ∧
      ∃ q r, dropRepeats (a :: l) = q :: r ∧ q.1 = a.1 := by
    intro l
    induction l with
    | nil => intro a; simp [dropRepeats]
    | cons b l ih =>
      intro a
      obtain ⟨h1, h2, h3, h4, h5, q, r, h6, h7⟩ := ih b
      by_cases hab : b.1 = a.1
      · rw [dropRepeats, if_pos hab]
        refine ⟨h1.cons _, h2, ?_, ?_, ?_, q, r, h6, h7.trans hab⟩
        · intro p hp
          rcases List.mem_cons.1 hp with rfl | hp
          · exact ⟨q, by rw [h6]; simp, h7.trans hab⟩
          · exact h3 p hp
        · rw [h4]; simp
        · intro hc
          rw [List.isChain_cons_cons] at hc
          exact absurd hab.symm hc.1
      · rw [dropRepeats, if_neg hab]
        refine ⟨h1.cons₂ _, ?_, ?_, ?_, ?_, a, _, rfl, rfl⟩
        · rw [h6] at h2 ⊢
          rw [List.isChain_cons_cons]
          exact ⟨fun h => hab (h7.symm.trans h.symm), h2⟩
        · intro p hp
          rcases List.mem_cons.1 hp with rfl | hp
          · exact ⟨p, by simp, rfl⟩
          · obtain ⟨q', hq', h8⟩ := h3 p hp
            exact ⟨q', by simp [hq'], h8⟩
        · rw [h6] at h4 ⊢
          simpa using h4
        · intro hc
          rw [List.isChain_cons_cons] at hc
          rw [h5 hc.2]
  cases l with
  | nil => simp [dropRepeats]
  | cons a l =>
    obtain ⟨h1, h2, h3, h4, h5, _⟩ := key l a
    exact ⟨h1, h2, h3, h4, h5⟩

/-! ## Concrete cases -/

/-- three hits on planes 0 and 1 each, all matched in order -/
def envGood : Env Rat :=
  { plane := fun h => h / 3, wire := fun h => h, time := fun h => 3 * ((h % 3 : Nat) : Rat), x := fun h => h,
    cross := fun a b => some ((a : Rat), (b : Rat)), hyp := fun a b => |a| + |b|, wirePitch := 1, tickLen := 1 }

example : ∃ out, track3D envGood ⟨2, 3, 1000000000, 10000000000, 1000000000⟩ [0, 1, 2, 3, 4, 5] = .ok out ∧
    out.map (fun q => (q.h1, q.h2)) = [(3, 0), (4, 1), (5, 2)] :=
  ⟨[⟨0, 3, 0, 3, 0⟩, ⟨1, 4, 1, 4, 1⟩, ⟨2, 5, 2, 5, 2⟩], by decide +kernel, by decide +kernel⟩

example : sptReco1 envGood ⟨2, 3, 1000000000, 10000000000, 1000000000⟩ false [0, 1, 2, 3, 4, 5] = .ub := by decide +kernel

example : ∃ x, sptHit (1000 : Rat) [(0, 0), (1, 1), (5, 5)] (fun _ => false) (2, 2) = .ok (some x) ∧ x.i = 1 ∧ x.j = 0 :=
  ⟨⟨1, 0, -1, .at 1⟩, by decide +kernel, rfl, rfl⟩

example : dropRepeats [(1, 'a'), (1, 'b'), (2, 'c'), (1, 'd'), (1, 'e')] = [(1, 'b'), (2, 'c'), (1, 'e')] := by decide +kernel

end Verif.Cosmic

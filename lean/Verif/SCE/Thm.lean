import Verif.SCE.Model
import Mathlib.Data.List.Basic
import Mathlib.Data.List.Induction
import Mathlib.Tactic.Linarith
import Mathlib.Tactic.Push
import Mathlib.Tactic.Ring

namespace Verif.SCE

/-! ### The time of a slice -/

/-- Specification: the time that a label gives for a particle: the only one of the particle, or, if it
has not exactly one, the only one of its only track. -/
def Cand (ev : Ev) (i p t : ℕ) : Prop :=
  ev.pfpT0 i p = [t] ∨
    (∀ s, ev.pfpT0 i p ≠ [s]) ∧ ∃ k, ev.pfpTrk p = [k] ∧ ev.trkT0 i k = [t]

theorem single_or {α : Type} (l : List α) : (∃ t, l = [t]) ∨ ∀ t, l ≠ [t] := by
  rcases l with _ | ⟨a, _ | ⟨b, r⟩⟩
  · right; intro t; simp
  · left; exact ⟨a, rfl⟩
  · right; intro t; simp

theorem findGo_cons (ev : Ev) (p i : ℕ) (f : Bool) (r : List Bool) :
    (∃ t, Cand ev i p t ∧ findGo ev p i (f :: r) = some (t, f)) ∨
    ((∀ t, ¬ Cand ev i p t) ∧ findGo ev p i (f :: r) = findGo ev p (i + 1) r) := by
  rcases single_or (ev.pfpT0 i p) with ⟨t, ht⟩ | h1
  · left
    refine ⟨t, Or.inl ht, ?_⟩
    simp [findGo, ht]
  · rcases single_or (ev.pfpTrk p) with ⟨k, hk⟩ | h2
    · rcases single_or (ev.trkT0 i k) with ⟨t, ht⟩ | h3
      · left
        refine ⟨t, Or.inr ⟨h1, k, hk, ht⟩, ?_⟩
        rw [findGo]
        split
        · rename_i s hs
          exact absurd hs (h1 s)
        · simp [hk, ht]
      · right
        refine ⟨?_, ?_⟩
        · rintro t (h | ⟨_, k', hk', h⟩)
          · exact h1 t h
          · rw [hk] at hk'
            obtain rfl : k = k' := by simpa using hk'
            exact h3 t h
        · rw [findGo]
          split
          · rename_i s hs
            exact absurd hs (h1 s)
          · simp only [hk]
    · right
      refine ⟨?_, ?_⟩
      · rintro t (h | ⟨_, k', hk', h⟩)
        · exact h1 t h
        · exact h2 k' hk'
      · rw [findGo]
        split
        · rename_i s hs
          exact absurd hs (h1 s)
        · split
          · rename_i s hs
            exact absurd hs (h2 s)
          · rfl

theorem cand_unique {ev : Ev} {i p t t' : ℕ} (h : Cand ev i p t) (h' : Cand ev i p t') : t = t' := by
  rcases h with h | ⟨h1, k, hk, h⟩ <;> rcases h' with h' | ⟨h1', k', hk', h'⟩
  · rw [h] at h'; simpa using h'
  · exact absurd h (h1' t)
  · exact absurd h' (h1 t')
  · rw [hk] at hk'
    obtain rfl : k = k' := by simpa using hk'
    rw [h] at h'; simpa using h'

theorem findGo_iff (ev : Ev) (p i : ℕ) (l : List Bool) (t : ℕ) (f : Bool) :
    findGo ev p i l = some (t, f) ↔ ∃ j : ℕ, l[j]? = some f ∧ Cand ev (i + j) p t ∧
      ∀ k < j, ∀ s, ¬ Cand ev (i + k) p s := by
  induction l generalizing i with
  | nil => simp [findGo]
  | cons g r ih =>
    rcases findGo_cons ev p i g r with ⟨t0, h1, h2⟩ | ⟨h1, h2⟩
    · rw [h2]
      constructor
      · intro h
        simp only [Option.some.injEq, Prod.mk.injEq] at h
        obtain ⟨rfl, rfl⟩ := h
        exact ⟨0, by simp, h1, by intro k hk; omega⟩
      · rintro ⟨j, hj, hc, hn⟩
        rcases j with _ | j
        · simp only [List.getElem?_cons_zero, Option.some.injEq] at hj
          subst hj
          rw [cand_unique h1 hc]
        · exact absurd h1 (hn 0 (by omega) t0)
    · rw [h2, ih]
      constructor
      · rintro ⟨j, hj, hc, hn⟩
        refine ⟨j + 1, by simpa using hj, by rw [show i + (j + 1) = i + 1 + j by ring]; exact hc, ?_⟩
        intro k hk s
        rcases k with _ | k
        · exact h1 s
        · rw [show i + (k + 1) = i + 1 + k by ring]
          exact hn k (by omega) s
      · rintro ⟨j, hj, hc, hn⟩
        rcases j with _ | j
        · exact absurd hc (h1 t)
        · refine ⟨j, by simpa using hj, by rw [show i + 1 + j = i + (j + 1) by ring]; exact hc, ?_⟩
          intro k hk s
          rw [show i + 1 + k = i + (k + 1) by ring]
          exact hn (k + 1) (by omega) s

/-- **C427**: the time found for a particle is that of the first label that has one, with the setting of
this label. -/
theorem C427_first_label (cfg : Cfg) (ev : Ev) (p t : ℕ) (f : Bool) :
    findGo ev p 0 cfg.flags = some (t, f) ↔ ∃ j : ℕ, cfg.flags[j]? = some f ∧ Cand ev j p t ∧
      ∀ k < j, ∀ s, ¬ Cand ev k p s := by
  have := findGo_iff ev p 0 cfg.flags t f
  simpa using this

theorem setKey_mem (t : ℕ) (f : Bool) (m : List (ℕ × Bool)) (h : m.Pairwise (fun a b => a.1 < b.1)) :
    (setKey t f m).Pairwise (fun a b => a.1 < b.1) ∧
    ∀ e, e ∈ setKey t f m ↔ e = (t, f) ∨ (e ∈ m ∧ e.1 ≠ t) := by
  induction m with
  | nil => simp [setKey]
  | cons a r ih =>
    obtain ⟨k, g⟩ := a
    obtain ⟨h1, h2⟩ := List.pairwise_cons.1 h
    obtain ⟨i1, i2⟩ := ih h2
    rw [setKey]
    split
    · rename_i hlt
      refine ⟨List.pairwise_cons.2 ⟨?_, h⟩, ?_⟩
      · intro e he
        rcases List.mem_cons.1 he with he | he
        · rw [he]; exact hlt
        · exact lt_trans hlt (h1 e he)
      · intro e
        rw [List.mem_cons]
        constructor
        · rintro (he | he)
          · exact Or.inl he
          · right
            refine ⟨he, ?_⟩
            rcases List.mem_cons.1 he with h' | h'
            · rw [h']; exact ne_of_gt hlt
            · exact ne_of_gt (lt_trans hlt (h1 e h'))
        · rintro (he | he)
          · exact Or.inl he
          · exact Or.inr he.1
    · split
      · rename_i hlt
        refine ⟨List.pairwise_cons.2 ⟨?_, i1⟩, ?_⟩
        · intro e he
          rcases (i2 e).1 he with h' | h'
          · rw [h']; exact hlt
          · exact h1 e h'.1
        · intro e
          rw [List.mem_cons, i2, List.mem_cons]
          constructor
          · rintro (he | he | he)
            · right; exact ⟨Or.inl he, by rw [he]; exact ne_of_lt hlt⟩
            · exact Or.inl he
            · exact Or.inr ⟨Or.inr he.1, he.2⟩
          · rintro (he | ⟨he | he, hn⟩)
            · exact Or.inr (Or.inl he)
            · exact Or.inl he
            · exact Or.inr (Or.inr ⟨he, hn⟩)
      · rename_i hn1 hn2
        have hk : k = t := by omega
        subst hk
        refine ⟨List.pairwise_cons.2 ⟨fun e he => h1 e he, h2⟩, ?_⟩
        intro e
        rw [List.mem_cons, List.mem_cons]
        constructor
        · rintro (he | he)
          · exact Or.inl he
          · exact Or.inr ⟨Or.inr he, ne_of_gt (h1 e he)⟩
        · rintro (he | ⟨he | he, hn⟩)
          · exact Or.inl he
          · rw [he] at hn; exact absurd rfl hn
          · exact Or.inr he

/-- The last particle with the time decides about the setting. -/
def LastWith (cfg : Cfg) (ev : Ev) (pfps : List ℕ) (t : ℕ) (f : Bool) : Prop :=
  ∃ l p r, pfps = l ++ p :: r ∧ findGo ev p 0 cfg.flags = some (t, f) ∧
    ∀ q ∈ r, ∀ g, findGo ev q 0 cfg.flags ≠ some (t, g)

theorem sliceT0s_mem (cfg : Cfg) (ev : Ev) (pfps : List ℕ) :
    (sliceT0s cfg ev pfps).Pairwise (fun a b => a.1 < b.1) ∧
    ∀ t f, (t, f) ∈ sliceT0s cfg ev pfps ↔ LastWith cfg ev pfps t f := by
  unfold sliceT0s
  induction pfps using List.reverseRecOn with
  | nil => simp [LastWith]
  | append_singleton l p ih =>
    rw [List.foldl_append]
    simp only [List.foldl_cons, List.foldl_nil]
    obtain ⟨i1, i2⟩ := ih
    have key : ∀ t f, LastWith cfg ev (l ++ [p]) t f ↔
        findGo ev p 0 cfg.flags = some (t, f) ∨
        (LastWith cfg ev l t f ∧ ∀ g, findGo ev p 0 cfg.flags ≠ some (t, g)) := by
      intro t f
      constructor
      · rintro ⟨a, q, r, he, hq, hr⟩
        rcases List.eq_nil_or_concat r with rfl | ⟨r', z, rfl⟩
        · have := List.append_inj' he rfl
          simp only [List.cons.injEq, and_true] at this
          rw [← this.2] at hq
          exact Or.inl hq
        · right
          have he' : l ++ [p] = (a ++ q :: r') ++ [z] := by simpa using he
          have := List.append_inj' he' rfl
          simp only [List.cons.injEq, and_true] at this
          obtain ⟨rfl, rfl⟩ := this
          exact ⟨⟨a, q, r', rfl, hq, fun x hx => hr x (by simp [hx])⟩, hr p (by simp)⟩
      · rintro (h | ⟨⟨a, q, r, rfl, hq, hr⟩, hn⟩)
        · exact ⟨l, p, [], rfl, h, by simp⟩
        · refine ⟨a, q, r ++ [p], by simp, hq, ?_⟩
          intro x hx
          rcases List.mem_append.1 hx with hx | hx
          · exact hr x hx
          · obtain rfl : x = p := by simpa using hx
            exact hn
    cases hp : findGo ev p 0 cfg.flags with
    | none =>
      refine ⟨i1, fun t f => ?_⟩
      rw [key, hp]
      simp [i2]
    | some tf =>
      obtain ⟨t0, f0⟩ := tf
      obtain ⟨s1, s2⟩ := setKey_mem t0 f0 _ i1
      refine ⟨s1, fun t f => ?_⟩
      rw [key, hp]
      change (t, f) ∈ setKey t0 f0 _ ↔ _
      rw [s2, i2]
      constructor
      · rintro (h | ⟨h, hn⟩)
        · left; rw [h]
        · right
          refine ⟨h, fun g hg => hn ?_⟩
          simp only [Option.some.injEq, Prod.mk.injEq] at hg
          exact hg.1.symm
      · rintro (h | ⟨h, hn⟩)
        · left
          simp only [Option.some.injEq] at h
          exact h.symm
        · right
          refine ⟨h, fun hc => hn f0 ?_⟩
          change t = t0 at hc
          rw [hc]

theorem best_spec (ev : Ev) (m : List (ℕ × Bool)) :
    (best ev m = none ↔ m = []) ∧
    ∀ e, best ev m = some e → e ∈ m ∧ ∀ e' ∈ m, |ev.time e.1| ≤ |ev.time e'.1| := by
  unfold best
  induction m using List.reverseRecOn with
  | nil => simp
  | append_singleton l a ih =>
    rw [List.foldl_append]
    simp only [List.foldl_cons, List.foldl_nil]
    generalize hb : l.foldl (fun b e => match b with
      | none => some e
      | some c => if |ev.time e.1| < |ev.time c.1| then some e else b) none = b at ih ⊢
    obtain ⟨i1, i2⟩ := ih
    cases b with
    | none =>
      have := i1.1 rfl
      subst this
      simp
    | some c =>
      obtain ⟨c1, c2⟩ := i2 c rfl
      dsimp only
      split
      · rename_i hlt
        refine ⟨by simp, fun e he => ?_⟩
        simp only [Option.some.injEq] at he
        subst he
        refine ⟨by simp, fun e' he' => ?_⟩
        rcases List.mem_append.1 he' with h | h
        · exact le_trans (le_of_lt hlt) (c2 e' h)
        · obtain rfl : e' = a := by simpa using h
          exact le_refl _
      · rename_i hlt
        refine ⟨by simp, fun e he => ?_⟩
        simp only [Option.some.injEq] at he
        subst he
        refine ⟨by simp [c1], fun e' he' => ?_⟩
        rcases List.mem_append.1 he' with h | h
        · exact c2 e' h
        · obtain rfl : e' = a := by simpa using h
          exact not_lt.1 hlt

/-- **C427**: the time of a slice is one found for one of its particles and the smallest in absolute
value of all found for them; the setting is that of the last particle it was found for.  There is none
exactly if none was found for any particle. -/
theorem C427_slice (cfg : Cfg) (ev : Ev) (pfps : List ℕ) :
    (best ev (sliceT0s cfg ev pfps) = none ↔ ∀ p ∈ pfps, findGo ev p 0 cfg.flags = none) ∧
    ∀ t f, best ev (sliceT0s cfg ev pfps) = some (t, f) → LastWith cfg ev pfps t f ∧
      ∀ p ∈ pfps, ∀ s g, findGo ev p 0 cfg.flags = some (s, g) → |ev.time t| ≤ |ev.time s| := by
  obtain ⟨m1, m2⟩ := sliceT0s_mem cfg ev pfps
  obtain ⟨b1, b2⟩ := best_spec ev (sliceT0s cfg ev pfps)
  have ex : ∀ p ∈ pfps, ∀ s g, findGo ev p 0 cfg.flags = some (s, g) →
      ∃ g', (s, g') ∈ sliceT0s cfg ev pfps := by
    intro p hp s g hg
    have : ∃ g', LastWith cfg ev pfps s g' := by
      clear m1 m2 b1 b2
      induction pfps using List.reverseRecOn with
      | nil => simp at hp
      | append_singleton l q ih =>
        by_cases hq : ∃ g', findGo ev q 0 cfg.flags = some (s, g')
        · obtain ⟨g', hg'⟩ := hq
          exact ⟨g', l, q, [], rfl, hg', by simp⟩
        · push Not at hq
          rcases List.mem_append.1 hp with h | h
          · obtain ⟨g', a, x, r, rfl, hx, hr⟩ := ih h
            refine ⟨g', a, x, r ++ [q], by simp, hx, ?_⟩
            intro y hy
            rcases List.mem_append.1 hy with hy | hy
            · exact hr y hy
            · obtain rfl : y = q := by simpa using hy
              exact hq
          · obtain rfl : p = q := by simpa using h
            exact absurd hg (hq g)
    obtain ⟨g', h⟩ := this
    exact ⟨g', (m2 s g').2 h⟩
  refine ⟨?_, ?_⟩
  · rw [b1]
    constructor
    · intro h p hp
      cases hf : findGo ev p 0 cfg.flags with
      | none => rfl
      | some tf =>
        obtain ⟨g', hg⟩ := ex p hp tf.1 tf.2 hf
        rw [h] at hg
        simp at hg
    · intro h
      by_contra hne
      obtain ⟨⟨t, f⟩, he⟩ := List.exists_mem_of_ne_nil _ hne
      obtain ⟨a, p, r, hp, hf, _⟩ := (m2 t f).1 he
      have := h p (by rw [hp]; simp)
      rw [this] at hf
      simp at hf
  · intro t f hb
    obtain ⟨h1, h2⟩ := b2 (t, f) hb
    refine ⟨(m2 t f).1 h1, fun p hp s g hg => ?_⟩
    obtain ⟨g', h⟩ := ex p hp s g hg
    have h3 := h2 (s, g') h
    dsimp only at h3
    exact h3

/-! ### Positions -/

/-- The component of a vector along an axis. -/
def V3.comp (v : V3) : Axis → ℚ
  | .x => v.x
  | .y => v.y
  | .z => v.z

/-- **C428**: without the correction of space charge, a position is moved exactly if the slice has a
time and the label of the time asks for it, and then along the drift axis of the TPC by velocity times
time over 1000 with the sign of the drift; the other components do not change. -/
theorem C428_shift (cfg : Cfg) (ev : Ev) (b : Option (ℕ × Bool)) (tpc : ℕ) (pos : V3) (a : Axis)
    (h : (cfg.corrSCE && ev.sceOn) = false) :
    (correct cfg ev b tpc pos).comp a = pos.comp a +
      (match b with
        | some (t, true) => if a = (ev.drift tpc).1 then ev.vel * ev.time t / 1000 * (ev.drift tpc).2 else 0
        | _ => 0) := by
  unfold correct
  rw [h]
  simp only [Bool.false_eq_true, if_false]
  rcases b with _ | ⟨t, _ | _⟩
  · simp
  · simp
  · dsimp only
    unfold t0Shift
    rcases hd : ev.drift tpc with ⟨ax, s⟩
    cases ax <;> cases a <;> simp [V3.add, V3.comp]

/-- **C428**: with it, the offset of the calibration at the place already corrected for the time is
added, its x component reversed if so set. -/
theorem C428_sce (cfg : Cfg) (ev : Ev) (b : Option (ℕ × Bool)) (tpc : ℕ) (pos : V3) (a : Axis)
    (h : (cfg.corrSCE && ev.sceOn) = true) :
    let pos1 := correct { cfg with corrSCE := false } ev b tpc pos
    (correct cfg ev b tpc pos).comp a = pos1.comp a +
      (if cfg.flip = true ∧ a = .x then -1 else 1) * (ev.sce pos1 tpc).comp a := by
  intro pos1
  have e : correct cfg ev b tpc pos = pos1.add
      (if cfg.flip then ⟨-(ev.sce pos1 tpc).x, (ev.sce pos1 tpc).y, (ev.sce pos1 tpc).z⟩
        else ev.sce pos1 tpc) := by
    unfold correct
    rw [h]
    rfl
  rw [e]
  cases cfg.flip <;> cases a <;> simp [V3.add, V3.comp]

/-- **C428**: two points of the same TPC keep their difference when only the time is corrected. -/
theorem C428_rigid (cfg : Cfg) (ev : Ev) (b : Option (ℕ × Bool)) (tpc : ℕ) (p q : V3)
    (h : (cfg.corrSCE && ev.sceOn) = false) :
    dist2 (correct cfg ev b tpc p) (correct cfg ev b tpc q) = dist2 p q := by
  have hx := fun r => C428_shift cfg ev b tpc r .x h
  have hy := fun r => C428_shift cfg ev b tpc r .y h
  have hz := fun r => C428_shift cfg ev b tpc r .z h
  simp only [V3.comp] at hx hy hz
  unfold dist2
  rw [hx, hx, hy, hy, hz, hz]
  ring

theorem closest_spec (ev : Ev) (v : V3) (l : List ℕ) :
    (closest ev v l = none ↔ l = []) ∧
    ∀ s, closest ev v l = some s → s ∈ l ∧ ∀ s' ∈ l, dist2 v (ev.spPos s) ≤ dist2 v (ev.spPos s') := by
  unfold closest
  induction l using List.reverseRecOn with
  | nil => simp
  | append_singleton l a ih =>
    rw [List.foldl_append]
    simp only [List.foldl_cons, List.foldl_nil]
    generalize hb : l.foldl (fun b s => match b with
      | none => some s
      | some c => if dist2 v (ev.spPos s) < dist2 v (ev.spPos c) then some s else b) none = b at ih ⊢
    obtain ⟨i1, i2⟩ := ih
    cases b with
    | none =>
      have := i1.1 rfl
      subst this
      simp
    | some c =>
      obtain ⟨c1, c2⟩ := i2 c rfl
      dsimp only
      split
      · rename_i hlt
        refine ⟨by simp, fun e he => ?_⟩
        simp only [Option.some.injEq] at he
        subst he
        refine ⟨by simp, fun e' he' => ?_⟩
        rcases List.mem_append.1 he' with h | h
        · exact le_trans (le_of_lt hlt) (c2 e' h)
        · obtain rfl : e' = a := by simpa using h
          exact le_refl _
      · rename_i hlt
        refine ⟨by simp, fun e he => ?_⟩
        simp only [Option.some.injEq] at he
        subst he
        refine ⟨by simp [c1], fun e' he' => ?_⟩
        rcases List.mem_append.1 he' with h | h
        · exact c2 e' h
        · obtain rfl : e' = a := by simpa using h
          exact not_lt.1 hlt

/-- **C429**: a vertex is corrected as the TPC of the first hit of the space point closest to it, among
those of its particle or, if there are none, all of the event; it is dropped exactly if the event has
none either. -/
theorem C429_vertex (cfg : Cfg) (ev : Ev) (b : Option (ℕ × Bool)) (p v : ℕ) :
    (newVtx cfg ev b p v = none ↔ ev.pfpSP p = [] ∧ ev.allSP = []) ∧
    ∀ nv, newVtx cfg ev b p v = some nv → ∃ s,
      (s ∈ ev.pfpSP p ∨ ev.pfpSP p = [] ∧ s ∈ ev.allSP) ∧
      (∀ s' ∈ (if ev.pfpSP p = [] then ev.allSP else ev.pfpSP p),
        dist2 (ev.vtxPos v) (ev.spPos s) ≤ dist2 (ev.vtxPos v) (ev.spPos s')) ∧
      ∀ h, (ev.spHits s).head? = some h →
        nv = (v, correct cfg ev b (ev.hitTpc h) (ev.vtxPos v)) := by
  unfold newVtx
  have hsel : (if (ev.pfpSP p).length ≠ 0 then ev.pfpSP p else ev.allSP) =
      (if ev.pfpSP p = [] then ev.allSP else ev.pfpSP p) := by
    by_cases h : ev.pfpSP p = [] <;> simp [h]
  rw [hsel]
  obtain ⟨c1, c2⟩ := closest_spec ev (ev.vtxPos v) (if ev.pfpSP p = [] then ev.allSP else ev.pfpSP p)
  dsimp only
  generalize closest ev (ev.vtxPos v) (if ev.pfpSP p = [] then ev.allSP else ev.pfpSP p) = c at c1 c2 ⊢
  cases c with
  | none =>
    have := c1.1 rfl
    refine ⟨⟨fun _ => ?_, fun _ => rfl⟩, by simp⟩
    by_cases h : ev.pfpSP p = []
    · simp only [h, if_true] at this; exact ⟨h, this⟩
    · simp [h] at this
  | some s =>
    obtain ⟨h1, h2⟩ := c2 s rfl
    refine ⟨⟨by simp, ?_⟩, ?_⟩
    · rintro ⟨e1, e2⟩
      simp [e1, e2] at h1
    · intro nv hnv
      refine ⟨s, ?_, h2, ?_⟩
      · by_cases h : ev.pfpSP p = []
        · simp only [h, if_true] at h1; exact Or.inr ⟨h, h1⟩
        · simp only [h, if_false] at h1; exact Or.inl h1
      · intro hh hhd
        simp only [Option.some.injEq] at hnv
        rw [← hnv]
        have : (ev.spHits s).headD 0 = hh := by
          cases hl : ev.spHits s with
          | nil => rw [hl] at hhd; simp at hhd
          | cons a r => rw [hl] at hhd; simpa using hhd
        unfold spTpc
        rw [this]

end Verif.SCE

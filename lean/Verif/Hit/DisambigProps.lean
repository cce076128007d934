import Verif.Hit.DisambigModel
import Mathlib.Tactic.Linarith
import Mathlib.Tactic.NormNum
import Mathlib.Tactic.Ring

/-! Properties C175-C182 of `apa::DisambigAlg`. -/

namespace Verif.Disambig

/-! ### The steps of the algorithm: only `MakeDisambigHit` changes the status -/

/-- `s'` arises from `s` by calls of `MakeDisambigHit` with arguments satisfying `Q`. -/
inductive Reach (Q : Hit → Wid → Nat → Prop) (s : St) : St → Prop
  | refl : Reach Q s s
  | step {s' : St} {h : Hit} {w : Wid} {a : Nat} : Reach Q s s' → Q h w a → Reach Q s (makeHit h w a s')

theorem Reach.trans {Q : Hit → Wid → Nat → Prop} {a b c : St} (h : Reach Q a b) (h2 : Reach Q b c) :
    Reach Q a c := by
  induction h2 with
  | refl => exact h
  | step _ q ih => exact .step ih q

theorem Reach.one {Q : Hit → Wid → Nat → Prop} {s : St} {h : Hit} {w : Wid} {a : Nat} (q : Q h w a) :
    Reach Q s (makeHit h w a s) := .step .refl q

theorem reach_foldl {Q : Hit → Wid → Nat → Prop} {α : Type} (f : St → α → St) (l : List α)
    (hf : ∀ x ∈ l, ∀ s, Reach Q s (f s x)) : ∀ s, Reach Q s (l.foldl f s) := by
  induction l with
  | nil => intro s; exact .refl
  | cons x xs ih =>
    intro s
    exact (hf x (by simp) s).trans (ih (fun y hy => hf y (by simp [hy])) _)

theorem reach_foldl2 {Q : Hit → Wid → Nat → Prop} {α : Type} (f : St × Nat → α → St × Nat) (l : List α)
    (hf : ∀ x ∈ l, ∀ p, Reach Q p.1 (f p x).1) : ∀ p, Reach Q p.1 (l.foldl f p).1 := by
  induction l with
  | nil => intro s; exact .refl
  | cons x xs ih =>
    intro s
    exact (hf x (by simp) s).trans (ih (fun y hy => hf y (by simp [hy])) _)

/-- What is asked of every call: an induction hit of the input, a wire of its channel (or an invalid
wire), the APA of its channel. -/
def Ok (g : Geo) (uv : List Hit) (h : Hit) (w : Wid) (a : Nat) : Prop :=
  h ∈ uv ∧ (w.valid = true → w ∈ g.wires h.chan) ∧ a = g.apaOf h.chan

theorem trivialHit_reach (g : Geo) (uv zs : List Hit) (apa : Nat) (s : St) (h : Hit) (hu : h ∈ uv)
    (ha : g.apaOf h.chan = apa) : Reach (Ok g uv) s (trivialHit g zs apa s h) := by
  unfold trivialHit
  dsimp only
  split
  · apply reach_foldl
    intro w hw s
    exact .one ⟨hu, fun _ => (List.mem_filter.1 hw).1, ha.symm⟩
  · exact .refl

theorem trivial_reach (g : Geo) (uv zs : List Hit) (apa : Nat) (l : List Hit) (s : St)
    (hl : ∀ h ∈ l, h ∈ uv ∧ g.apaOf h.chan = apa) : Reach (Ok g uv) s (trivial g zs apa l s) := by
  unfold trivial
  apply reach_foldl
  intro h hh s
  exact trivialHit_reach g uv zs apa s h (hl h hh).1 (hl h hh).2

theorem neighbour_mem {g : Geo} {ext : ℤ} {dw w : Wid} {c : Nat} (h : neighbour g ext dw c = some w) :
    w ∈ g.wires c := List.mem_of_find?_eq_some h

theorem closeStep_reach (g : Geo) (uv : List Hit) (ext : ℤ) (dw : Wid) (lo hi : ℚ) (c : Nat)
    (p : St × Nat) (h : Hit) (hu : h ∈ uv) (hc : h.chan = c) :
    Reach (Ok g uv) p.1 (closeStep g ext dw lo hi c p h).1 := by
  unfold closeStep
  split
  · split
    · exact .refl
    · rename_i w hw
      split
      · exact .refl
      · exact .one ⟨hu, fun _ => by rw [hc]; exact neighbour_mem hw, by rw [hc]⟩
  · exact .refl

theorem closeHits_reach (g : Geo) (uv : List Hit) (ext : ℤ) (dw : Wid) (lo hi : ℚ) (s : St) :
    Reach (Ok g uv) s (closeHits g uv ext dw lo hi s).1 := by
  unfold closeHits
  dsimp only
  refine reach_foldl2 (Q := Ok g uv) _ _ ?_ (s, 0)
  intro h hh p
  obtain ⟨h1, h2⟩ := List.mem_filter.1 hh
  have h2 : (h.chan : ℤ) = closeChan g ext (g.chanOf dw) := by simpa using h2
  exact closeStep_reach g uv ext dw lo hi _ p h h1 (by omega)

theorem jump_reach (g : Geo) (uv : List Hit) (h : Hit) (dw : Wid) (p : St × Nat) (e : Nat) :
    Reach (Ok g uv) p.1 (jump g uv h dw p e).1 := by
  unfold jump
  dsimp only
  exact (closeHits_reach ..).trans (closeHits_reach ..)

theorem crawlHit_reach (g : Geo) (uv : List Hit) (jumps apa : Nat) (p : St × Nat) (h : Hit) :
    Reach (Ok g uv) p.1 (crawlHit g uv jumps apa p h).1 := by
  unfold crawlHit
  split
  · split
    · exact .refl
    · refine reach_foldl2 (Q := Ok g uv) _ _ ?_ p
      intro e _ p
      exact jump_reach ..
  · exact .refl

theorem crawlPass_reach (g : Geo) (uv : List Hit) (jumps apa : Nat) (s : St) :
    Reach (Ok g uv) s (crawlPass g uv jumps apa s).1 := by
  unfold crawlPass
  refine reach_foldl2 (Q := Ok g uv) _ _ ?_ (s, 0)
  intro e _ p
  exact crawlHit_reach ..

theorem crawl_reach (g : Geo) (uv : List Hit) (jumps apa : Nat) :
    ∀ fuel s s', crawl g uv jumps apa fuel s = some s' → Reach (Ok g uv) s s' := by
  intro fuel
  induction fuel with
  | zero => intro s s' h; simp [crawl] at h
  | succ n ih =>
    intro s s' h
    unfold crawl at h
    dsimp only at h
    split at h
    · cases h; exact crawlPass_reach ..
    · exact (crawlPass_reach ..).trans (ih _ _ h)

theorem compareHit_reach (g : Geo) (uv hits : List Hit) (apa : Nat) (p : St × Nat) (h : Hit)
    (hu : h ∈ uv) (ha : g.apaOf h.chan = apa) :
    Reach (Ok g uv) p.1 (compareHit g hits apa p h).1 := by
  unfold compareHit
  split
  · exact .refl
  · dsimp only
    refine reach_foldl2 (Q := Ok g uv) _ _ ?_ p
    intro w hw q
    split
    · exact .one ⟨hu, fun _ => hw, ha.symm⟩
    · exact .refl

theorem compareViews_reach (g : Geo) (uv : List Hit) (apa : Nat) (s : St) :
    Reach (Ok g uv) s (compareViews g uv apa s).1 := by
  unfold compareViews
  dsimp only
  refine reach_foldl2 (Q := Ok g uv) _ _ ?_ (s, 0)
  intro h hh p
  obtain ⟨h1, h2⟩ := List.mem_filter.1 hh
  exact compareHit_reach g uv _ apa p h h1 (by simpa using h2)

theorem compareLoop_reach (g : Geo) (uv : List Hit) (jumps apa cf : Nat) :
    ∀ fuel s s', compareLoop g uv jumps apa cf fuel s = some s' → Reach (Ok g uv) s s' := by
  intro fuel
  induction fuel with
  | zero => intro s s' h; simp [compareLoop] at h
  | succ n ih =>
    intro s s' h
    unfold compareLoop at h
    dsimp only at h
    split at h
    · cases h
    · rename_i s1 h1
      have r := (compareViews_reach g uv apa s).trans (crawl_reach g uv jumps apa _ _ _ h1)
      split at h
      · cases h; exact r
      · exact r.trans (ih _ _ h)

/-- The contract of `NearestWireIDOnChan`: a wire of the channel, or an invalid one. -/
def NearestOk (g : Geo) : Prop := ∀ p c t pl, (g.nearest p c t pl).valid = true → g.nearest p c t pl ∈ g.wires c

theorem useZ_reach (g : Geo) (uv endPts : List Hit) (apa : Nat) (s : St) (z : Hit) (hn : NearestOk g)
    (he : ∀ h ∈ endPts, h.view ≠ .Z → h ∈ uv ∧ g.apaOf h.chan = apa) :
    Reach (Ok g uv) s (useZ g endPts apa s z) := by
  have hm : ∀ v h, h ∈ endMatch g endPts z v → h ∈ uv ∧ g.apaOf h.chan = apa := by
    intro v h hh
    obtain ⟨h1, h2⟩ := List.mem_filter.1 hh
    simp only [Bool.and_eq_true, decide_eq_true_eq] at h2
    exact he h h1 h2.1.1
  have ok : ∀ v h p t pl, h ∈ endMatch g endPts z v → Ok g uv h (g.nearest p h.chan t pl) apa := by
    intro v h p t pl hh
    exact ⟨(hm v h hh).1, hn _ _ _ _, (hm v h hh).2.symm⟩
  unfold useZ
  split
  · rename_i u v hu hv
    dsimp only
    exact .step (.one (ok .U u _ _ _ (by rw [hu]; simp))) (ok .V v _ _ _ (by rw [hv]; simp))
  · rename_i u hu hv
    split
    · exact .one (ok .U u _ _ _ (by rw [hu]; simp))
    · exact .refl
  · exact .refl

theorem usePts_reach (g : Geo) (uv endPts : List Hit) (apa : Nat) (s : St) (hn : NearestOk g)
    (he : ∀ h ∈ endPts, h.view ≠ .Z → h ∈ uv ∧ g.apaOf h.chan = apa) :
    Reach (Ok g uv) s (usePts g endPts apa s) := by
  have h0 : Reach (Ok g uv) s ((endPts.filter fun h => h.view = .Z).foldl (useZ g endPts apa) s) :=
    reach_foldl _ _ (fun z _ s => useZ_reach g uv endPts apa s z hn he) s
  unfold usePts
  dsimp only
  split
  · rename_i a b hz
    rw [hz] at h0
    have hv : ∀ h ∈ [a, b], h.view ≠ .Z := by
      intro h hh hv
      have : h ∈ ([a, b].filter fun h => h.view = .Z) := List.mem_filter.2 ⟨hh, by simpa using hv⟩
      rw [hz] at this; simp at this
    have ka := he a (by simp) (hv a (by simp))
    have kb := he b (by simp) (hv b (by simp))
    rw [hz]
    split
    · split
      · exact h0.trans (.step (.one ⟨ka.1, hn _ _ _ _, ka.2.symm⟩) ⟨kb.1, hn _ _ _ _, kb.2.symm⟩)
      · exact h0
    · exact h0
  · exact h0

theorem useEndPts_reach (g : Geo) (uv endPts : List Hit) (jumps apa cf : Nat) (s s' : St)
    (hn : NearestOk g)
    (he : ∀ h ∈ endPts, h.view ≠ .Z → h ∈ uv ∧ g.apaOf h.chan = apa)
    (h : useEndPts g uv endPts jumps apa cf s = some s') : Reach (Ok g uv) s s' := by
  unfold useEndPts at h
  split at h
  · cases h; exact .refl
  · exact (usePts_reach g uv endPts apa s hn he).trans (crawl_reach _ _ _ _ _ _ _ h)

/-- End points are hits of the input, listed under their APA. -/
def EndsOk (g : Geo) (hits : List Hit) (endPts : Nat → List Hit) : Prop :=
  ∀ a, ∀ h ∈ endPts a, h ∈ hits ∧ g.apaOf h.chan = a

theorem runApa_reach (g : Geo) (c : Cfg) (endPts : Nat → List Hit) (hits : List Hit) (fuel apa : Nat)
    (s s' : St) (hn : NearestOk g) (he : EndsOk g hits endPts)
    (h : runApa g c endPts hits fuel apa s = some s') : Reach (Ok g (uvHits hits)) s s' := by
  unfold runApa at h
  dsimp only at h
  have r1 := trivial_reach g (uvHits hits) (zHits g hits apa) apa
    ((uvHits hits).filter fun h => g.apaOf h.chan = apa) s (by
      intro h hh
      obtain ⟨h1, h2⟩ := List.mem_filter.1 hh
      exact ⟨h1, by simpa using h2⟩)
  generalize trivial g (zHits g hits apa) apa ((uvHits hits).filter fun h => g.apaOf h.chan = apa) s
    = s1 at h r1
  rw [Option.bind_eq_some_iff] at h
  obtain ⟨s2, h2, h⟩ := h
  rw [Option.bind_eq_some_iff] at h
  obtain ⟨s3, h3, h⟩ := h
  have r2 : Reach (Ok g (uvHits hits)) s1 s2 := by
    split at h2
    · exact crawl_reach _ _ _ _ _ _ _ h2
    · cases h2; exact .refl
  have r3 : Reach (Ok g (uvHits hits)) s2 s3 := by
    split at h3
    · refine useEndPts_reach _ _ _ _ _ _ _ _ hn ?_ h3
      intro x hx hv
      exact ⟨List.mem_filter.2 ⟨(he apa x hx).1, by simpa using hv⟩, (he apa x hx).2⟩
    · cases h3; exact .refl
  have r4 : Reach (Ok g (uvHits hits)) s3 s' := by
    split at h
    · exact compareLoop_reach _ _ _ _ _ _ _ _ h
    · cases h; exact .refl
  exact ((r1.trans r2).trans r3).trans r4

/-! ### The invariant -/

structure Inv (g : Geo) (uv : List Hit) (s : St) : Prop where
  ok : ∀ a, ∀ p ∈ s.out a, p.1 ∈ uv ∧ p.2.valid = true ∧ p.2 ∈ g.wires p.1.chan ∧ a = g.apaOf p.1.chan
  nodup : ∀ a, ((s.out a).map fun p => key p.1).Nodup
  done_iff : ∀ a k, s.done a k = true ↔ ∃ p ∈ s.out a, key p.1 = k
  wid : ∀ a, ∀ p ∈ s.out a, s.wid (key p.1) = some p.2

theorem inv_init (g : Geo) (uv : List Hit) : Inv g uv St.init := by
  constructor <;> simp [St.init]

theorem inv_makeHit {g : Geo} {uv : List Hit} {s : St} {h : Hit} {w : Wid} {a : Nat}
    (hi : Inv g uv s) (q : Ok g uv h w a) : Inv g uv (makeHit h w a s) := by
  unfold makeHit
  split
  · exact hi
  split
  · exact hi
  rename_i hd hv
  have hv : w.valid = true := by simpa using hv
  have hnew : ∀ b, ∀ p ∈ s.out b, key p.1 ≠ key h := by
    intro b p hp hk
    have e1 := (hi.ok b p hp).2.2.2
    have e2 : p.1.chan = h.chan := congrArg Prod.fst hk
    have : b = a := by rw [e1, e2]; exact q.2.2.symm
    subst this
    exact hd ((hi.done_iff b (key h)).2 ⟨p, hp, hk⟩)
  constructor
  · intro b p hp
    dsimp only at hp
    split at hp
    · rename_i e
      subst e
      rcases List.mem_append.1 hp with hp | hp
      · exact hi.ok _ p hp
      · simp at hp
        subst hp
        exact ⟨q.1, hv, q.2.1 hv, q.2.2⟩
    · exact hi.ok b p hp
  · intro b
    dsimp only
    split
    · rename_i e
      subst e
      rw [List.map_append, List.nodup_append]
      refine ⟨hi.nodup _, by simp, ?_⟩
      intro x hx y hy
      simp at hy
      obtain ⟨p, hp, rfl⟩ := List.mem_map.1 hx
      rw [hy]
      exact hnew _ p hp
    · exact hi.nodup b
  · intro b k
    dsimp only
    by_cases e : b = a
    · subst e
      simp only [if_true, true_and]
      by_cases ek : k = key h
      · subst ek
        simp
      · rw [if_neg ek, hi.done_iff]
        constructor
        · rintro ⟨p, hp, rfl⟩
          exact ⟨p, by simp [hp], rfl⟩
        · rintro ⟨p, hp, rfl⟩
          rcases List.mem_append.1 hp with hp | hp
          · exact ⟨p, hp, rfl⟩
          · simp at hp
            subst hp
            exact absurd rfl ek
    · rw [if_neg (by simp [e]), if_neg e, hi.done_iff]
  · intro b p hp
    dsimp only at hp ⊢
    split at hp
    · rename_i e
      subst e
      rcases List.mem_append.1 hp with hp | hp
      · rw [if_neg (hnew _ p hp)]; exact hi.wid _ p hp
      · simp at hp
        subst hp
        simp
    · rw [if_neg (hnew _ p hp)]; exact hi.wid _ p hp

theorem inv_reach {g : Geo} {uv : List Hit} {s s' : St} (hi : Inv g uv s) (r : Reach (Ok g uv) s s') :
    Inv g uv s' := by
  induction r with
  | refl => exact hi
  | step _ q ih => exact inv_makeHit ih q

/-- The decisions of `s` are kept in `s'`. -/
structure Keeps (s s' : St) : Prop where
  out : ∀ a, s.out a <+: s'.out a
  done : ∀ a k, s.done a k = true → s'.done a k = true

theorem Keeps.refl (s : St) : Keeps s s := ⟨fun _ => List.prefix_refl _, fun _ _ h => h⟩

theorem Keeps.trans {a b c : St} (h : Keeps a b) (k : Keeps b c) : Keeps a c :=
  ⟨fun x => (h.out x).trans (k.out x), fun x y z => k.done x y (h.done x y z)⟩

theorem keeps_makeHit (h : Hit) (w : Wid) (a : Nat) (s : St) : Keeps s (makeHit h w a s) := by
  unfold makeHit
  split
  · exact .refl s
  split
  · exact .refl s
  constructor
  · intro b
    dsimp only
    split
    · exact List.prefix_append _ _
    · exact List.prefix_refl _
  · intro b k hk
    dsimp only
    split
    · rfl
    · exact hk

theorem keeps_reach {Q : Hit → Wid → Nat → Prop} {s s' : St} (r : Reach Q s s') : Keeps s s' := by
  induction r with
  | refl => exact .refl s
  | step _ _ ih => exact ih.trans (keeps_makeHit ..)

/-! ### C175: the output -/

theorem runLoop_spec (g : Geo) (c : Cfg) (endPts : Nat → List Hit) (hits : List Hit) (fuel : Nat)
    (hn : NearestOk g) (he : EndsOk g hits endPts) (as : List Nat) :
    ∀ (s : St) (acc l : List (Hit × Wid)), Inv g (uvHits hits) s → as.Nodup →
      (∀ p ∈ acc, p.1 ∈ uvHits hits ∧ p.2.valid = true ∧ p.2 ∈ g.wires p.1.chan ∧
        g.apaOf p.1.chan ∉ as) →
      (acc.map fun p => key p.1).Nodup →
      runLoop g c endPts hits fuel as s acc = some l →
      (∀ p ∈ l, p.1 ∈ uvHits hits ∧ p.2.valid = true ∧ p.2 ∈ g.wires p.1.chan) ∧
        (l.map fun p => key p.1).Nodup := by
  induction as with
  | nil =>
    intro s acc l _ _ h1 h2 h
    simp [runLoop] at h
    subst h
    exact ⟨fun p hp => ⟨(h1 p hp).1, (h1 p hp).2.1, (h1 p hp).2.2.1⟩, h2⟩
  | cons a as ih =>
    intro s acc l hi hnd h1 h2 h
    unfold runLoop at h
    split at h
    · cases h
    · rename_i s' hs
      have hi' := inv_reach hi (runApa_reach g c endPts hits fuel a s s' hn he hs)
      have hna : a ∉ as := (List.nodup_cons.1 hnd).1
      refine ih s' _ l hi' (List.nodup_cons.1 hnd).2 ?_ ?_ h
      · intro p hp
        rcases List.mem_append.1 hp with hp | hp
        · have := h1 p hp
          exact ⟨this.1, this.2.1, this.2.2.1, fun hm => this.2.2.2 (List.mem_cons_of_mem _ hm)⟩
        · have := hi'.ok a p hp
          refine ⟨this.1, this.2.1, this.2.2.1, ?_⟩
          rw [← this.2.2.2]
          exact hna
      · rw [List.map_append, List.nodup_append]
        refine ⟨h2, hi'.nodup a, ?_⟩
        intro x hx y hy hxy
        obtain ⟨p, hp, rfl⟩ := List.mem_map.1 hx
        obtain ⟨q, hq, rfl⟩ := List.mem_map.1 hy
        have e1 : p.1.chan = q.1.chan := congrArg Prod.fst hxy
        have e2 := (hi'.ok a q hq).2.2.2
        have e3 := (h1 p hp).2.2.2
        rw [e1, ← e2] at e3
        simp at e3

theorem apas_nodup (g : Geo) (hits : List Hit) : (apas g hits).Nodup := by
  unfold apas
  exact (List.perm_insertionSort _ _).nodup_iff.2 (List.nodup_dedup _)

/-- **C175.** Every disambiguated hit is an induction hit of the input with a valid wire of its own
channel, and no two disambiguated hits have the same channel and peak time (in particular none is
listed twice). -/
theorem C175_output (g : Geo) (c : Cfg) (endPts : Nat → List Hit) (hits : List Hit) (fuel : Nat)
    (l : List (Hit × Wid)) (hn : NearestOk g) (he : EndsOk g hits endPts)
    (h : run g c endPts hits fuel = some l) :
    (∀ p ∈ l, p.1 ∈ hits ∧ p.1.view ≠ .Z ∧ p.2.valid = true ∧ p.2 ∈ g.wires p.1.chan) ∧
      (l.map fun p => (p.1.chan, p.1.time)).Nodup := by
  obtain ⟨h1, h2⟩ := runLoop_spec g c endPts hits fuel hn he _ _ _ l (inv_init g _)
    (apas_nodup g hits) (by simp) (by simp) h
  refine ⟨fun p hp => ?_, h2⟩
  have := h1 p hp
  obtain ⟨a, b⟩ := List.mem_filter.1 this.1
  exact ⟨a, by simpa using b, this.2⟩

/-- **C176.** No stage revises a decision: what `MakeDisambigHit` has recorded before a stage of an
APA is still recorded, in the same order and with the same wire, after all of its stages. -/
theorem C176_keeps (g : Geo) (c : Cfg) (endPts : Nat → List Hit) (hits : List Hit) (fuel apa : Nat)
    (s s' : St) (hn : NearestOk g) (he : EndsOk g hits endPts) (hi : Inv g (uvHits hits) s)
    (h : runApa g c endPts hits fuel apa s = some s') :
    (∀ a, s.out a <+: s'.out a) ∧
      ∀ a, ∀ p ∈ s.out a, s'.done a (key p.1) = true ∧ s'.wid (key p.1) = some p.2 := by
  have r := runApa_reach g c endPts hits fuel apa s s' hn he h
  have k := keeps_reach r
  refine ⟨k.out, fun a p hp => ?_⟩
  have hi' := inv_reach hi r
  have hp' := (k.out a).subset hp
  exact ⟨(hi'.done_iff a _).2 ⟨p, hp', rfl⟩, hi'.wid a p hp'⟩

/-! ### C177: termination -/

/-- The number of induction hits still undecided. -/
def undecided (g : Geo) (uv : List Hit) (s : St) : Nat :=
  uv.countP fun h => !s.done (g.apaOf h.chan) (key h)

theorem undecided_le_of_keeps (g : Geo) (uv : List Hit) {s s' : St} (k : Keeps s s') :
    undecided g uv s' ≤ undecided g uv s := by
  apply List.countP_mono_left
  intro h _ hh
  cases hd : s.done (g.apaOf h.chan) (key h)
  · rfl
  · rw [k.done _ _ hd] at hh; simp at hh

theorem undecided_lt (g : Geo) (uv : List Hit) {s s' : St} (k : Keeps s s') (h : Hit) (hu : h ∈ uv)
    (h0 : s.done (g.apaOf h.chan) (key h) = false) (h1 : s'.done (g.apaOf h.chan) (key h) = true) :
    undecided g uv s' + 1 ≤ undecided g uv s := by
  unfold undecided
  induction uv with
  | nil => simp at hu
  | cons x xs ih =>
    have hle := undecided_le_of_keeps g xs k
    unfold undecided at hle
    rw [List.countP_cons, List.countP_cons]
    rcases List.mem_cons.1 hu with rfl | hm
    · simp only [h0, h1, Bool.not_true, Bool.not_false, if_true]
      simp
      omega
    · have := ih hm
      cases hd : s.done (g.apaOf x.chan) (key x)
      · simp only [Bool.not_false, if_true]
        split <;> omega
      · rw [k.done _ _ hd]
        simp
        omega

/-- All the wires the geometry names are valid. -/
def WiresValid (g : Geo) : Prop := ∀ c, ∀ w ∈ g.wires c, w.valid = true

theorem makeHit_done (h : Hit) (w : Wid) (a : Nat) (s : St) (hv : w.valid = true) :
    (makeHit h w a s).done a (key h) = true := by
  unfold makeHit
  split
  · assumption
  · rw [if_neg (by simp [hv])]
    simp

theorem closeStep_count (g : Geo) (uv : List Hit) (hw : WiresValid g) (ext : ℤ) (dw : Wid) (lo hi : ℚ)
    (c : Nat) (p : St × Nat) (h : Hit) (hu : h ∈ uv) (hc : h.chan = c) :
    (closeStep g ext dw lo hi c p h).2 + undecided g uv (closeStep g ext dw lo hi c p h).1
      ≤ p.2 + undecided g uv p.1 := by
  unfold closeStep
  split
  · split
    · exact le_refl _
    · rename_i w hww
      split
      · exact le_refl _
      · rename_i hd
        have hv := hw _ _ (neighbour_mem hww)
        subst hc
        have := undecided_lt g uv (keeps_makeHit h w (g.apaOf h.chan) p.1) h hu (by simpa using hd)
          (makeHit_done h w _ p.1 hv)
        dsimp only
        omega
  · exact le_refl _

theorem fold_count {α : Type} (g : Geo) (uv : List Hit) (f : St × Nat → α → St × Nat) (l : List α)
    (hf : ∀ x ∈ l, ∀ p, (f p x).2 + undecided g uv (f p x).1 ≤ p.2 + undecided g uv p.1) :
    ∀ p, (l.foldl f p).2 + undecided g uv (l.foldl f p).1 ≤ p.2 + undecided g uv p.1 := by
  induction l with
  | nil => intro p; exact le_refl _
  | cons x xs ih =>
    intro p
    exact (ih (fun y hy => hf y (by simp [hy])) _).trans (hf x (by simp) p)

theorem closeHits_count (g : Geo) (uv : List Hit) (hw : WiresValid g) (ext : ℤ) (dw : Wid) (lo hi : ℚ)
    (s : St) : (closeHits g uv ext dw lo hi s).2 + undecided g uv (closeHits g uv ext dw lo hi s).1
      ≤ undecided g uv s := by
  unfold closeHits
  dsimp only
  have := fold_count g uv (closeStep g ext dw lo hi (closeChan g ext (g.chanOf dw)).toNat)
    (uv.filter fun h => (h.chan : ℤ) = closeChan g ext (g.chanOf dw)) (by
      intro h hh p
      obtain ⟨h1, h2⟩ := List.mem_filter.1 hh
      have h2 : (h.chan : ℤ) = closeChan g ext (g.chanOf dw) := by simpa using h2
      exact closeStep_count g uv hw ext dw lo hi _ p h h1 (by omega)) (s, 0)
  simpa using this

theorem jump_count (g : Geo) (uv : List Hit) (hw : WiresValid g) (h : Hit) (dw : Wid) (p : St × Nat)
    (e : Nat) : (jump g uv h dw p e).2 + undecided g uv (jump g uv h dw p e).1
      ≤ p.2 + undecided g uv p.1 := by
  unfold jump
  dsimp only
  have h1 := closeHits_count g uv hw (-e) dw (h.st - 5 - (h.et - h.st) * e) (h.et + 5 + (h.et - h.st) * e) p.1
  have h2 := closeHits_count g uv hw e dw (h.st - 5 - (h.et - h.st) * e) (h.et + 5 + (h.et - h.st) * e)
    (closeHits g uv (-e) dw (h.st - 5 - (h.et - h.st) * e) (h.et + 5 + (h.et - h.st) * e) p.1).1
  omega

theorem crawlHit_count (g : Geo) (uv : List Hit) (hw : WiresValid g) (jumps apa : Nat) (p : St × Nat)
    (h : Hit) : (crawlHit g uv jumps apa p h).2 + undecided g uv (crawlHit g uv jumps apa p h).1
      ≤ p.2 + undecided g uv p.1 := by
  unfold crawlHit
  split
  · split
    · exact le_refl _
    · exact fold_count g uv _ _ (fun e _ p => jump_count g uv hw h _ p (e + 1)) p
  · exact le_refl _

theorem crawlPass_count (g : Geo) (uv : List Hit) (hw : WiresValid g) (jumps apa : Nat) (s : St) :
    (crawlPass g uv jumps apa s).2 + undecided g uv (crawlPass g uv jumps apa s).1
      ≤ undecided g uv s := by
  have := fold_count g uv (crawlHit g uv jumps apa) (uv.filter fun h => g.apaOf h.chan = apa)
    (fun h _ p => crawlHit_count g uv hw jumps apa p h) (s, 0)
  simpa [crawlPass] using this

theorem crawl_total (g : Geo) (uv : List Hit) (hw : WiresValid g) (jumps apa : Nat) :
    ∀ n s, undecided g uv s < n → ∃ s', ∀ fuel, n ≤ fuel → crawl g uv jumps apa fuel s = some s' := by
  intro n
  induction n with
  | zero => intro s h; omega
  | succ n ih =>
    intro s h
    have hc := crawlPass_count g uv hw jumps apa s
    by_cases h0 : (crawlPass g uv jumps apa s).2 = 0
    · refine ⟨(crawlPass g uv jumps apa s).1, fun fuel hf => ?_⟩
      obtain ⟨m, rfl⟩ : ∃ m, fuel = m + 1 := ⟨fuel - 1, by omega⟩
      simp [crawl, h0]
    · obtain ⟨s', hs⟩ := ih (crawlPass g uv jumps apa s).1 (by omega)
      refine ⟨s', fun fuel hf => ?_⟩
      obtain ⟨m, rfl⟩ : ∃ m, fuel = m + 1 := ⟨fuel - 1, by omega⟩
      simp [crawl, h0, hs m (by omega)]

theorem compareFold_count (g : Geo) (uv : List Hit) (hw : WiresValid g) (apa : Nat) (h : Hit)
    (hu : h ∈ uv) (ha : g.apaOf h.chan = apa) (p : St × Nat) (hd : p.1.done apa (key h) = false)
    (P : Wid → Bool) (ws : List Wid) (hws : ∀ w ∈ ws, w ∈ g.wires h.chan) (hP : (ws.countP P) ≤ 1) :
    let r := ws.foldl (fun q w => if P w then (makeHit h w apa q.1, q.2 + 1) else q) p
    r.2 + undecided g uv r.1 ≤ p.2 + undecided g uv p.1 := by
  induction ws generalizing p with
  | nil => exact le_refl _
  | cons w ws ih =>
    dsimp only [List.foldl_cons]
    rw [List.countP_cons] at hP
    by_cases hp : P w = true
    · rw [if_pos hp] at hP ⊢
      have hz : ws.countP P = 0 := by omega
      rw [List.countP_eq_zero] at hz
      have hfix : ∀ q : St × Nat, ws.foldl (fun q w => if P w then (makeHit h w apa q.1, q.2 + 1) else q) q = q := by
        intro q
        clear ih hws hP
        induction ws with
        | nil => rfl
        | cons v vs ihv =>
          rw [List.foldl_cons, if_neg (hz v (by simp))]
          exact ihv (fun a ha => hz a (by simp [ha]))
      rw [hfix]
      have hv := hw _ _ (hws w (by simp))
      subst ha
      have := undecided_lt g uv (keeps_makeHit h w (g.apaOf h.chan) p.1) h hu hd
          (makeHit_done h w _ p.1 hv)
      dsimp only
      omega
    · rw [if_neg hp] at hP ⊢
      exact ih p hd (fun v hv => hws v (by simp [hv])) (by simpa using hP)

theorem countP_sum_le_one {α : Type} (f : α → Nat) (l : List α) (n : Nat) (hn : n = (l.map f).sum) (h0 : 0 < n) :
    l.countP (fun w => decide (n = f w)) ≤ 1 := by
  subst hn
  induction l with
  | nil => simp
  | cons x xs ih =>
    have key : ∀ (ys : List α) (m : Nat), (ys.map f).sum < m → ys.countP (fun w => decide (m = f w)) = 0 := by
      intro ys
      induction ys with
      | nil => intro m _; rfl
      | cons y ys ihy =>
        intro m hm
        rw [List.map_cons, List.sum_cons] at hm
        rw [List.countP_cons, ihy m (by omega)]
        simp
        omega
    rw [List.map_cons, List.sum_cons] at h0 ⊢
    rw [List.countP_cons]
    by_cases hx : f x = 0
    · rw [hx, Nat.zero_add] at h0 ⊢
      have := ih h0
      rw [if_neg (by simp [hx]; omega)]
      simpa using this
    · by_cases hs : (xs.map f).sum = 0
      · rw [key xs _ (by omega)]
        split <;> omega
      · rw [if_neg (by simp; omega)]
        rw [Nat.add_zero]
        by_contra hcon
        have h2 : 1 < xs.countP (fun w => decide (f x + (xs.map f).sum = f w)) := by omega
        rw [key xs _ (by omega)] at h2
        omega

theorem compareHit_count (g : Geo) (uv hits : List Hit) (hw : WiresValid g) (apa : Nat) (p : St × Nat)
    (h : Hit) (hu : h ∈ uv) (ha : g.apaOf h.chan = apa) :
    (compareHit g hits apa p h).2 + undecided g uv (compareHit g hits apa p h).1
      ≤ p.2 + undecided g uv p.1 := by
  unfold compareHit
  split
  · exact le_refl _
  · rename_i hd
    dsimp only
    have hd : p.1.done apa (key h) = false := by simpa using hd
    by_cases hc : 0 < ((g.wires h.chan).map (dCount g p.1 apa (otherView g hits h))).sum ∧
        ((g.wires h.chan).map (aCount g p.1 apa (otherView g hits h))).sum = 0
    · have h1 := countP_sum_le_one (dCount g p.1 apa (otherView g hits h)) (g.wires h.chan) _ rfl hc.1
      have := compareFold_count g uv hw apa h hu ha p hd _ (g.wires h.chan) (fun _ h => h) h1
      dsimp only at this
      simpa only [hc, and_true, decide_eq_true_eq] using this
    · have hz : ∀ (ws : List Wid) (q : St × Nat), ws.foldl (fun q w =>
          if ((g.wires h.chan).map (dCount g p.1 apa (otherView g hits h))).sum
              = dCount g p.1 apa (otherView g hits h) w ∧
            0 < ((g.wires h.chan).map (dCount g p.1 apa (otherView g hits h))).sum ∧
            ((g.wires h.chan).map (aCount g p.1 apa (otherView g hits h))).sum = 0 then
            (makeHit h w apa q.1, q.2 + 1) else q) q = q := by
        intro ws
        induction ws with
        | nil => intro q; rfl
        | cons v vs ihv =>
          intro q
          rw [List.foldl_cons, if_neg (fun hh => hc hh.2)]
          exact ihv q
      rw [hz]

theorem compareViews_count (g : Geo) (uv : List Hit) (hw : WiresValid g) (apa : Nat) (s : St) :
    (compareViews g uv apa s).2 + undecided g uv (compareViews g uv apa s).1 ≤ undecided g uv s := by
  have := fold_count g uv (compareHit g (uv.filter fun h => g.apaOf h.chan = apa) apa)
    (uv.filter fun h => g.apaOf h.chan = apa) (by
      intro h hh p
      obtain ⟨h1, h2⟩ := List.mem_filter.1 hh
      exact compareHit_count g uv _ hw apa p h h1 (by simpa using h2)) (s, 0)
  simpa [compareViews] using this

theorem compareLoop_total (g : Geo) (uv : List Hit) (hw : WiresValid g) (jumps apa : Nat) :
    ∀ n s, undecided g uv s < n → ∃ s', ∀ cf fuel, uv.length < cf → n ≤ fuel →
      compareLoop g uv jumps apa cf fuel s = some s' := by
  intro n
  induction n with
  | zero => intro s h; omega
  | succ n ih =>
    intro s h
    have hc := compareViews_count g uv hw apa s
    have hl : ∀ t, undecided g uv t < uv.length + 1 := fun t => by
      have : undecided g uv t ≤ uv.length := List.countP_le_length
      omega
    obtain ⟨s1, hs1⟩ := crawl_total g uv hw jumps apa (uv.length + 1) (compareViews g uv apa s).1 (hl _)
    by_cases h0 : (compareViews g uv apa s).2 = 0
    · refine ⟨s1, fun cf fuel hcf hf => ?_⟩
      obtain ⟨m, rfl⟩ : ∃ m, fuel = m + 1 := ⟨fuel - 1, by omega⟩
      simp [compareLoop, h0, hs1 cf (by omega)]
    · have hk := undecided_le_of_keeps g uv (keeps_reach (crawl_reach g uv jumps apa _ _ _ (hs1 _ le_rfl)))
      obtain ⟨s', hs⟩ := ih s1 (by omega)
      refine ⟨s', fun cf fuel hcf hf => ?_⟩
      obtain ⟨m, rfl⟩ : ∃ m, fuel = m + 1 := ⟨fuel - 1, by omega⟩
      simp [compareLoop, h0, hs1 cf (by omega), hs cf m hcf (by omega)]

theorem runApa_total (g : Geo) (hw : WiresValid g) (c : Cfg) (endPts : Nat → List Hit)
    (hits : List Hit) (apa : Nat) (s : St) :
    ∃ s', ∀ fuel, (uvHits hits).length < fuel → runApa g c endPts hits fuel apa s = some s' := by
  have hl : ∀ t, undecided g (uvHits hits) t < (uvHits hits).length + 1 := fun t => by
    have : undecided g (uvHits hits) t ≤ (uvHits hits).length := List.countP_le_length
    omega
  unfold runApa
  dsimp only
  generalize trivial g (zHits g hits apa) apa ((uvHits hits).filter fun h => g.apaOf h.chan = apa) s
    = s1
  obtain ⟨s2, h2⟩ : ∃ s2, ∀ fuel, (uvHits hits).length < fuel →
      (if c.doCrawl then crawl g (uvHits hits) c.jumps apa fuel s1 else some s1) = some s2 := by
    split
    · exact crawl_total g _ hw c.jumps apa _ s1 (hl _)
    · exact ⟨s1, fun _ _ => rfl⟩
  obtain ⟨s3, h3⟩ : ∃ s3, ∀ fuel, (uvHits hits).length < fuel →
      (if c.useEndP then useEndPts g (uvHits hits) (endPts apa) c.jumps apa fuel s2 else some s2)
        = some s3 := by
    split
    · unfold useEndPts
      split
      · exact ⟨s2, fun _ _ => rfl⟩
      · exact crawl_total g _ hw c.jumps apa _ _ (hl _)
    · exact ⟨s2, fun _ _ => rfl⟩
  obtain ⟨s4, h4⟩ : ∃ s4, ∀ fuel, (uvHits hits).length < fuel →
      (if c.doCompare then compareLoop g (uvHits hits) c.jumps apa fuel fuel s3 else some s3)
        = some s4 := by
    split
    · obtain ⟨s4, h4⟩ := compareLoop_total g _ hw c.jumps apa _ s3 (hl _)
      exact ⟨s4, fun fuel hf => h4 fuel fuel hf hf⟩
    · exact ⟨s3, fun _ _ => rfl⟩
  refine ⟨s4, fun fuel hf => ?_⟩
  rw [h2 fuel hf]
  simp only [Option.bind_some]
  rw [h3 fuel hf]
  simp only [Option.bind_some]
  exact h4 fuel hf

/-- **C177.** If every wire the geometry names for a channel is valid, the disambiguation
ends: whatever the hits and the configuration, no loop takes more passes than there are induction
hits plus one, and the result does not depend on the bound. -/
theorem C177_terminates (g : Geo) (hw : WiresValid g) (c : Cfg) (endPts : Nat → List Hit)
    (hits : List Hit) :
    ∃ l, ∀ fuel, (uvHits hits).length < fuel → run g c endPts hits fuel = some l := by
  unfold run
  generalize apas g hits = as
  generalize St.init = s
  generalize ([] : List (Hit × Wid)) = acc
  induction as generalizing s acc with
  | nil => exact ⟨acc, fun _ _ => rfl⟩
  | cons a as ih =>
    obtain ⟨s', hs⟩ := runApa_total g hw c endPts hits a s
    obtain ⟨l, hl⟩ := ih s' (acc ++ s'.out a)
    refine ⟨l, fun fuel hf => ?_⟩
    unfold runLoop
    rw [hs fuel hf]
    exact hl fuel hf

/-! ### C178: the crawl stops only where nothing is left to extend -/

theorem closeStep_zero {g : Geo} {ext : ℤ} {dw : Wid} {lo hi : ℚ} {c : Nat} {p : St × Nat} {h : Hit}
    (h0 : (closeStep g ext dw lo hi c p h).2 = p.2) : closeStep g ext dw lo hi c p h = p := by
  unfold closeStep at h0 ⊢
  split
  · rename_i ht
    rw [if_pos ht] at h0
    split
    · rfl
    · rename_i w hw
      rw [hw] at h0
      dsimp only at h0
      split
      · rfl
      · rename_i hd
        rw [if_neg hd] at h0
        simp at h0
  · rfl

theorem closeStep_mono (g : Geo) (ext : ℤ) (dw : Wid) (lo hi : ℚ) (c : Nat) (p : St × Nat) (h : Hit) :
    p.2 ≤ (closeStep g ext dw lo hi c p h).2 := by
  unfold closeStep
  split
  · split
    · exact le_refl _
    · split
      · exact le_refl _
      · simp
  · exact le_refl _

/-- A fold that counts its changes and ends with the count it began with has changed nothing. -/
theorem fold_zero {α : Type} (f : St × Nat → α → St × Nat) (l : List α)
    (hm : ∀ x ∈ l, ∀ p, p.2 ≤ (f p x).2) (hz : ∀ x ∈ l, ∀ p, (f p x).2 = p.2 → f p x = p) :
    ∀ p, p.2 ≤ (l.foldl f p).2 ∧
      ((l.foldl f p).2 = p.2 → l.foldl f p = p ∧ ∀ x ∈ l, f p x = p) := by
  induction l with
  | nil => intro p; exact ⟨le_refl _, fun _ => ⟨rfl, by simp⟩⟩
  | cons x xs ih =>
    intro p
    have ih' := ih (fun y hy => hm y (by simp [hy])) (fun y hy => hz y (by simp [hy]))
    have h1 := hm x (by simp) p
    have h2 := (ih' (f p x)).1
    rw [List.foldl_cons]
    refine ⟨h1.trans h2, fun he => ?_⟩
    have e1 : f p x = p := hz x (by simp) p (by omega)
    rw [e1] at he ⊢
    obtain ⟨a, b⟩ := (ih' p).2 he
    refine ⟨a, ?_⟩
    intro y hy
    rcases List.mem_cons.1 hy with rfl | hy
    · exact e1
    · exact b y hy

theorem closeHits_zero {g : Geo} {uv : List Hit} {ext : ℤ} {dw : Wid} {lo hi : ℚ} {s : St}
    (h0 : (closeHits g uv ext dw lo hi s).2 = 0) :
    (closeHits g uv ext dw lo hi s).1 = s ∧ ∀ o ∈ uv, (o.chan : ℤ) = closeChan g ext (g.chanOf dw) →
      touches lo hi o = true → (neighbour g ext dw o.chan).isSome →
      s.done (g.apaOf o.chan) (key o) = true := by
  unfold closeHits at h0 ⊢
  dsimp only at h0 ⊢
  obtain ⟨h1, h2⟩ := (fold_zero (closeStep g ext dw lo hi (closeChan g ext (g.chanOf dw)).toNat)
    (uv.filter fun h => (h.chan : ℤ) = closeChan g ext (g.chanOf dw))
    (fun x _ p => closeStep_mono ..) (fun x _ p h => closeStep_zero h) (s, 0)).2 h0
  refine ⟨by rw [h1], ?_⟩
  intro o ho hc ht hs
  have := h2 o (List.mem_filter.2 ⟨ho, by simpa using hc⟩)
  have hcn : (closeChan g ext (g.chanOf dw)).toNat = o.chan := by omega
  rw [hcn] at this
  unfold closeStep at this
  rw [if_pos ht] at this
  obtain ⟨w, hw⟩ := Option.isSome_iff_exists.1 hs
  rw [hw] at this
  dsimp only at this
  split at this
  · assumption
  · have := congrArg Prod.snd this
    simp at this

theorem jump_mono (g : Geo) (uv : List Hit) (h : Hit) (dw : Wid) (p : St × Nat) (e : Nat) :
    p.2 ≤ (jump g uv h dw p e).2 := by
  unfold jump
  dsimp only
  omega

theorem jump_zero {g : Geo} {uv : List Hit} {h : Hit} {dw : Wid} {p : St × Nat} {e : Nat}
    (h0 : (jump g uv h dw p e).2 = p.2) : jump g uv h dw p e = p := by
  unfold jump at h0 ⊢
  dsimp only at h0 ⊢
  have ha := (closeHits_zero (g := g) (uv := uv) (ext := -e) (dw := dw)
    (lo := h.st - 5 - (h.et - h.st) * e) (hi := h.et + 5 + (h.et - h.st) * e) (s := p.1) (by omega)).1
  rw [ha] at h0 ⊢
  have hb := (closeHits_zero (g := g) (uv := uv) (ext := e) (dw := dw)
    (lo := h.st - 5 - (h.et - h.st) * e) (hi := h.et + 5 + (h.et - h.st) * e) (s := p.1) (by omega)).1
  rw [hb]
  exact Prod.ext rfl h0

theorem crawlHit_fold {g : Geo} {uv : List Hit} (h : Hit) (dw : Wid) (jumps : Nat) (p : St × Nat) :
    p.2 ≤ ((List.range jumps).foldl (fun p e => jump g uv h dw p (e + 1)) p).2 ∧
      (((List.range jumps).foldl (fun p e => jump g uv h dw p (e + 1)) p).2 = p.2 →
        (List.range jumps).foldl (fun p e => jump g uv h dw p (e + 1)) p = p ∧
        ∀ e ∈ List.range jumps, jump g uv h dw p (e + 1) = p) :=
  fold_zero (fun p e => jump g uv h dw p (e + 1)) (List.range jumps)
    (fun _ _ _ => jump_mono ..) (fun _ _ _ h => jump_zero h) p

theorem crawlHit_mono (g : Geo) (uv : List Hit) (jumps apa : Nat) (p : St × Nat) (h : Hit) :
    p.2 ≤ (crawlHit g uv jumps apa p h).2 := by
  unfold crawlHit
  split
  · split
    · exact le_refl _
    · exact (crawlHit_fold h _ jumps p).1
  · exact le_refl _

theorem crawlHit_zero {g : Geo} {uv : List Hit} {jumps apa : Nat} {p : St × Nat} {h : Hit}
    (h0 : (crawlHit g uv jumps apa p h).2 = p.2) : crawlHit g uv jumps apa p h = p := by
  unfold crawlHit at h0 ⊢
  split
  · rename_i hd
    rw [if_pos hd] at h0
    split
    · rfl
    · rename_i dw hdw
      rw [hdw] at h0
      exact ((crawlHit_fold h dw jumps p).2 h0).1
  · rfl

theorem crawl_fix (g : Geo) (uv : List Hit) (jumps apa : Nat) :
    ∀ fuel s s', crawl g uv jumps apa fuel s = some s' →
      ∀ h ∈ uv, g.apaOf h.chan = apa → crawlHit g uv jumps apa (s', 0) h = (s', 0) := by
  intro fuel
  induction fuel with
  | zero => intro s s' h; simp [crawl] at h
  | succ n ih =>
    intro s s' h
    unfold crawl at h
    dsimp only at h
    split at h
    · rename_i h0
      cases h
      obtain ⟨h1, h2⟩ := (fold_zero (crawlHit g uv jumps apa) (uv.filter fun h => g.apaOf h.chan = apa)
        (fun _ _ _ => crawlHit_mono ..) (fun _ _ _ h => crawlHit_zero h) (s, 0)).2 h0
      intro x hx ha
      have e : (crawlPass g uv jumps apa s).1 = s := by
        unfold crawlPass; rw [h1]
      rw [e]
      exact h2 x (List.mem_filter.2 ⟨hx, by simpa using ha⟩)
    · exact ih _ _ h

/-- **C178.** When the crawl ends nothing is left to extend: for every decided hit `h` of the APA on
wire `w`, every distance `e` from 1 to the configured number of jumps and both sides `σ`, every hit on
the (wrapped) neighbour channel whose window has an end within 5 ticks plus `e` windows of `h`, and
whose channel has a wire in the same TPC exactly `σ e` wires away, is decided too. -/
theorem C178_crawl_fixpoint (g : Geo) (uv : List Hit) (jumps apa fuel : Nat) (s s' : St)
    (hc : crawl g uv jumps apa fuel s = some s')
    (h o : Hit) (hh : h ∈ uv) (ha : g.apaOf h.chan = apa) (hd : s'.done apa (key h) = true)
    (w : Wid) (hw : s'.wid (key h) = some w)
    (e : Nat) (he : 1 ≤ e) (hj : e ≤ jumps) (ext : ℤ) (hσ : ext = e ∨ ext = -e)
    (ho : o ∈ uv) (hoc : (o.chan : ℤ) = closeChan g ext (g.chanOf w))
    (ht : let lo := h.st - 5 - (h.et - h.st) * e
      let hi := h.et + 5 + (h.et - h.st) * e
      (lo ≤ o.st ∧ o.st ≤ hi) ∨ (lo ≤ o.et ∧ o.et ≤ hi))
    (v : Wid) (hv : v ∈ g.wires o.chan) (hvt : v.tpc = w.tpc) (hvw : (v.wire : ℤ) = w.wire + ext) :
    s'.done (g.apaOf o.chan) (key o) = true := by
  have hfix := crawl_fix g uv jumps apa fuel s s' hc h hh ha
  unfold crawlHit at hfix
  rw [if_pos hd, hw] at hfix
  dsimp only at hfix
  have hj' := ((crawlHit_fold h w jumps (s', 0)).2 (by rw [hfix])).2 (e - 1) (by simp; omega)
  rw [show e - 1 + 1 = e by omega] at hj'
  unfold jump at hj'
  dsimp only at hj'
  have hn : (neighbour g ext w o.chan).isSome := by
    unfold neighbour
    rw [List.find?_isSome]
    refine ⟨v, hv, ?_⟩
    simp [hvt]
    omega
  have hcount := congrArg Prod.snd hj'
  dsimp only at hcount
  have za := closeHits_zero (g := g) (uv := uv) (ext := -e) (dw := w)
    (lo := h.st - 5 - (h.et - h.st) * e) (hi := h.et + 5 + (h.et - h.st) * e) (s := s') (by omega)
  rcases hσ with rfl | rfl
  · rw [za.1] at hcount
    have zb := closeHits_zero (g := g) (uv := uv) (ext := e) (dw := w)
      (lo := h.st - 5 - (h.et - h.st) * e) (hi := h.et + 5 + (h.et - h.st) * e) (s := s') (by omega)
    exact zb.2 o ho hoc (by simpa [touches] using ht) hn
  · exact za.2 o ho hoc (by simpa [touches] using ht) hn

/-! ### C179: overlap in time -/

/-- The two closed windows, each shifted by the offset of its view, meet. -/
def Meets (g : Geo) (a b : Hit) : Prop :=
  ∃ t : ℚ, (a.st - offset g a.view ≤ t ∧ t ≤ a.et - offset g a.view) ∧
    (b.st - offset g b.view ≤ t ∧ t ≤ b.et - offset g b.view)

theorem four_iff {as ae bs be : ℚ} (ha : as ≤ ae) (hb : bs ≤ be) :
    ((as ≤ bs ∧ bs ≤ ae) ∨ (as ≤ be ∧ be ≤ ae) ∨ (bs ≤ as ∧ as ≤ be) ∨ (bs ≤ ae ∧ ae ≤ be)) ↔
      ∃ t, (as ≤ t ∧ t ≤ ae) ∧ (bs ≤ t ∧ t ≤ be) := by
  constructor
  · rintro (⟨h1, h2⟩ | ⟨h1, h2⟩ | ⟨h1, h2⟩ | ⟨h1, h2⟩)
    · exact ⟨bs, ⟨h1, h2⟩, le_refl _, hb⟩
    · exact ⟨be, ⟨h1, h2⟩, hb, le_refl _⟩
    · exact ⟨as, ⟨le_refl _, ha⟩, h1, h2⟩
    · exact ⟨ae, ⟨ha, le_refl _⟩, h1, h2⟩
  · rintro ⟨t, ⟨h1, h2⟩, h3, h4⟩
    rcases le_total as bs with h | h
    · exact .inl ⟨h, h3.trans h2⟩
    · exact .inr (.inr (.inl ⟨h, h1.trans h4⟩))

/-- **C179 (partial).** If the second hit is on V, or if the U and Z time offsets are zero, two hits
overlap in time exactly when their windows, shifted by the offset of their view, meet. -/
theorem C179_overlap_partial (g : Geo) (a b : Hit) (ha : a.st ≤ a.et) (hb : b.st ≤ b.et)
    (h : b.view = .V ∨ (g.offU = 0 ∧ g.offZ = 0)) : overlap g a b = true ↔ Meets g a b := by
  unfold overlap Meets
  dsimp only
  rw [decide_eq_true_eq]
  rcases h with h | ⟨h1, h2⟩
  · simp only [h, reduceCtorEq, false_and, if_false, offset]
    exact four_iff (by linarith) (by linarith)
  · cases hv : b.view <;> cases hu : a.view <;>
      simp only [hu, hv, h1, h2, reduceCtorEq, true_and, and_true, if_true, if_false, and_self,
        and_false, false_and, offset, sub_zero, add_zero] <;>
      exact four_iff (by linarith) (by linarith)

/-- Under the same condition on the geometry, overlap is symmetric. -/
theorem C179_overlap_symm_partial (g : Geo) (a b : Hit) (ha : a.st ≤ a.et) (hb : b.st ≤ b.et)
    (h1 : g.offU = 0) (h2 : g.offZ = 0) : overlap g a b = overlap g b a := by
  rw [Bool.eq_iff_iff, C179_overlap_partial g a b ha hb (.inr ⟨h1, h2⟩),
    C179_overlap_partial g b a hb ha (.inr ⟨h1, h2⟩)]
  unfold Meets
  constructor <;> rintro ⟨t, x, y⟩ <;> exact ⟨t, y, x⟩

/-- **C179, a collection hit in second place.** An induction hit overlaps it exactly when its window, shifted by
the offset of its view, meets the window of the collection hit as it is (not shifted by the offset of Z);
two collection hits overlap exactly when the window of the first, shifted twice, meets that of the second. -/
theorem C179_second_collection_partial (g : Geo) (a b : Hit) (ha : a.st ≤ a.et) (hb : b.st ≤ b.et) (hz : b.view = .Z) :
    overlap g a b = true ↔
      ∃ t, (a.st - (match a.view with | .U => g.offU | .V => g.offV | .Z => 2 * g.offZ) ≤ t ∧
          t ≤ a.et - (match a.view with | .U => g.offU | .V => g.offV | .Z => 2 * g.offZ)) ∧
        (b.st ≤ t ∧ t ≤ b.et) := by
  unfold overlap
  dsimp only
  rw [decide_eq_true_eq]
  have e : ∀ x : ℚ, x - g.offZ - g.offZ = x - 2 * g.offZ := by intro x; ring
  cases hv : a.view <;>
    simp only [hz, hv, reduceCtorEq, true_and, and_true, if_true, if_false, and_self, and_false, offset, e] <;>
    exact four_iff (by linarith) (by linarith)

/-! ### C180: the trivial stage -/

/-- The wire is compatible with the collection view: some Z hit of the APA on a channel strictly
between those of the two ends of the wire overlaps the hit in time. -/
def Supported (g : Geo) (zs : List Hit) (apa : Nat) (h : Hit) (w : Wid) : Prop :=
  ∃ z ∈ zs, g.zmin apa w < z.chan ∧ z.chan < g.zmax apa w ∧ overlap g h z = true

theorem reasonable_iff (g : Geo) (zs : List Hit) (apa : Nat) (h : Hit) (w : Wid) :
    reasonable g zs apa h w = true ↔ Supported g zs apa h w := by
  unfold reasonable Supported
  simp only [List.any_eq_true, Bool.and_eq_true, decide_eq_true_eq, not_or, not_le]
  constructor
  · rintro ⟨z, hz, ⟨a, b⟩, c⟩; exact ⟨z, hz, a, b, c⟩
  · rintro ⟨z, hz, a, b, c⟩; exact ⟨z, hz, ⟨a, b⟩, c⟩

/-- **C180.** The trivial stage gives an undecided hit the wire `w` exactly when `w` is the only
supported entry of the wire list of its channel; otherwise it leaves the status alone. -/
theorem C180_trivial (g : Geo) (zs : List Hit) (apa : Nat) (s : St) (h : Hit)
    (hv : WiresValid g) (hnd : (g.wires h.chan).Nodup) (hu : s.done apa (key h) = false) :
    (∀ w, w ∈ g.wires h.chan → Supported g zs apa h w →
      (∀ v ∈ g.wires h.chan, Supported g zs apa h v → v = w) →
      (trivialHit g zs apa s h).out apa = s.out apa ++ [(h, w)] ∧
        (trivialHit g zs apa s h).wid (key h) = some w) ∧
    ((¬ ∃ w, w ∈ g.wires h.chan ∧ Supported g zs apa h w ∧
      ∀ v ∈ g.wires h.chan, Supported g zs apa h v → v = w) → trivialHit g zs apa s h = s) := by
  constructor
  · intro w hw hs hu1
    have hgood : (g.wires h.chan).filter (reasonable g zs apa h) = [w] := by
      have hmem : w ∈ (g.wires h.chan).filter (reasonable g zs apa h) :=
        List.mem_filter.2 ⟨hw, (reasonable_iff ..).2 hs⟩
      have hall : ∀ v ∈ (g.wires h.chan).filter (reasonable g zs apa h), v = w := by
        intro v hvm
        obtain ⟨a, b⟩ := List.mem_filter.1 hvm
        exact hu1 v a ((reasonable_iff ..).1 b)
      have hn : ((g.wires h.chan).filter (reasonable g zs apa h)).Nodup := hnd.filter _
      revert hmem hall hn
      generalize (g.wires h.chan).filter (reasonable g zs apa h) = l
      intro hmem hall hn
      match l with
      | [] => simp at hmem
      | [x] => rw [hall x (by simp)]
      | x :: y :: t =>
        have e1 := hall x (by simp)
        have e2 := hall y (by simp)
        subst e1
        rw [e2] at hn
        simp at hn
    unfold trivialHit
    dsimp only
    rw [hgood]
    have hvw := hv _ w hw
    simp [makeHit, hu, hvw]
  · intro hne
    unfold trivialHit
    dsimp only
    split
    · rename_i hl
      exfalso
      apply hne
      obtain ⟨w, hw⟩ := List.length_eq_one_iff.1 hl
      have hm : w ∈ (g.wires h.chan).filter (reasonable g zs apa h) := by rw [hw]; simp
      obtain ⟨a, b⟩ := List.mem_filter.1 hm
      refine ⟨w, a, (reasonable_iff ..).1 b, ?_⟩
      intro v hvm hvs
      have : v ∈ (g.wires h.chan).filter (reasonable g zs apa h) :=
        List.mem_filter.2 ⟨hvm, (reasonable_iff ..).2 hvs⟩
      rw [hw] at this
      simpa using this
    · rfl

theorem sum_zero_iff (l : List Nat) : l.sum = 0 ↔ ∀ x ∈ l, x = 0 := by
  induction l with
  | nil => simp
  | cons a l ih => simp only [List.sum_cons, Nat.add_eq_zero_iff, ih, List.forall_mem_cons]

theorem le_sum_mem {l : List Nat} {x : Nat} (h : x ∈ l) : x ≤ l.sum := by
  induction l with
  | nil => simp at h
  | cons a l ih =>
    rw [List.sum_cons]
    rcases List.mem_cons.1 h with rfl | h
    · omega
    · have := ih h; omega

/-! ### C181: comparing the views -/

/-- A wire `w` of the ambiguous hit is crossed in its TPC by the wire of a decided hit of the other
view that overlaps in time. -/
def CrossedByDecided (g : Geo) (hits : List Hit) (s : St) (apa : Nat) (h : Hit) (w : Wid) : Prop :=
  ∃ o ∈ hits, o.view ≠ h.view ∧ overlap g h o = true ∧ s.done apa (key o) = true ∧
    ∃ v, s.wid (key o) = some v ∧ w.tpc = v.tpc ∧ g.cross w v = true

/-- A wire `w` is crossed by some wire of the channel of an undecided overlapping hit of the other
view. -/
def CrossedByOpen (g : Geo) (hits : List Hit) (s : St) (apa : Nat) (h : Hit) (w : Wid) : Prop :=
  ∃ o ∈ hits, o.view ≠ h.view ∧ overlap g h o = true ∧ s.done apa (key o) = false ∧
    ∃ v ∈ g.wires o.chan, w.tpc = v.tpc ∧ g.cross w v = true

theorem dCount_pos (g : Geo) (hits : List Hit) (s : St) (apa : Nat) (h : Hit) (w : Wid) :
    0 < dCount g s apa (otherView g hits h) w ↔ CrossedByDecided g hits s apa h w := by
  unfold dCount otherView CrossedByDecided
  rw [List.countP_pos_iff]
  constructor
  · rintro ⟨o, ho, hp⟩
    obtain ⟨h1, h2⟩ := List.mem_filter.1 ho
    simp only [Bool.and_eq_true, decide_eq_true_eq] at h2 hp
    refine ⟨o, h1, h2.1, h2.2, hp.1, ?_⟩
    have := hp.2
    split at this
    · cases this
    · rename_i v hv
      simp only [Bool.and_eq_true, decide_eq_true_eq] at this
      exact ⟨v, hv, this⟩
  · rintro ⟨o, h1, h2, h3, h4, v, h5, h6, h7⟩
    refine ⟨o, List.mem_filter.2 ⟨h1, by simp [h2, h3]⟩, ?_⟩
    simp [h4, h5, h6, h7]

theorem aCount_zero (g : Geo) (hits : List Hit) (s : St) (apa : Nat) (h : Hit) (w : Wid) :
    aCount g s apa (otherView g hits h) w = 0 ↔ ¬ CrossedByOpen g hits s apa h w := by
  unfold aCount otherView CrossedByOpen
  rw [sum_zero_iff]
  constructor
  · rintro hz ⟨o, h1, h2, h3, h4, v, h5, h6, h7⟩
    have := hz _ (List.mem_map.2 ⟨o, List.mem_filter.2
      ⟨List.mem_filter.2 ⟨h1, by simp [h2, h3]⟩, by simp [h4]⟩, rfl⟩)
    rw [List.countP_eq_zero] at this
    exact this v h5 (by simp [h6, h7])
  · intro hne x hx
    obtain ⟨o, ho, rfl⟩ := List.mem_map.1 hx
    obtain ⟨ho1, ho2⟩ := List.mem_filter.1 ho
    obtain ⟨h1, h2⟩ := List.mem_filter.1 ho1
    simp only [Bool.and_eq_true, decide_eq_true_eq] at h2
    rw [List.countP_eq_zero]
    intro v hv hc
    simp only [Bool.and_eq_true, decide_eq_true_eq] at hc
    exact hne ⟨o, h1, h2.1, h2.2, by simpa using ho2, v, hv, hc⟩

theorem sum_eq_one_of {α : Type} (f : α → Nat) (l : List α) (hnd : l.Nodup) (w : α) (hw : w ∈ l)
    (hz : ∀ v ∈ l, v ≠ w → f v = 0) : (l.map f).sum = f w := by
  induction l with
  | nil => simp at hw
  | cons x xs ih =>
    rw [List.map_cons, List.sum_cons]
    have hx := List.nodup_cons.1 hnd
    rcases List.mem_cons.1 hw with rfl | hm
    · have : (xs.map f).sum = 0 := by
        rw [sum_zero_iff]
        intro y hy
        obtain ⟨v, hv, rfl⟩ := List.mem_map.1 hy
        exact hz v (by simp [hv]) (fun e => hx.1 (e ▸ hv))
      omega
    · rw [ih hx.2 hm (fun v hv hne => hz v (by simp [hv]) hne)]
      rw [hz x (by simp) (fun e => hx.1 (e ▸ hm))]
      omega

theorem foldl_id {α β : Type} (f : β → α → β) (l : List α) (b : β) (h : ∀ x ∈ l, ∀ q, f q x = q) :
    l.foldl f b = b := by
  induction l with
  | nil => rfl
  | cons x xs ih =>
    rw [List.foldl_cons, h x (by simp)]
    exact ih (fun y hy => h y (by simp [hy]))

theorem foldl_single {α β : Type} (f : β → α → β) (l : List α) (hnd : l.Nodup) (b : β) (w : α)
    (hw : w ∈ l) (h : ∀ x ∈ l, x ≠ w → ∀ q, f q x = q) : l.foldl f b = f b w := by
  induction l generalizing b with
  | nil => simp at hw
  | cons x xs ih =>
    have hx := List.nodup_cons.1 hnd
    rw [List.foldl_cons]
    rcases List.mem_cons.1 hw with rfl | hm
    · exact foldl_id f xs _ (fun y hy q => h y (by simp [hy]) (fun e => hx.1 (e ▸ hy)) q)
    · rw [h x (by simp) (fun e => hx.1 (e ▸ hm))]
      exact ih hx.2 b hm (fun y hy hne q => h y (by simp [hy]) hne q)

/-- **C181 (partial).** The comparison of the views gives an undecided hit the wire `w` exactly when
`w` is the only wire of its channel crossed by decided hits of the other view and no wire of its
channel is crossed by an undecided hit of the other view; otherwise it leaves the hit alone. -/
theorem C181_compare_partial (g : Geo) (hits : List Hit) (apa : Nat) (s : St) (n : Nat) (h : Hit)
    (hv : WiresValid g) (hnd : (g.wires h.chan).Nodup) (hu : s.done apa (key h) = false) :
    (∀ w ∈ g.wires h.chan, CrossedByDecided g hits s apa h w →
      (∀ v ∈ g.wires h.chan, CrossedByDecided g hits s apa h v → v = w) →
      (∀ v ∈ g.wires h.chan, ¬ CrossedByOpen g hits s apa h v) →
      compareHit g hits apa (s, n) h = (makeHit h w apa s, n + 1) ∧
        (makeHit h w apa s).out apa = s.out apa ++ [(h, w)]) ∧
    ((¬ ∃ w ∈ g.wires h.chan, CrossedByDecided g hits s apa h w ∧
      (∀ v ∈ g.wires h.chan, CrossedByDecided g hits s apa h v → v = w) ∧
      (∀ v ∈ g.wires h.chan, ¬ CrossedByOpen g hits s apa h v)) →
      compareHit g hits apa (s, n) h = (s, n)) := by
  have hu' : ¬ (s.done apa (key h) = true) := by simp [hu]
  constructor
  · intro w hw hc h1 h2
    have hD : ((g.wires h.chan).map (dCount g s apa (otherView g hits h))).sum
        = dCount g s apa (otherView g hits h) w := by
      apply sum_eq_one_of _ _ hnd w hw
      intro v hvm hne
      by_contra hp
      exact hne (h1 v hvm ((dCount_pos ..).1 (by omega)))
    have hA : ((g.wires h.chan).map (aCount g s apa (otherView g hits h))).sum = 0 := by
      rw [sum_zero_iff]
      intro x hx
      obtain ⟨v, hvm, rfl⟩ := List.mem_map.1 hx
      exact (aCount_zero ..).2 (h2 v hvm)
    have hpos := (dCount_pos g hits s apa h w).2 hc
    refine ⟨?_, by simp [makeHit, hu, hv _ w hw]⟩
    unfold compareHit
    rw [if_neg hu']
    dsimp only
    rw [foldl_single _ _ hnd (s, n) w hw, if_pos ⟨hD, by omega, hA⟩]
    intro x hx hne q
    rw [if_neg]
    rintro ⟨e1, e2, _⟩
    exact hne (h1 x hx ((dCount_pos ..).1 (by omega)))
  · intro hno
    unfold compareHit
    rw [if_neg hu']
    dsimp only
    apply foldl_id
    intro w hw q
    rw [if_neg]
    rintro ⟨e1, e2, e3⟩
    apply hno
    refine ⟨w, hw, (dCount_pos ..).1 (by omega), ?_, ?_⟩
    · intro v hvm hvc
      by_contra hne
      have hp1 := (dCount_pos g hits s apa h v).2 hvc
      have hle : dCount g s apa (otherView g hits h) v + dCount g s apa (otherView g hits h) w ≤
          ((g.wires h.chan).map (dCount g s apa (otherView g hits h))).sum := by
        clear e1 e2 e3 hno
        generalize dCount g s apa (otherView g hits h) = f
        generalize g.wires h.chan = l at hw hvm
        induction l with
        | nil => simp at hw
        | cons x xs ih =>
          rw [List.map_cons, List.sum_cons]
          have single : ∀ u ∈ xs, f u ≤ (xs.map f).sum := fun u hu' =>
            le_sum_mem (List.mem_map.2 ⟨u, hu', rfl⟩)
          rcases List.mem_cons.1 hw with e1 | hw'
          · rcases List.mem_cons.1 hvm with e2 | hvm'
            · exact absurd (e2.trans e1.symm) hne
            · have := single v hvm'; rw [← e1]; omega
          · rcases List.mem_cons.1 hvm with e2 | hvm'
            · have := single w hw'; rw [← e2]; omega
            · have := ih hw' hvm'; omega
      omega
    · intro v hvm
      rw [← aCount_zero]
      rw [sum_zero_iff] at e3
      exact e3 _ (List.mem_map.2 ⟨v, hvm, rfl⟩)

/-! ### C182: end points -/

theorem foldRange (as : List ℚ) : ∀ p : ℚ × ℚ,
    let r := as.foldl (fun p a => (if a < p.1 then a else p.1, if a > p.2 then a else p.2)) p
    r.1 ≤ p.1 ∧ p.2 ≤ r.2 ∧ ∀ a ∈ as, r.1 ≤ a ∧ a ≤ r.2 := by
  induction as with
  | nil => intro p; simp
  | cons x xs ih =>
    intro p
    dsimp only [List.foldl_cons]
    obtain ⟨h1, h2, h3⟩ := ih (if x < p.1 then x else p.1, if x > p.2 then x else p.2)
    dsimp only at h1 h2 h3
    have e1 : (if x < p.1 then x else p.1) ≤ p.1 ∧ (if x < p.1 then x else p.1) ≤ x := by
      split
      · rename_i h; exact ⟨le_of_lt h, le_refl _⟩
      · rename_i h; exact ⟨le_refl _, not_lt.1 h⟩
    have e2 : p.2 ≤ (if x > p.2 then x else p.2) ∧ x ≤ (if x > p.2 then x else p.2) := by
      split
      · rename_i h; exact ⟨le_of_lt h, le_refl _⟩
      · rename_i h; exact ⟨le_refl _, not_lt.1 h⟩
    refine ⟨h1.trans e1.1, e2.1.trans h2, ?_⟩
    intro a ha
    rcases List.mem_cons.1 ha with rfl | ha
    · exact ⟨h1.trans e1.2, e2.2.trans h2⟩
    · exact h3 a ha

theorem foldRange_attained (as : List ℚ) : ∀ p : ℚ × ℚ,
    let r := as.foldl (fun p a => (if a < p.1 then a else p.1, if a > p.2 then a else p.2)) p
    (r.1 = p.1 ∨ r.1 ∈ as) ∧ (r.2 = p.2 ∨ r.2 ∈ as) := by
  induction as with
  | nil => intro p; simp
  | cons x xs ih =>
    intro p
    dsimp only [List.foldl_cons]
    obtain ⟨h1, h2⟩ := ih (if x < p.1 then x else p.1, if x > p.2 then x else p.2)
    dsimp only at h1 h2
    constructor
    · rcases h1 with h1 | h1
      · rw [h1]; split <;> simp
      · simp [h1]
    · rcases h2 with h2 | h2
      · rw [h2]; split <;> simp
      · simp [h2]

theorem isEndPoint_cone (pi r : ℚ) (as : List ℚ) (h : isEndPoint pi r as = true) :
    5 ≤ as.length ∧ (∀ a ∈ as, ∀ b ∈ as, a - b < r) ∧ ∀ a ∈ as, -r < a := by
  unfold isEndPoint at h
  split at h
  · cases h
  rename_i hl
  dsimp only at h
  rw [decide_eq_true_eq] at h
  obtain ⟨h1, h2, h3⟩ := foldRange as (2 * pi + 1, 0)
  dsimp only at h1 h2 h3
  have : ((angleRange pi as).2 - (angleRange pi as).1 < r) := by
    split at h
    · obtain ⟨k1, k2, _⟩ := foldRange (as.map (reflect pi)) (angleRange pi as)
      linarith
    · exact h
  unfold angleRange at this
  refine ⟨by omega, fun a ha b hb => ?_, fun a ha => ?_⟩
  · linarith [(h3 a ha).2, (h3 b hb).1]
  · linarith [(h3 a ha).1]

/-- **C182 (partial).** Soundness for every list of angles; and if all the close hits lie at angles
in `[0, π]` the decision is exactly "at least five close hits, in a cone narrower than the range". -/
theorem C182_endpoint_partial (pi r : ℚ) (as : List ℚ) :
    (isEndPoint pi r as = true → 5 ≤ as.length ∧ ∀ a ∈ as, ∀ b ∈ as, a - b < r) ∧
    (r ≤ pi → (∀ a ∈ as, 0 ≤ a ∧ a ≤ pi) →
      (isEndPoint pi r as = true ↔ 5 ≤ as.length ∧ ∀ a ∈ as, ∀ b ∈ as, a - b < r)) := by
  have snd : isEndPoint pi r as = true → 5 ≤ as.length ∧ ∀ a ∈ as, ∀ b ∈ as, a - b < r := fun h =>
    ⟨(isEndPoint_cone pi r as h).1, (isEndPoint_cone pi r as h).2.1⟩
  refine ⟨snd, fun hr hpos => ⟨snd, ?_⟩⟩
  rintro ⟨hl, hc⟩
  unfold isEndPoint
  rw [if_neg (by omega)]
  dsimp only
  have hfar : (as.any fun a => decide (¬ a + r > pi ∧ a - r < -pi)) = false := by
    rw [List.any_eq_false]
    intro a ha
    have := hpos a ha
    simp only [decide_eq_true_eq, not_and, not_lt]
    intro _
    linarith
  rw [hfar, Bool.and_false]
  simp only [Bool.false_eq_true, if_false, decide_eq_true_eq]
  obtain ⟨h1, h2⟩ := foldRange_attained as (2 * pi + 1, 0)
  obtain ⟨k1, k2, k3⟩ := foldRange as (2 * pi + 1, 0)
  dsimp only at h1 h2 k1 k2 k3
  unfold angleRange
  obtain ⟨a0, ha0⟩ : ∃ a, a ∈ as := by
    match as, hl with
    | a :: _, _ => exact ⟨a, by simp⟩
  have hmin : (as.foldl (fun p a => (if a < p.1 then a else p.1, if a > p.2 then a else p.2)) (2 * pi + 1, 0)).1 ∈ as := by
    rcases h1 with h1 | h1
    · exfalso
      have := (k3 a0 ha0).1
      have := hpos a0 ha0
      linarith
    · exact h1
  rcases h2 with h2 | h2
  · rw [h2]
    have := hc _ hmin _ hmin
    have := (hpos _ hmin).1
    linarith
  · exact hc _ h2 _ hmin

/-! ### C183: end points of the three views -/

/-- **C183 (partial).** A collection end point with exactly one overlapping U end point and one
overlapping V end point gives both the wire nearest to the common crossing of the three channels;
with exactly one U end point, no or several V end points and a single crossing of the two channels
it gives the U end point the wire nearest to that crossing. -/
theorem C183_endpoint_use_partial (g : Geo) (endPts : List Hit) (apa : Nat) (s : St) (z u : Hit)
    (hu : (endPts.filter fun h => overlap g z h && decide (h.view = .U)) = [u]) :
    (∀ v, (endPts.filter fun h => overlap g z h && decide (h.view = .V)) = [v] →
      useZ g endPts apa s z =
        makeHit v (g.nearest (g.threePos u.chan v.chan z.chan) v.chan z.tpc 1) apa
          (makeHit u (g.nearest (g.threePos u.chan v.chan z.chan) u.chan z.tpc 0) apa s)) ∧
    (∀ p, (endPts.filter fun h => overlap g z h && decide (h.view = .V)).length ≠ 1 →
      g.inter u.chan z.chan = [p] →
      useZ g endPts apa s z = makeHit u (g.nearest p u.chan z.tpc 0) apa s) := by
  have e : ∀ v, v ≠ View.Z → endMatch g endPts z v
      = endPts.filter fun h => overlap g z h && decide (h.view = v) := by
    intro v hv
    unfold endMatch
    apply List.filter_congr
    intro h _
    by_cases hh : h.view = v
    · simp [hh, hv]
    · simp [hh]
  constructor
  · intro v hv
    unfold useZ
    rw [e _ (by decide), e _ (by decide), hu, hv]
  · intro p hv hp
    unfold useZ
    rw [e _ (by decide), e _ (by decide), hu]
    generalize (endPts.filter fun h => overlap g z h && decide (h.view = .V)) = l at hv
    match l with
    | [] => simp [hp]
    | [_] => simp at hv
    | _ :: _ :: _ => simp [hp]

/-- A V end point is used only together with a U end point: with no or several overlapping U end
points nothing is decided, whatever the V end points. -/
theorem C183_no_u (g : Geo) (endPts : List Hit) (apa : Nat) (s : St) (z : Hit)
    (hu : (endPts.filter fun h => overlap g z h && decide (h.view = .U)).length ≠ 1) :
    useZ g endPts apa s z = s := by
  have e : endMatch g endPts z .U
      = endPts.filter fun h => overlap g z h && decide (h.view = .U) := by
    unfold endMatch
    apply List.filter_congr
    intro h _
    by_cases hh : h.view = .U
    · simp [hh]
    · simp [hh]
  unfold useZ
  rw [e]
  generalize (endPts.filter fun h => overlap g z h && decide (h.view = .U)) = l at hu
  match l with
  | [] => rfl
  | [_] => simp at hu
  | _ :: _ :: _ => rfl

/-! ### C184: the neighbour channel and window -/

/-- **C184 (partial).** The neighbour channel stays among the channels of the view of the APA and is
`ext` channels away up to a turn; a neighbour hit with a window no longer than the search range is
taken into account exactly when its window meets the range. -/
theorem C184_neighbour_partial (g : Geo) (ext : ℤ) (c : Nat)
    (h1 : g.first (g.viewOf c) c ≤ c) (h2 : c < g.first (g.viewOf c) c + g.perView (g.viewOf c))
    (h3 : ext.natAbs ≤ g.perView (g.viewOf c)) :
    ((g.first (g.viewOf c) c : ℤ) ≤ closeChan g ext c ∧
      closeChan g ext c < g.first (g.viewOf c) c + g.perView (g.viewOf c) ∧
      (g.perView (g.viewOf c) : ℤ) ∣ closeChan g ext c - (c + ext)) ∧
    ∀ (lo hi : ℚ) (h : Hit), h.st ≤ h.et → lo ≤ hi → h.et - h.st ≤ hi - lo →
      (touches lo hi h = true ↔ ∃ t, (lo ≤ t ∧ t ≤ hi) ∧ (h.st ≤ t ∧ t ≤ h.et)) := by
  constructor
  · unfold closeChan
    dsimp only
    generalize g.first (g.viewOf c) c = f at *
    generalize g.perView (g.viewOf c) = n at *
    by_cases ha : (c : ℤ) + ext < f
    · rw [if_pos ha, if_neg (by omega)]
      exact ⟨by omega, by omega, ⟨1, by ring⟩⟩
    · rw [if_neg ha]
      by_cases hb : (c : ℤ) + ext > f + n - 1
      · rw [if_pos hb]
        exact ⟨by omega, by omega, ⟨-1, by ring⟩⟩
      · rw [if_neg hb]
        exact ⟨by omega, by omega, ⟨0, by ring⟩⟩
  · intro lo hi h h4 h5 h6
    unfold touches
    rw [decide_eq_true_eq]
    constructor
    · rintro (h | h)
      · exact ⟨_, h, le_refl _, h4⟩
      · exact ⟨_, h, h4, le_refl _⟩
    · rintro ⟨t, ⟨k1, k2⟩, k3, k4⟩
      by_cases hs : lo ≤ h.st
      · exact .inl ⟨hs, k3.trans k2⟩
      · exact .inr ⟨k1.trans k4, by linarith⟩

/-- **C184, the wire.** A hit newly decided by the extension of a decided wire `dw` gets a wire of its own channel in
the TPC of `dw`, exactly `ext` wires away, and has an end of its window in the search range. -/
theorem C184_wire (g : Geo) (uv : List Hit) (ext : ℤ) (dw : Wid) (lo hi : ℚ) (s : St) (a : Nat) (p : Hit × Wid)
    (hp : p ∈ (closeHits g uv ext dw lo hi s).1.out a) :
    p ∈ s.out a ∨ (p.1 ∈ uv ∧ (∃ c, p.2 ∈ g.wires c ∧ (p.1.chan : ℤ) = closeChan g ext (g.chanOf dw) ∧
      (c : ℤ) = max 0 (closeChan g ext (g.chanOf dw))) ∧
      p.2.tpc = dw.tpc ∧ (p.2.wire : ℤ) = dw.wire + ext ∧
      ((lo ≤ p.1.st ∧ p.1.st ≤ hi) ∨ (lo ≤ p.1.et ∧ p.1.et ≤ hi))) := by
  unfold closeHits at hp
  dsimp only at hp
  generalize hc : closeChan g ext (g.chanOf dw) = c at *
  suffices H : ∀ (l : List Hit), (∀ h ∈ l, h ∈ uv ∧ (h.chan : ℤ) = c) → ∀ q : St × Nat,
      p ∈ (l.foldl (closeStep g ext dw lo hi c.toNat) q).1.out a → p ∈ q.1.out a ∨
        (p.1 ∈ uv ∧ (∃ d, p.2 ∈ g.wires d ∧ (p.1.chan : ℤ) = c ∧ (d : ℤ) = max 0 c) ∧
        p.2.tpc = dw.tpc ∧ (p.2.wire : ℤ) = dw.wire + ext ∧
        ((lo ≤ p.1.st ∧ p.1.st ≤ hi) ∨ (lo ≤ p.1.et ∧ p.1.et ≤ hi))) from
    H _ (fun h hh => ⟨(List.mem_filter.1 hh).1, by simpa using (List.mem_filter.1 hh).2⟩) (s, 0) hp
  intro l
  induction l with
  | nil => intro _ q h; exact Or.inl h
  | cons h l ih =>
    intro hl q hq
    rw [List.foldl_cons] at hq
    rcases ih (fun x hx => hl x (by simp [hx])) _ hq with h1 | h1
    · unfold closeStep at h1
      split at h1
      · rename_i ht
        split at h1
        · exact Or.inl h1
        · rename_i w hw
          split at h1
          · exact Or.inl h1
          · dsimp only at h1
            unfold makeHit at h1
            split at h1
            · exact Or.inl h1
            · split at h1
              · exact Or.inl h1
              · dsimp only at h1
                split at h1
                · rcases List.mem_append.1 h1 with h2 | h2
                  · exact Or.inl h2
                  · right
                    simp at h2
                    subst h2
                    unfold neighbour at hw
                    have hm := List.mem_of_find?_eq_some hw
                    have hpr := List.find?_some hw
                    simp only [decide_eq_true_eq] at hpr
                    unfold touches at ht
                    refine ⟨(hl h (by simp)).1, ⟨c.toNat, hm, (hl h (by simp)).2, by omega⟩, hpr.1,
                      by dsimp only; omega, of_decide_eq_true ht⟩
                · exact Or.inl h1
      · exact Or.inl h1
    · exact Or.inr h1

/-- **C183, two induction end points.** Without a collection end point, two end points that overlap in time and whose
channels cross once are both given the wire nearest to the crossing; if they do not overlap nothing is
decided. -/
theorem C183_two_inductions (g : Geo) (x y : Hit) (apa : Nat) (s : St) (hx : x.view ≠ .Z) (hy : y.view ≠ .Z) :
    (∀ p, overlap g x y = true → g.inter x.chan y.chan = [p] →
      usePts g [x, y] apa s =
        makeHit y (g.nearest p y.chan p.tpc (if y.view = .V then 1 else 0)) apa
          (makeHit x (g.nearest p x.chan p.tpc (if x.view = .V then 1 else 0)) apa s)) ∧
    (overlap g x y = false → usePts g [x, y] apa s = s) := by
  have hz : ([x, y].filter fun h => decide (h.view = .Z)) = [] := by simp [hx, hy]
  constructor
  · intro p ho hi
    unfold usePts
    dsimp only
    rw [hz]
    simp only [List.foldl_nil, ho, if_true, hi]
    rfl
  · intro ho
    unfold usePts
    dsimp only
    rw [hz]
    simp [ho]

/-- **C185.** On a consistent geometry (a wire named for a channel belongs to that channel, a hit
carries the view of its channel) the extension never throws: in every status the algorithm can be in,
the wire of a decided hit is not on a collection channel. -/
theorem C185_no_throw (g : Geo) (hits : List Hit) (s : St) (hi : Inv g (uvHits hits) s)
    (hg : ∀ c, ∀ w ∈ g.wires c, g.chanOf w = c) (hv : ∀ h ∈ hits, h.view = g.viewOf h.chan)
    (h : Hit) (a : Nat) (hd : s.done a (key h) = true) :
    ∃ w, s.wid (key h) = some w ∧ closeThrows g w = false := by
  obtain ⟨p, hp, hk⟩ := (hi.done_iff a _).1 hd
  have hok := hi.ok a p hp
  refine ⟨p.2, ?_, ?_⟩
  · rw [← hk]; exact hi.wid a p hp
  · unfold closeThrows
    rw [decide_eq_false_iff_not, hg _ _ hok.2.2.1]
    obtain ⟨m1, m2⟩ := List.mem_filter.1 hok.1
    rw [← hv _ m1]
    simpa using m2

/-! ### Concrete cases -/

/-- A small APA: U channels 0-3 and V channels 4-7, each connected to two wires (one per TPC),
collection channels from 8.  Wire `c` of TPC 0 and wire `c + 4` of TPC 1. -/
def toy (offU offZ : ℚ) (bad : Nat) : Geo where
  wires c := if c < 8 then [⟨c ≠ bad, 0, c / 4, c % 4⟩, ⟨c ≠ bad, 1, c / 4, c % 4 + 4⟩] else []
  chanOf w := w.plane * 4 + w.wire % 4
  viewOf c := if c < 4 then .U else if c < 8 then .V else .Z
  first v _ := match v with | .U => 0 | .V => 4 | .Z => 8
  perView _ := 4
  apaOf _ := 0
  zmin _ w := if w.tpc = 0 then 8 else 18
  zmax _ w := if w.tpc = 0 then 18 else 28
  cross a b := decide (a.tpc = b.tpc)
  threePos _ _ _ := ⟨0, 0, 0⟩
  inter _ _ := [⟨0, 0, 0⟩]
  nearest _ c t _ := if c < 8 then ⟨c ≠ bad, t % 2, c / 4, c % 4 + 4 * (t % 2)⟩ else ⟨false, 0, 0, 0⟩
  offU := offU
  offV := 0
  offZ := offZ

def mk (i c : Nat) (t : ℚ) (v : View) : Hit := ⟨i, c, t, t - 1, t + 1, v, 0⟩

/-- A collection hit in TPC 0 at time 100, U hits on channels 1 and 2, a V hit, all at about the same
time, and a U hit far away in time. -/
def ev : List Hit :=
  [mk 0 1 100 .U, mk 1 2 105 .U, mk 2 5 100 .V, mk 3 3 500 .U, mk 4 12 100 .Z]

def allOn : Cfg := ⟨true, true, true, 1⟩

theorem toy_nearest (u z : ℚ) (b : Nat) : NearestOk (toy u z b) := by
  intro p c t pl hv
  simp only [toy] at hv ⊢
  split at hv
  · rename_i hc
    rw [if_pos hc, if_pos hc]
    have : t % 2 = 0 ∨ t % 2 = 1 := by omega
    rcases this with e | e <;> simp [e]
  · cases hv

example : run (toy 0 0 99) allOn (fun _ => []) ev 6 =
    some [(mk 0 1 100 .U, ⟨true, 0, 0, 1⟩), (mk 2 5 100 .V, ⟨true, 0, 1, 1⟩),
      (mk 1 2 105 .U, ⟨true, 0, 0, 2⟩)] := by decide +kernel

example : EndsOk (toy 0 0 99) ev (fun a => if a = 0 then [mk 0 1 100 .U] else []) := by
  intro a h hh
  dsimp only at hh
  split at hh
  · rename_i e
    simp at hh
    subst hh
    exact ⟨by simp [ev], e.symm⟩
  · simp at hh

example : WiresValid (toy 0 0 99) := by
  intro c w hw
  simp only [toy] at hw
  split at hw
  · simp at hw
    rcases hw with rfl | rfl <;> simp <;> omega
  · simp at hw

/-- Two induction hits with the same channel and peak time: although each, alone, is disambiguated,
together only the first is. -/
theorem C175_same_time_lost_refuted :
    ¬ ∀ (g : Geo) (c : Cfg) (e : Nat → List Hit) (hits : List Hit) (fuel : Nat)
      (l : List (Hit × Wid)) (h : Hit), h ∈ hits →
      (∃ l' w, run g c e [h, mk 4 12 100 .Z] fuel = some l' ∧ (h, w) ∈ l') →
      mk 4 12 100 .Z ∈ hits → run g c e hits fuel = some l → ∃ w, (h, w) ∈ l := by
  intro H
  obtain ⟨w, hw⟩ := H (toy 0 0 99) allOn (fun _ => [])
    [mk 0 1 100 .U, mk 1 1 100 .U, mk 4 12 100 .Z] 6
    [(mk 0 1 100 .U, ⟨true, 0, 0, 1⟩)] (mk 1 1 100 .U) (by simp)
    ⟨[(mk 1 1 100 .U, ⟨true, 0, 0, 1⟩)], ⟨true, 0, 0, 1⟩, by decide +kernel, by simp⟩
    (by simp) (by decide +kernel)
  simp [mk] at hw

/-- The status in which hit 0 (channel 1) is decided. -/
def st1 : St := makeHit (mk 0 1 100 .U) ⟨true, 0, 0, 1⟩ 0 St.init

/-- If the wires of a neighbour channel are invalid the crawl counts an extension in every pass and
never ends. -/
theorem C177_invalid_wire_refuted :
    ¬ ∀ (g : Geo) (uv : List Hit) (jumps apa : Nat) (s : St), ∃ fuel, crawl g uv jumps apa fuel s ≠ none := by
  intro H
  obtain ⟨fuel, hf⟩ := H (toy 0 0 2) [mk 0 1 100 .U, mk 1 2 100 .U] 1 0 st1
  apply hf
  have hp : crawlPass (toy 0 0 2) [mk 0 1 100 .U, mk 1 2 100 .U] 1 0 st1 = (st1, 1) := by
    have hm : ∀ w : Wid, w.valid = false → makeHit (mk 1 2 100 .U) w 0 st1 = st1 := by
      intro w hw
      simp [makeHit, hw]
    have hd0 : st1.done 0 (key (mk 0 1 100 .U)) = true := by decide +kernel
    have hd1 : st1.done 0 (key (mk 1 2 100 .U)) = false := by decide +kernel
    have hw0 : st1.wid (key (mk 0 1 100 .U)) = some ⟨true, 0, 0, 1⟩ := by decide +kernel
    have ha : ∀ p : St × Nat, crawlHit (toy 0 0 2) [mk 0 1 100 .U, mk 1 2 100 .U] 1 0 (st1, p.2) (mk 0 1 100 .U)
        = (st1, p.2 + 1) := by
      intro p
      unfold crawlHit
      rw [if_pos hd0, hw0]
      simp only [List.range_succ, List.range_zero, List.nil_append, List.foldl_cons, List.foldl_nil]
      unfold jump closeHits
      have f1 : ([mk 0 1 100 .U, mk 1 2 100 .U].filter fun h =>
          (h.chan : ℤ) = closeChan (toy 0 0 2) (-((0 + 1 : ℕ) : ℤ)) ((toy 0 0 2).chanOf ⟨true, 0, 0, 1⟩)) = [] := by
        decide +kernel
      have f2 : ([mk 0 1 100 .U, mk 1 2 100 .U].filter fun h =>
          (h.chan : ℤ) = closeChan (toy 0 0 2) (((0 + 1 : ℕ) : ℤ)) ((toy 0 0 2).chanOf ⟨true, 0, 0, 1⟩))
            = [mk 1 2 100 .U] := by
        decide +kernel
      dsimp only
      rw [f1, f2]
      simp only [List.foldl_cons, List.foldl_nil, Nat.add_zero]
      unfold closeStep
      have ht : touches ((mk 0 1 100 .U).st - 5 - ((mk 0 1 100 .U).et - (mk 0 1 100 .U).st) * ((0 + 1 : ℕ) : ℚ))
          ((mk 0 1 100 .U).et + 5 + ((mk 0 1 100 .U).et - (mk 0 1 100 .U).st) * ((0 + 1 : ℕ) : ℚ))
          (mk 1 2 100 .U) = true := by decide +kernel
      have hn : neighbour (toy 0 0 2) ((0 + 1 : ℕ) : ℤ) ⟨true, 0, 0, 1⟩
          (closeChan (toy 0 0 2) ((0 + 1 : ℕ) : ℤ) ((toy 0 0 2).chanOf ⟨true, 0, 0, 1⟩)).toNat
            = some ⟨false, 0, 0, 2⟩ := by decide +kernel
      rw [if_pos ht, hn]
      dsimp only
      rw [if_neg (by rw [show (toy 0 0 2).apaOf _ = 0 from rfl, hd1]; simp)]
      rw [show (toy 0 0 2).apaOf _ = 0 from rfl, hm _ rfl]
    have hb : ∀ n : Nat, crawlHit (toy 0 0 2) [mk 0 1 100 .U, mk 1 2 100 .U] 1 0 (st1, n) (mk 1 2 100 .U)
        = (st1, n) := by
      intro n
      unfold crawlHit
      rw [if_neg (by rw [hd1]; simp)]
    unfold crawlPass
    rw [show ([mk 0 1 100 .U, mk 1 2 100 .U].filter fun h => (toy 0 0 2).apaOf h.chan = 0)
      = [mk 0 1 100 .U, mk 1 2 100 .U] from by decide +kernel]
    rw [List.foldl_cons, List.foldl_cons, List.foldl_nil]
    rw [ha (st1, 0), hb]
  induction fuel with
  | zero => rfl
  | succ n ih =>
    unfold crawl
    dsimp only
    rw [hp]
    simp only [one_ne_zero, if_false]
    by_cases hn : crawl (toy 0 0 2) [mk 0 1 100 .U, mk 1 2 100 .U] 1 0 n st1 ≠ none
    · exact ih hn
    · simpa using hn

/-- The two hits as given: the true windows meet, one order says so, the other does not. -/
theorem C179_symmetry_refuted :
    ¬ ∀ (g : Geo) (a b : Hit), a.st ≤ a.et → b.st ≤ b.et → overlap g a b = overlap g b a := by
  intro H
  have := H (toy 10 0 99) ⟨0, 5, 0, -10, -19/2, .V, 0⟩ ⟨1, 1, 0, 0, 1, .U, 0⟩ (by norm_num) (by norm_num)
  revert this
  decide +kernel

/-- With a Z time offset the window of a collection hit in second place is not shifted. -/
theorem C179_z_offset_refuted :
    ¬ ∀ (g : Geo) (a b : Hit), a.st ≤ a.et → b.st ≤ b.et → (overlap g a b = true ↔ Meets g a b) := by
  intro H
  have := (H (toy 0 10 99) ⟨0, 1, 0, 0, 1, .U, 0⟩ ⟨1, 12, 0, 10, 11, .Z, 0⟩ (by norm_num) (by norm_num)).2
    ⟨0, by simp [offset, toy], by norm_num [offset, toy]⟩
  revert this
  decide +kernel

example : overlap (toy 0 0 99) (mk 0 1 100 .U) (mk 1 12 101 .Z) = true := by decide +kernel

example : Supported (toy 0 0 99) [mk 4 12 100 .Z] 0 (mk 0 1 100 .U) ⟨true, 0, 0, 1⟩ ∧
    ¬ Supported (toy 0 0 99) [mk 4 12 100 .Z] 0 (mk 0 1 100 .U) ⟨true, 1, 0, 5⟩ := by
  rw [← reasonable_iff, ← reasonable_iff]
  decide +kernel

/-- A hit crossed in a single wire by hits of the other view that are all still undecided is not
disambiguated, although "ambiguous hits unanimously intersect a single wire". -/
theorem C181_ambiguous_unanimous_refuted :
    ¬ ∀ (g : Geo) (hits : List Hit) (apa : Nat) (s : St) (h : Hit) (w : Wid), WiresValid g →
      s.done apa (key h) = false → w ∈ g.wires h.chan → CrossedByOpen g hits s apa h w →
      (∀ v ∈ g.wires h.chan, CrossedByOpen g hits s apa h v → v = w) →
      (∀ v ∈ g.wires h.chan, ¬ CrossedByDecided g hits s apa h v) →
      0 < (compareHit g hits apa (s, 0) h).2 := by
  intro H
  let g : Geo := { toy 0 0 99 with
    wires := fun c => if c = 0 then [⟨true, 0, 0, 0⟩, ⟨true, 1, 0, 4⟩] else [⟨true, 0, 1, 1⟩] }
  have := H g [mk 0 0 100 .U, mk 1 5 100 .V] 0 St.init (mk 0 0 100 .U) ⟨true, 0, 0, 0⟩
    (by
      intro c w hw
      simp only [g] at hw
      split at hw <;> simp at hw
      · rcases hw with rfl | rfl <;> rfl
      · rw [hw])
    rfl (by simp [g, mk])
    ⟨mk 1 5 100 .V, by simp, by simp [mk], by decide +kernel, rfl, ⟨true, 0, 1, 1⟩, by simp [g, mk], rfl, rfl⟩
    (by
      intro v hv hc
      simp [g, mk] at hv
      rcases hv with rfl | rfl
      · rfl
      · obtain ⟨o, ho, h1, h2, h3, u, hu, h4, h5⟩ := hc
        simp at ho
        rcases ho with rfl | rfl
        · simp [mk] at h1
        · simp [g, mk] at hu
          subst hu
          simp at h4)
    (by
      intro v hv hc
      obtain ⟨o, ho, h1, h2, h3, _⟩ := hc
      simp [St.init] at h3)
  revert this
  decide +kernel

/-- All the close hits lie in one direction, but below the time axis: no end point, because the
largest angle starts at zero. -/
theorem C182_negative_cone_refuted :
    ¬ ∀ (pi r : ℚ) (as : List ℚ), 0 < r → r ≤ pi → 5 ≤ as.length →
      (∀ a ∈ as, ∀ b ∈ as, a - b < r) → isEndPoint pi r as = true := by
  intro H
  have := H (314159265 / 100000000) (1 / 2) [-1, -1, -1, -1, -1] (by norm_num) (by norm_num) (by simp)
    (by intro a ha b hb; simp at ha hb; subst ha; subst hb; norm_num)
  revert this
  decide +kernel

/-- A narrow cone around the backward direction is never an end point: the second pass with reflected
angles keeps the extremes of the first. -/
theorem C182_reflection_useless (pi r : ℚ) (as : List ℚ) (a b : ℚ) (ha : a ∈ as) (hb : b ∈ as)
    (h : r ≤ a - b) : isEndPoint pi r as = false := by
  cases he : isEndPoint pi r as
  · rfl
  · have := (isEndPoint_cone pi r as he).2.1 a ha b hb
    linarith

example : isEndPoint (314159265 / 100000000) (1 / 2) [31/10, 31/10, 31/10, -31/10, -31/10] = false :=
  C182_reflection_useless _ _ _ (31/10) (-31/10) (by simp) (by simp) (by norm_num)

example : isEndPoint (314159265 / 100000000) (1 / 2) [1, 11/10, 12/10, 13/10, 14/10] = true := by
  decide +kernel

/-- The wrap of the channel distance is applied on one side only, so the distance depends on the
order of the two hits. -/
theorem C182_wrap_refuted : ¬ ∀ (range a b : ℚ), |chanDist range a b| = |chanDist range b a| := by
  intro H
  have := H 100 99 1
  revert this
  decide +kernel

/-- A V end point alone with a collection end point decides nothing, while a U end point in its place
does. -/
theorem C183_v_only_refuted :
    ¬ ∀ (g : Geo) (endPts : List Hit) (apa : Nat) (s : St) (z v : Hit) (p : Pt),
      (endPts.filter fun h => overlap g z h && decide (h.view = .V)) = [v] →
      (endPts.filter fun h => overlap g z h && decide (h.view = .U)) = [] →
      g.inter v.chan z.chan = [p] → (g.nearest p v.chan z.tpc 1).valid = true →
      s.done apa (key v) = false → (useZ g endPts apa s z).done apa (key v) = true := by
  intro H
  have := H (toy 0 0 99) [mk 4 12 100 .Z, mk 2 5 100 .V] 0 St.init (mk 4 12 100 .Z) (mk 2 5 100 .V)
    ⟨0, 0, 0⟩ (by decide +kernel) (by decide +kernel) rfl (by decide +kernel) rfl
  revert this
  decide +kernel

example : (useZ (toy 0 0 99) [mk 4 12 100 .Z, mk 0 1 100 .U] 0 St.init (mk 4 12 100 .Z)).out 0
    = [(mk 0 1 100 .U, ⟨true, 0, 0, 1⟩)] := by decide +kernel

/-- A long hit that covers the whole search range is not taken into account. -/
theorem C184_covering_window_refuted :
    ¬ ∀ (lo hi : ℚ) (h : Hit), h.st ≤ h.et → lo ≤ hi →
      (∃ t, (lo ≤ t ∧ t ≤ hi) ∧ (h.st ≤ t ∧ t ≤ h.et)) → touches lo hi h = true := by
  intro H
  have := H 10 20 ⟨0, 0, 15, 0, 30, .U, 0⟩ (by norm_num) (by norm_num) ⟨15, by norm_num⟩
  revert this
  decide +kernel

example : closeChan (toy 0 0 99) (-1) 0 = 3 ∧ closeChan (toy 0 0 99) 1 7 = 4 := by decide +kernel

/-- Crawling from hit 0 decides the neighbour hit (C178 with a non-trivial extension). -/
example : ((crawl (toy 0 0 99) (uvHits ev) 1 0 6 st1).map fun s => s.out 0)
    = some [(mk 0 1 100 .U, ⟨true, 0, 0, 1⟩), (mk 1 2 105 .U, ⟨true, 0, 0, 2⟩)] := by decide +kernel

example : (usePts (toy 0 0 99) [mk 0 1 100 .U, mk 2 5 100 .V] 0 St.init).out 0 ≠ [] ∧
    overlap (toy 0 0 99) (mk 0 1 100 .U) (mk 2 5 100 .V) = true := by decide +kernel

end Verif.Disambig

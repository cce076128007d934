import Verif.TrkSep.Thm
import Mathlib.Tactic.LinearCombination

namespace Verif.TrkSep

/-! ## C416: tracks near tracks -/

/-- The keys of tracks that are connected with a marked track by tracks that come near each other. -/
inductive Reach (c : Cfg) (ts : List Trk) : Nat → Prop
  | base (t : Trk) : t ∈ ts → t.m.track = true → Reach c ts t.key
  | step (t o : Trk) : t ∈ ts → o ∈ ts → o.key ≠ t.key → near c t o = true → Reach c ts o.key → Reach c ts t.key

theorem near_congr (c : Cfg) {a a' b b' : Trk} (h1 : a.vtx = a'.vtx) (h2 : a.stop = a'.stop) (h3 : b.vtx = b'.vtx) (h4 : b.stop = b'.stop) : near c a b = near c a' b' := by
  unfold near
  rw [h1, h2, h3, h4]

/-- A track as it was given, with perhaps a new mark. -/
def From (c : Cfg) (ts : List Trk) (x : Trk) : Prop := ∃ t ∈ ts, t.key = x.key ∧ t.vtx = x.vtx ∧ t.stop = x.stop ∧ (x.m.track = true → Reach c ts x.key)

theorem typeTwo_from (c : Cfg) (ts : List Trk) : ∀ (r pre : List Trk), (∀ x ∈ pre ++ r, From c ts x) → ∀ x ∈ typeTwo c pre r, From c ts x
  | [], pre, h => by simpa [typeTwo] using h
  | t :: r, pre, h => by
    unfold typeTwo
    have h' : ∀ x ∈ (pre ++ [t]) ++ r, From c ts x := by simpa using h
    split
    · exact typeTwo_from c ts r _ h'
    · split
      · rename_i hany
        apply typeTwo_from c ts r
        intro x hx
        simp only [List.append_assoc, List.mem_append, List.mem_cons, List.not_mem_nil, or_false] at hx
        rcases hx with hx | rfl | hx
        · exact h x (by simp [hx])
        · obtain ⟨t0, ht0, k1, k2, k3, _⟩ := h t (by simp)
          refine ⟨t0, ht0, k1, k2, k3, fun _ => ?_⟩
          rw [List.any_eq_true] at hany
          obtain ⟨o, ho, hc⟩ := hany
          simp only [Bool.and_eq_true, decide_eq_true_eq] at hc
          obtain ⟨o0, ho0, l1, l2, l3, l4⟩ := h o ho
          have hn : near c t0 o0 = true := by rw [near_congr c k2 k3 l2 l3]; exact hc.2
          have := Reach.step (c := c) (ts := ts) t0 o0 ht0 ho0 (by rw [l1, k1]; exact hc.1.1) hn (by rw [l1]; exact l4 hc.1.2)
          rw [← k1]
          exact this
        · exact h x (by simp [hx])
      · exact typeTwo_from c ts r _ h'

theorem typeTwo_prefix (c : Cfg) : ∀ (r pre : List Trk), pre <+: typeTwo c pre r
  | [], pre => by simp [typeTwo]
  | t :: r, pre => by
    unfold typeTwo
    split
    · exact (List.prefix_append _ _).trans (typeTwo_prefix c r _)
    · split
      · exact (List.prefix_append _ _).trans (typeTwo_prefix c r _)
      · exact (List.prefix_append _ _).trans (typeTwo_prefix c r _)

/-- What the track at a place was compared with: the tracks before it as they are in the result, and all marked tracks of the start. -/
theorem typeTwo_compl (c : Cfg) : ∀ (r pre : List Trk) (a b : List Trk) (t : Trk), typeTwo c pre r = a ++ t :: b → pre.length ≤ a.length → t.m.track = false →
    ∀ o, (o ∈ a ∨ o ∈ pre ++ r) → o.m.track = true → o.key ≠ t.key → near c t o = false
  | [], pre, a, b, t, e, hl, ht => by
    unfold typeTwo at e
    rw [e] at hl
    simp at hl
  | u :: r, pre, a, b, t, e, hl, ht => by
    have main : ∀ u' : Trk, (u.m.track = true → u' = u) → typeTwo c (pre ++ [u']) r = a ++ t :: b →
        (t = u' → ∀ o ∈ pre ++ u :: r, o.m.track = true → o.key ≠ t.key → near c t o = false) →
        ∀ o, (o ∈ a ∨ o ∈ pre ++ u :: r) → o.m.track = true → o.key ≠ t.key → near c t o = false := by
      intro u' hu e hd
      have hp := typeTwo_prefix c r (pre ++ [u'])
      rw [e] at hp
      by_cases hlen : a.length = pre.length
      · have e1 : pre ++ [u'] = (a ++ [t]) := by
          have h1 : a ++ [t] <+: a ++ t :: b := ⟨b, by simp⟩
          exact List.IsPrefix.eq_of_length (List.prefix_of_prefix_length_le hp h1 (by simp [hlen])) (by simp [hlen])
        obtain ⟨e2, e3⟩ := List.append_inj' e1 rfl
        simp only [List.cons.injEq, and_true] at e3
        subst e2
        intro o ho
        exact hd e3.symm o (by rcases ho with ho | ho; · simp [ho]
                               · exact ho)
      · have ih := typeTwo_compl c r (pre ++ [u']) a b t e (by simp; omega) ht
        intro o ho hot hk
        rcases ho with ho | ho
        · exact ih o (Or.inl ho) hot hk
        · rcases List.mem_append.1 ho with ho | ho
          · exact ih o (Or.inr (by simp [ho])) hot hk
          · rcases List.mem_cons.1 ho with rfl | ho
            · rw [hu hot] at ih
              exact ih o (Or.inr (by simp)) hot hk
            · exact ih o (Or.inr (by simp [ho])) hot hk
    unfold typeTwo at e
    split at e
    · rename_i hut
      exact main u (fun _ => rfl) e (fun h => by rw [h, hut] at ht; simp at ht)
    · rename_i hut
      split at e
      · refine main _ (fun h => absurd h hut) e (fun h => ?_)
        rw [h] at ht
        simp [Marks.makeTrack] at ht
      · rename_i hany
        refine main u (fun _ => rfl) e (fun h o ho hot hk => ?_)
        subst h
        by_contra hn
        simp only [Bool.not_eq_false] at hn
        apply hany
        rw [List.any_eq_true]
        exact ⟨o, ho, by simp [hk, hot, hn]⟩

/-- C416: each track marked in the second pass is connected with one marked before by tracks that come near each other; a track that is not marked is not near a track marked before the pass, and not
near a track marked in the pass that comes before it. -/
theorem C416_second_partial (c : Cfg) (ts : List Trk) : (∀ x ∈ typeTwo c [] ts, x.m.track = true → Reach c ts x.key) ∧
    ∀ a t b, typeTwo c [] ts = a ++ t :: b → t.m.track = false → ∀ o, (o ∈ a ∨ o ∈ ts) → o.m.track = true → o.key ≠ t.key → near c t o = false := by
  refine ⟨?_, ?_⟩
  · intro x hx hm
    have := typeTwo_from c ts ts [] (by
      intro y hy
      exact ⟨y, by simpa using hy, rfl, rfl, rfl, fun h => Reach.base y (by simpa using hy) h⟩) x hx
    obtain ⟨_, _, _, _, _, h⟩ := this
    exact h hm
  · intro a t b e ht o ho
    exact typeTwo_compl c ts [] a b t e (by simp) ht o (by simpa using ho)

/-- Three tracks in a row; the last is marked. -/
def exRow : List Trk := [⟨0, ⟨0, 0, 0⟩, ⟨10, 0, 0⟩, ⟨1, 0, 0⟩, 1, Marks.new⟩, ⟨1, ⟨10, 0, 0⟩, ⟨20, 0, 0⟩, ⟨1, 0, 0⟩, 1, Marks.new⟩, ⟨2, ⟨20, 0, 0⟩, ⟨30, 0, 0⟩, ⟨1, 0, 0⟩, 1, Marks.new.makeTrack⟩]

/-- C416: not each track near a track is marked: the first is near the second, which is marked only later. -/
theorem C416_refuted : (typeTwo exC [] exRow).map (fun t => t.m.track) = [false, true, true] ∧ ∃ a b, a ∈ typeTwo exC [] exRow ∧ b ∈ typeTwo exC [] exRow ∧ a.key ≠ b.key ∧ a.m.track = false ∧ b.m.track = true ∧ near exC a b = true := by
  refine ⟨by decide +kernel, ⟨0, ⟨0, 0, 0⟩, ⟨10, 0, 0⟩, ⟨1, 0, 0⟩, 1, Marks.new⟩, ⟨1, ⟨10, 0, 0⟩, ⟨20, 0, 0⟩, ⟨1, 0, 0⟩, 1, Marks.new.makeTrack⟩, by decide +kernel, by decide +kernel, by decide +kernel, by decide +kernel,
    by decide +kernel, by decide +kernel⟩

/-! ## C417: cones -/

theorem mem_addOnce (l : List Nat) (k j : Nat) : j ∈ addOnce l k ↔ j ∈ l ∨ j = k := by
  unfold addOnce
  split
  · rename_i h
    rw [List.contains_iff_mem] at h
    constructor
    · exact Or.inl
    · rintro (h1 | rfl)
      · exact h1
      · exact h
  · simp

theorem nodup_addOnce (l : List Nat) (k : Nat) (h : l.Nodup) : (addOnce l k).Nodup := by
  unfold addOnce
  split
  · exact h
  · rename_i hk
    simp at hk
    rw [List.nodup_append]
    refine ⟨h, by simp, ?_⟩
    intro a ha b hb
    simp at hb
    subst hb
    intro e
    exact hk (e ▸ ha)

/-- The space point is not of the track and in the cone about the direction. -/
def inCone (c : Cfg) (t : Trk) (d : V3) (s : SP) : Bool := decide (t.key ∉ s.trks) && c.cone (s.pos.sub t.vtx) d

/-- C417: the forward (backward) cone counts each space point of the list once that is not of the track and in the cone, and has each of their first tracks once. -/
theorem C417_cones (c : Cfg) (t : Trk) : ∀ (sps : List SP) (r0 r : Cones), r0.ft.Nodup → r0.bt.Nodup → cones c t sps r0 = some r →
    r.fs = r0.fs + (sps.filter (inCone c t t.dir)).length ∧ r.bs = r0.bs + (sps.filter (inCone c t (t.dir.smul (-1)))).length ∧
    r.ft.Nodup ∧ r.bt.Nodup ∧ (∀ k, k ∈ r.ft ↔ k ∈ r0.ft ∨ ∃ s ∈ sps, inCone c t t.dir s = true ∧ s.trks.head? = some k) ∧
    ∀ k, k ∈ r.bt ↔ k ∈ r0.bt ∨ ∃ s ∈ sps, inCone c t (t.dir.smul (-1)) s = true ∧ s.trks.head? = some k
  | [], r0, r, hf, hb, h => by
    simp [cones] at h
    subst h
    simp [hf, hb]
  | s :: l, r0, r, hf, hb, h => by
    unfold cones at h
    by_cases hk : t.key ∈ s.trks
    · rw [if_pos (by simpa using hk)] at h
      have ih := C417_cones c t l r0 r hf hb h
      have e1 : inCone c t t.dir s = false := by simp [inCone, hk]
      have e2 : inCone c t (t.dir.smul (-1)) s = false := by simp [inCone, hk]
      simpa [e1, e2] using ih
    · rw [if_neg (by simpa using hk)] at h
      dsimp only at h
      have e1 : inCone c t t.dir s = c.cone (s.pos.sub t.vtx) t.dir := by simp [inCone, hk]
      have e2 : inCone c t (t.dir.smul (-1)) s = c.cone (s.pos.sub t.vtx) (t.dir.smul (-1)) := by simp [inCone, hk]
      rw [← e1, ← e2] at h
      cases f : inCone c t t.dir s <;> cases b : inCone c t (t.dir.smul (-1)) s <;> rw [f, b] at h
      · simp only [Bool.not_false, Bool.and_self, if_true] at h
        have ih := C417_cones c t l r0 r hf hb h
        simpa [f, b] using ih
      all_goals
        simp only [Bool.not_true, Bool.not_false, Bool.false_and, Bool.and_false, Bool.and_true, Bool.false_eq_true, if_false, if_true] at h
        split at h
        · simp at h
        · rename_i k _ hs
          have ih := C417_cones c t l _ r (by first | exact hf | exact nodup_addOnce _ _ hf) (by first | exact hb | exact nodup_addOnce _ _ hb) h
          obtain ⟨i1, i2, i3, i4, i5, i6⟩ := ih
          refine ⟨?_, ?_, i3, i4, ?_, ?_⟩
          · rw [i1]; simp [f]; try omega
          · rw [i2]; simp [b]; try omega
          · intro j
            rw [i5]
            simp only [mem_addOnce, List.mem_cons, exists_eq_or_imp, f, hs, List.head?_cons, Option.some.injEq, Bool.false_eq_true, false_and, false_or, true_and]
            try rw [or_assoc, @eq_comm _ j k]
          · intro j
            rw [i6]
            simp only [mem_addOnce, List.mem_cons, exists_eq_or_imp, b, hs, List.head?_cons, Option.some.injEq, Bool.false_eq_true, false_and, false_or, true_and]
            try rw [or_assoc, @eq_comm _ j k]

/-- C417: a track becomes a shower exactly if the numbers of space points in the two cones differ by more than 30 and those of tracks by more than 3; a track marked as track becomes a shower track,
another a shower cone; it is turned around exactly if the backward cone is the larger one. -/
theorem C417_decision (t : Trk) (r : Cones) : decideOne t r =
    if ((r.fs : Int) - r.bs > 30 ∨ (r.bs : Int) - r.fs > 30) ∧ ((r.ft.length : Int) - r.bt.length > 3 ∨ (r.bt.length : Int) - r.ft.length > 3) then
      ⟨t.key, if r.fs < r.bs then t.stop else t.vtx, if r.fs < r.bs then t.vtx else t.stop, if r.fs < r.bs then t.dir.smul (-1) else t.dir, t.nsp,
        if t.m.track then ⟨false, true, true, false⟩ else ⟨false, true, false, true⟩⟩
    else t := by
  unfold decideOne Cones.size Cones.tsize
  by_cases h : (((r.fs : Int) - r.bs > 30 ∨ (r.bs : Int) - r.fs > 30) ∧ ((r.ft.length : Int) - r.bt.length > 3 ∨ (r.bt.length : Int) - r.ft.length > 3))
  · rw [if_pos h, if_pos (by omega)]
    by_cases h2 : r.fs < r.bs
    · rw [if_pos (by omega)]
      simp only [h2, if_true]
      unfold Marks.makeShower Marks.makeShowerTrack Marks.makeShowerCone
      rfl
    · rw [if_neg (by omega)]
      simp only [h2, if_false]
      unfold Marks.makeShower Marks.makeShowerTrack Marks.makeShowerCone
      rfl
  · rw [if_neg h, if_neg (by omega)]

example : cones exC ⟨0, ⟨0, 0, 0⟩, ⟨10, 0, 0⟩, ⟨1, 0, 0⟩, 10, Marks.new⟩ [⟨⟨5, 0, 0⟩, [1]⟩, ⟨⟨-5, 0, 0⟩, [2]⟩, ⟨⟨6, 0, 0⟩, [1, 3]⟩] ⟨0, 0, [], []⟩ = some ⟨2, 1, [1], [2]⟩ := by decide +kernel

/-! ## C419, C420: the hits -/

theorem find_key {ts : List Trk} (hnd : (ts.map Trk.key).Nodup) {t : Trk} (ht : t ∈ ts) : ts.find? (fun u => u.key == t.key) = some t := by
  induction ts with
  | nil => simp at ht
  | cons a l ih =>
    rw [List.map_cons, List.nodup_cons] at hnd
    rcases List.mem_cons.1 ht with rfl | ht
    · simp
    · have : a.key ≠ t.key := fun e => hnd.1 (List.mem_map.2 ⟨t, ht, e.symm⟩)
      rw [List.find?_cons]
      have hb : (a.key == t.key) = false := by simpa using this
      rw [hb]
      exact ih hnd.2 ht

theorem noTrack_spec (ts : List Trk) (hnd : (ts.map Trk.key).Nodup) : ∀ (ks : List Nat) (b : Bool), noTrack ts ks = some b → (b = true ↔ ∀ t ∈ ts, t.key ∈ ks → t.m.track = false)
  | [], b, h => by simp [noTrack] at h; subst h; simp
  | k :: ks, b, h => by
    unfold noTrack at h
    split at h
    · simp at h
    · rename_i bt hk
      rw [Option.map_eq_some_iff] at h
      obtain ⟨r, h1, rfl⟩ := h
      have ih := noTrack_spec ts hnd ks r h1
      unfold isTrack at hk
      rw [Option.map_eq_some_iff] at hk
      obtain ⟨u, hu, rfl⟩ := hk
      have hum := List.mem_of_find?_eq_some hu
      have huk : u.key = k := by have := List.find?_some hu; simpa using this
      simp only [Bool.and_eq_true, Bool.not_eq_true', ih]
      constructor
      · rintro ⟨h1, h2⟩ t ht hk
        rcases List.mem_cons.1 hk with rfl | hk
        · have e1 := find_key hnd ht
          rw [e1] at hu
          simp at hu
          rw [hu]
          exact h1
        · exact h2 t ht hk
      · intro h
        exact ⟨h u hum (by simp [huk]), fun t ht hk => h t ht (by simp [hk])⟩

theorem noTrack_some (ts : List Trk) : ∀ ks : List Nat, (∀ k ∈ ks, k ∈ ts.map Trk.key) → (noTrack ts ks).isSome = true
  | [], _ => rfl
  | k :: ks, h => by
    unfold noTrack
    obtain ⟨t, ht, hk⟩ := List.mem_map.1 (h k (by simp))
    have : (isTrack ts k).isSome = true := by
      unfold isTrack
      rw [Option.isSome_map, List.find?_isSome]
      exact ⟨t, ht, by simp [hk]⟩
    split
    · rename_i e
      rw [e] at this
      simp at this
    · rw [Option.isSome_map]
      exact noTrack_some ts ks (fun x hx => h x (by simp [hx]))

/-- No track of the element is marked as a track. -/
def Free (ts : List Trk) (ks : List Nat) : Bool := ts.all fun t => !decide (t.key ∈ ks) || !t.m.track

theorem untracked_eq {α : Type} (ts : List Trk) (hnd : (ts.map Trk.key).Nodup) (keys : α → List Nat) : ∀ (l r : List α), untracked ts keys l = some r → r = l.filter fun a => Free ts (keys a)
  | [], r, h => by simp [untracked] at h; simp [h]
  | a :: l, r, h => by
    unfold untracked at h
    split at h
    · simp at h
    · rename_i b hb
      rw [Option.map_eq_some_iff] at h
      obtain ⟨r', h1, rfl⟩ := h
      have ih := untracked_eq ts hnd keys l r' h1
      have hs := noTrack_spec ts hnd (keys a) b hb
      have : Free ts (keys a) = b := by
        rw [Bool.eq_iff_iff, hs]
        unfold Free
        rw [List.all_eq_true]
        constructor
        · intro h t ht hk
          have := h t ht
          simpa [hk] using this
        · intro h t ht
          by_cases hk : t.key ∈ keys a
          · simp [h t ht hk]
          · simp [hk]
      rw [List.filter_cons, this, ← ih]

theorem untracked_some {α : Type} (ts : List Trk) (keys : α → List Nat) : ∀ l : List α, (∀ a ∈ l, ∀ k ∈ keys a, k ∈ ts.map Trk.key) → (untracked ts keys l).isSome = true
  | [], _ => rfl
  | a :: l, h => by
    unfold untracked
    have := noTrack_some ts (keys a) (h a (by simp))
    split
    · rename_i e
      rw [e] at this
      simp at this
    · rw [Option.isSome_map]
      exact untracked_some ts keys l (fun x hx => h x (by simp [hx]))

/-- C419: the hits selected are those that are not of a track which is marked as a track at the end, in order; a hit of no track is selected. -/
theorem C419_hits (c : Cfg) (ts : List Trk) (hnd : (ts.map Trk.key).Nodup) (sps : List SP) (hits : List Hit) (r : List Trk) (out : List Hit) (h : select c ts sps hits = some (r, out)) :
    out = hits.filter (fun a => r.all fun t => !decide (t.key ∈ a.trks) || !t.m.track) := by
  have hk := (C414_final c ts sps hits r out h).1
  unfold select at h
  dsimp only at h
  split at h
  · simp at h
  · split at h
    · simp at h
    · rw [Option.map_eq_some_iff] at h
      obtain ⟨o, h1, he⟩ := h
      simp only [Prod.mk.injEq] at he
      obtain ⟨rfl, rfl⟩ := he
      rw [← hk] at hnd
      exact untracked_eq _ hnd _ _ _ h1

example : (exT.map Trk.key).Nodup := by decide

theorem cones_some (c : Cfg) (t : Trk) : ∀ (sps : List SP) (r : Cones), (∀ s ∈ sps, s.trks ≠ []) → (cones c t sps r).isSome = true
  | [], r, _ => rfl
  | s :: l, r, h => by
    have hl : ∀ s ∈ l, s.trks ≠ [] := fun x hx => h x (by simp [hx])
    unfold cones
    split
    · exact cones_some c t l r hl
    · dsimp only
      split
      · exact cones_some c t l r hl
      · split
        · rename_i e
          exact absurd e (h s (by simp))
        · exact cones_some c t l _ hl

theorem showers_some (c : Cfg) (ssps : List SP) (h : ∀ s ∈ ssps, s.trks ≠ []) : ∀ ts : List Trk, (showers c ssps ts).isSome = true
  | [] => rfl
  | t :: l => by
    unfold showers
    have := cones_some c t ssps ⟨0, 0, [], []⟩ h
    split
    · rename_i e
      rw [e] at this
      simp at this
    · rw [Option.isSome_map]
      exact showers_some c ssps h l

/-- C420: the selection does not fail if each space point has a track and the tracks of space points and hits are among those given. -/
theorem C420_ok_partial (c : Cfg) (ts : List Trk) (hnd : (ts.map Trk.key).Nodup) (sps : List SP) (hits : List Hit) (h1 : ∀ s ∈ sps, s.trks ≠ [] ∧ ∀ k ∈ s.trks, k ∈ ts.map Trk.key)
    (h2 : ∀ a ∈ hits, ∀ k ∈ a.trks, k ∈ ts.map Trk.key) : (select c ts sps hits).isSome = true := by
  have hk : (typeTwo c [] (typeOne c sps (ts.map fun t => { t with m := Marks.new }))).map Trk.key = ts.map Trk.key := by
    rw [typeTwo_keys, List.nil_append, typeOne_keys, List.map_map]
    rfl
  unfold select
  dsimp only
  have u := untracked_some (typeTwo c [] (typeOne c sps (ts.map fun t => { t with m := Marks.new }))) SP.trks sps (by rw [hk]; exact fun s hs => (h1 s hs).2)
  split
  · rename_i e
    rw [e] at u
    simp at u
  · rename_i ssps e
    have hs : ∀ s ∈ ssps, s.trks ≠ [] := by
      intro s hs
      rw [untracked_eq _ (by rw [hk]; exact hnd) _ _ _ e] at hs
      exact (h1 s (List.mem_filter.1 hs).1).1
    have v := showers_some c ssps hs (typeTwo c [] (typeOne c sps (ts.map fun t => { t with m := Marks.new })))
    split
    · rename_i e2
      rw [e2] at v
      simp at v
    · rename_i t3 e2
      rw [Option.isSome_map]
      apply untracked_some
      rw [C418_noop, rest_keys, showers_keys c _ _ _ e2, hk]
      exact h2

example : ∀ s ∈ exS, s.trks ≠ [] ∧ ∀ k ∈ s.trks, k ∈ exT.map Trk.key := by decide +kernel

/-- C420: a space point of no track in front of a track makes the selection fail (`at(0)` of an empty vector throws), and so does a hit of a track that is not in the list. -/
theorem C420_refuted : select exC exT [⟨⟨20, 0, 0⟩, []⟩] [] = none ∧ select exC exT [] [⟨0, [7]⟩] = none := by decide +kernel

end Verif.TrkSep

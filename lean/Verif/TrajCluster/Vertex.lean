import Verif.TrajCluster.VtxModel
import Verif.TrajCluster.Store
/-!
# Vertices: killing, storing, checking
-/
namespace Verif.TC

/-! ### specification -/

/-- the tables of the vertices agree: a vertex number is its position (0 = killed); an end of a trajectory that is
neither killed nor halo is free, carries the number `x`, or a vertex that exists, is not killed and lies in the same
plane; a 2D vertex that is not killed and its 3D vertex name each other -/
structure VtxOKBut (x : Nat) (s : Slice) : Prop where
  ids : ∀ (i : Nat) (v : Vtx), s.vtxs[i]? = some v → v.id = 0 ∨ v.id = i + 1
  ids3 : ∀ (i : Nat) (w : Vtx3), s.vtx3s[i]? = some w → w.id = 0 ∨ w.id = i + 1
  ends : ∀ t ∈ s.tjs, t.killed = false → t.halo = false → ∀ e, t.vtxAt e = 0 ∨ t.vtxAt e = x ∨
    ∃ v, s.vtxs[t.vtxAt e - 1]? = some v ∧ v.id = t.vtxAt e ∧ v.ctp = t.ctp
  up : ∀ (i : Nat) (v : Vtx), s.vtxs[i]? = some v → v.id ≠ 0 → v.vx3 ≠ 0 →
    ∃ w, s.vtx3s[v.vx3 - 1]? = some w ∧ w.id = v.vx3 ∧ w.vx2[v.plane]? = some v.id
  down : ∀ (i : Nat) (w : Vtx3), s.vtx3s[i]? = some w → w.id ≠ 0 → ∀ (p y : Nat), w.vx2[p]? = some y → y ≠ 0 →
    ∃ v, s.vtxs[y - 1]? = some v ∧ v.id = y ∧ v.vx3 = w.id ∧ v.plane = p

/-- the tables of the vertices agree -/
abbrev VtxOK (s : Slice) : Prop := VtxOKBut 0 s

/-- `t'` is `t` without the vertex number `v`: only this mark and two flags have changed -/
structure Detached (v : Nat) (t t' : Traj) : Prop where
  same : t' = { t with vtx := t'.vtx, photon := t'.photon, hiVx3 := t'.hiVx3 }
  vtx : ∀ e, t'.vtxAt e = if t.vtxAt e = v ∧ t.killed = false ∧ t.halo = false then 0 else t.vtxAt e
  other : (∀ e, t.vtxAt e ≠ v) ∨ t.killed = true ∨ t.halo = true → t' = t

/-! ### lemmas -/

theorem vtxAt_setVtx (t : Traj) (e e' : Bool) (v : Nat) :
    (t.setVtx e v).vtxAt e' = if e' = e then v else t.vtxAt e' := by
  cases e <;> cases e' <;> simp [Traj.setVtx, Traj.vtxAt]

theorem detachEnd_spec {vtxs : List Vtx} {vid : Nat} (e : Bool) {t : Traj}
    (hb : ∀ e, t.vtxAt e ≤ vtxs.length) :
    ∃ t', detachEnd vtxs vid e t = .ok t' ∧
      t' = { t with vtx := t'.vtx, photon := t'.photon, hiVx3 := t'.hiVx3 } ∧
      (∀ e', t'.vtxAt e' = if e' = e ∧ t.vtxAt e = vid then 0 else t.vtxAt e') ∧ (t.vtxAt e ≠ vid → t' = t) := by
  unfold detachEnd
  by_cases h : t.vtxAt e = vid
  · rw [if_neg (by simp [h])]
    have hv : ∀ e' (p q : Bool), ({ t.setVtx e 0 with photon := p, hiVx3 := q } : Traj).vtxAt e' =
        if e' = e ∧ t.vtxAt e = vid then 0 else t.vtxAt e' := by
      intro e' p q
      have := vtxAt_setVtx t e e' 0
      simp only [h, and_true]
      rw [← this]
      rfl
    simp only
    split
    · rename_i hc
      have hlt : t.vtxAt (!e) ≤ vtxs.length := hb _
      have hva : ({ t.setVtx e 0 with photon := false } : Traj).vtxAt (!e) = t.vtxAt (!e) := by
        have := vtxAt_setVtx t e (!e) 0
        rw [if_neg (by cases e <;> simp)] at this
        exact this
      rw [hva] at hc ⊢
      have hl : t.vtxAt (!e) - 1 < vtxs.length := by omega
      rw [List.getElem?_eq_getElem hl]
      exact ⟨_, rfl, rfl, fun e' => hv e' _ _, fun hne => absurd h hne⟩
    · exact ⟨_, rfl, rfl, fun e' => hv e' _ _, fun hne => absurd h hne⟩
  · rw [if_pos h]
    refine ⟨t, rfl, rfl, ?_, fun _ => rfl⟩
    intro e'
    rw [if_neg (by tauto)]

theorem detach_spec {vtxs : List Vtx} {vid : Nat} {t : Traj}
    (hb : t.killed = false → t.halo = false → ∀ e, t.vtxAt e ≤ vtxs.length) :
    ∃ t', detach vtxs vid t = .ok t' ∧ Detached vid t t' := by
  unfold detach
  cases hk : t.killed with
  | true =>
    refine ⟨t, by simp, rfl, ?_, fun _ => rfl⟩
    simp [hk]
  | false =>
    cases hh : t.halo with
    | true =>
      refine ⟨t, by simp, rfl, ?_, fun _ => rfl⟩
      simp [hh]
    | false =>
      obtain ⟨t1, h1, h2, h3, h4⟩ := detachEnd_spec (vid := vid) false (hb hk hh)
      obtain ⟨t2, k1, k2, k3, k4⟩ := detachEnd_spec (vtxs := vtxs) (vid := vid) true (t := t1) (by
        intro e
        rw [h3]
        split
        · omega
        · exact hb hk hh e)
      refine ⟨t2, by simp [h1, Res.bind, k1], ?_, ?_, ?_⟩
      · rw [k2, h2]
      · intro e
        rw [k3, h3, h3]
        cases e
        · simp [hk, hh]
        · simp [hk, hh]
      · rintro (h | h | h)
        · have e1 : t1 = t := h4 (h false)
          rw [k4 (by rw [e1]; exact h true), e1]
        · rw [hk] at h; cases h
        · rw [hh] at h; cases h

theorem detachAll_spec {vtxs : List Vtx} {vid : Nat} : ∀ {l : List Traj},
    (∀ t ∈ l, t.killed = false → t.halo = false → ∀ e, t.vtxAt e ≤ vtxs.length) →
    ∃ l', detachAll vtxs vid l = .ok l' ∧ List.Forall₂ (Detached vid) l l' := by
  intro l
  induction l with
  | nil => intro _; exact ⟨[], rfl, .nil⟩
  | cons t l ih =>
    intro hb
    obtain ⟨t', h1, h2⟩ := detach_spec (vid := vid) (hb t (List.mem_cons_self ..))
    obtain ⟨l', h3, h4⟩ := ih fun u hu => hb u (List.mem_cons_of_mem _ hu)
    exact ⟨t' :: l', by simp [detachAll, h1, h3, Res.bind], .cons h2 h4⟩

theorem forget_getElem (vid p : Nat) (w : Vtx3) :
    (forget vid w).vx2[p]? = (w.vx2[p]?).map fun x => if x = vid then 0 else x := by
  simp [forget]

/-! ### killing a 2D vertex -/

/-- **C122.** Killing a 2D vertex is refused exactly when it belongs to a 3D vertex of a score not below the cut and is
not forced; then nothing changes. Otherwise the vertex is killed, every end of a trajectory (neither killed nor halo)
that carried it becomes free, no other end of any trajectory changes, hits, points and all other vertices stay, and the
3D vertex forgets this vertex. -/
theorem C122_kill_vertex (cut : Rat) (score : Slice → Vtx3 → Rat) {s : Slice} (hs : VtxOK s) {iv : Nat} {v : Vtx}
    (hv : s.vtxs[iv]? = some v) (hid : v.id ≠ 0) (force : Bool) :
    ∃ r s', killVx2 cut score s iv force = .ok (r, s') ∧
      (r = false ↔ v.vx3 ≠ 0 ∧ force = false ∧ ∃ w, s.vtx3s[v.vx3 - 1]? = some w ∧ cut ≤ w.score) ∧
      (r = false → s' = s) ∧
      (r = true → s'.n = s.n ∧ s'.own = s.own ∧ s'.uid = s.uid ∧ s'.pfps = s.pfps ∧
        s'.vtxs = s.vtxs.set iv { v with id := 0 } ∧ List.Forall₂ (Detached v.id) s.tjs s'.tjs ∧
        s'.vtx3s.length = s.vtx3s.length ∧
        ∀ (k : Nat) (w : Vtx3), s.vtx3s[k]? = some w →
          s'.vtx3s[k]? = some (if k + 1 = v.vx3 then { w with vx2 := w.vx2.map fun x => if x = v.id then 0 else x }
            else w)) := by
  have hlen := (List.getElem?_eq_some_iff.1 hv).1
  have hidv : v.id = iv + 1 := by rcases hs.ids iv v hv with h | h <;> omega
  have hb : ∀ t ∈ s.tjs, t.killed = false → t.halo = false → ∀ e,
      t.vtxAt e ≤ (s.vtxs.set iv { v with id := 0 }).length := by
    intro t ht hk hh e
    rw [List.length_set]
    rcases hs.ends t ht hk hh e with h | h | ⟨u, h, _⟩
    · omega
    · omega
    · have := (List.getElem?_eq_some_iff.1 h).1
      omega
  obtain ⟨l', hl1, hl2⟩ := detachAll_spec (vid := v.id) hb
  unfold killVx2
  rw [hv]
  simp only
  by_cases h3 : v.vx3 = 0
  · rw [if_neg (by omega), hl1]
    refine ⟨true, _, rfl, by simp [h3], by simp, fun _ => ⟨rfl, rfl, rfl, rfl, rfl, hl2, rfl, ?_⟩⟩
    intro k w hk
    rw [if_neg (by omega)]
    exact hk
  · rw [if_pos (by omega)]
    obtain ⟨w, hw, hwid, hwp⟩ := hs.up iv v hv hid h3
    rw [hw]
    simp only
    have hwl := (List.getElem?_eq_some_iff.1 hw).1
    by_cases hc : force = false ∧ cut ≤ w.score
    · rw [if_pos hc]
      exact ⟨false, s, rfl, by simp [h3, hc], fun _ => rfl, by simp⟩
    · rw [if_neg hc, hl1]
      simp only [Res.bind]
      unfold updateVx3
      simp only
      rw [List.getElem?_set_self hwl]
      simp only
      rw [forget_getElem, hwp]
      simp only [Option.map_some, if_true]
      rw [if_pos (fun h => hid h.symm)]
      refine ⟨true, _, rfl, ?_, by simp, fun _ => ⟨rfl, rfl, rfl, rfl, rfl, hl2, by simp, ?_⟩⟩
      · simp only [Bool.true_eq_false, false_iff]
        rintro ⟨_, h1, w', h2, h4⟩
        cases h2
        exact hc ⟨h1, h4⟩
      · intro k u hk
        simp only
        rw [List.getElem?_set]
        by_cases hkk : v.vx3 - 1 = k
        · rw [if_pos hkk, if_pos (by omega), if_pos (by omega)]
          subst hkk
          rw [hw] at hk
          cases hk
          rfl
        · rw [if_neg hkk, if_neg (by omega)]
          exact hk

theorem Forall₂.get {α β : Type} {R : α → β → Prop} : ∀ {l : List α} {m : List β}, List.Forall₂ R l m →
    ∀ b ∈ m, ∃ a ∈ l, R a b := by
  intro l m h
  induction h with
  | nil => simp
  | cons h _ ih =>
    intro b hb
    rcases List.mem_cons.1 hb with rfl | hb
    · exact ⟨_, List.mem_cons_self .., h⟩
    · obtain ⟨a, ha, hr⟩ := ih b hb
      exact ⟨a, List.mem_cons_of_mem _ ha, hr⟩

theorem Detached.fields {v : Nat} {t t' : Traj} (h : Detached v t t') : t'.id = t.id ∧ t'.uid = t.uid ∧ t'.pts = t.pts ∧
    t'.killed = t.killed ∧ t'.shower = t.shower ∧ t'.halo = t.halo ∧ t'.ctp = t.ctp ∧ t'.endPt = t.endPt ∧
    t'.workID = t.workID ∧ t'.parentID = t.parentID := by
  have := h.same
  generalize t'.vtx = a at this
  generalize t'.photon = b at this
  generalize t'.hiVx3 = c at this
  subst this
  exact ⟨rfl, rfl, rfl, rfl, rfl, rfl, rfl, rfl, rfl, rfl⟩

/-- **C122.** Killing a 2D vertex keeps the tables of the vertices in agreement. -/
theorem C122_kill_keeps (cut : Rat) (score : Slice → Vtx3 → Rat) {s : Slice} (hs : VtxOK s) {iv : Nat} {v : Vtx}
    (hv : s.vtxs[iv]? = some v) (hid : v.id ≠ 0) (force : Bool) {r : Bool} {s' : Slice}
    (h : killVx2 cut score s iv force = .ok (r, s')) : VtxOK s' := by
  obtain ⟨r1, s1, e, _, h0, h1⟩ := C122_kill_vertex cut score hs hv hid force
  rw [h] at e
  cases e
  cases r with
  | false => rw [h0 rfl]; exact hs
  | true =>
    obtain ⟨_, _, _, _, hvt, htj, hl3, h3⟩ := h1 rfl
    have hidv : v.id = iv + 1 := by rcases hs.ids iv v hv with h | h <;> omega
    have hlen := (List.getElem?_eq_some_iff.1 hv).1
    have hback : ∀ (k : Nat) (w' : Vtx3), s'.vtx3s[k]? = some w' → ∃ w, s.vtx3s[k]? = some w ∧
        w' = if k + 1 = v.vx3 then { w with vx2 := w.vx2.map fun x => if x = v.id then 0 else x } else w := by
      intro k w' hk
      have hkl := (List.getElem?_eq_some_iff.1 hk).1
      have := h3 k _ (List.getElem?_eq_getElem (by omega : k < s.vtx3s.length))
      rw [hk] at this
      exact ⟨_, List.getElem?_eq_getElem (by omega), by simpa using this⟩
    have hvget : ∀ (i : Nat) (u : Vtx), s'.vtxs[i]? = some u → (i = iv ∧ u = { v with id := 0 }) ∨
        (i ≠ iv ∧ s.vtxs[i]? = some u) := by
      intro i u hi
      rw [hvt] at hi
      by_cases e : i = iv
      · subst e
        rw [List.getElem?_set_self hlen] at hi
        exact Or.inl ⟨rfl, by simpa using hi.symm⟩
      · rw [List.getElem?_set, if_neg (fun h => e h.symm)] at hi
        exact Or.inr ⟨e, hi⟩
    have hvput : ∀ (i : Nat) (u : Vtx), i ≠ iv → s.vtxs[i]? = some u → s'.vtxs[i]? = some u := by
      intro i u hi hu
      rw [hvt, List.getElem?_set, if_neg (fun h => hi h.symm)]
      exact hu
    refine ⟨?_, ?_, ?_, ?_, ?_⟩
    · intro i u hi
      rcases hvget i u hi with ⟨rfl, rfl⟩ | ⟨_, hi⟩
      · exact Or.inl rfl
      · exact hs.ids i u hi
    · intro k w' hk
      obtain ⟨w, hw, rfl⟩ := hback k w' hk
      have := hs.ids3 k w hw
      split <;> exact this
    · intro t' ht' hk hh e
      obtain ⟨t, ht, hd⟩ := Forall₂.get htj t' ht'
      obtain ⟨f1, f2, f3, f4, f5, f6, f7, f8, f9⟩ := hd.fields
      rw [f4] at hk
      rw [f6] at hh
      rw [hd.vtx e, f7]
      by_cases he : t.vtxAt e = v.id
      · left
        rw [if_pos ⟨he, hk, hh⟩]
      · rw [if_neg (by tauto)]
        rcases hs.ends t ht hk hh e with h | h | ⟨u, a, b, c⟩
        · exact Or.inl h
        · exact Or.inl h
        · by_cases h0 : t.vtxAt e = 0
          · exact Or.inl h0
          · exact Or.inr (Or.inr ⟨u, hvput _ u (by omega) a, b, c⟩)
    · intro i u hi hu0 hu3
      rcases hvget i u hi with ⟨rfl, rfl⟩ | ⟨hne, hi⟩
      · exact absurd rfl hu0
      · obtain ⟨w, a, b, c⟩ := hs.up i u hi hu0 hu3
        refine ⟨_, h3 _ w a, ?_, ?_⟩
        · split <;> exact b
        · split
          · simp only [List.getElem?_map, c, Option.map_some]
            have := hs.ids i u hi
            rw [if_neg (by omega)]
          · exact c
    · intro k w' hk hw0 p y hy hy0
      obtain ⟨w, hw, rfl⟩ := hback k w' hk
      by_cases hkk : k + 1 = v.vx3
      · rw [if_pos hkk] at hw0 hy ⊢
        simp only [List.getElem?_map, Option.map_eq_some_iff] at hy
        obtain ⟨x, hx, hxy⟩ := hy
        by_cases hxv : x = v.id
        · rw [if_pos hxv] at hxy; omega
        · rw [if_neg hxv] at hxy
          subst hxy
          obtain ⟨u, a, b, c, d⟩ := hs.down k w hw hw0 p x hx hy0
          exact ⟨u, hvput _ u (by omega) a, b, c, d⟩
      · rw [if_neg hkk] at hw0 hy ⊢
        obtain ⟨u, a, b, c, d⟩ := hs.down k w hw hw0 p y hy hy0
        by_cases hxv : y = v.id
        · exfalso
          have : y - 1 = iv := by omega
          rw [this, hv] at a
          cases a
          have := hs.ids3 k w hw
          omega
        · exact ⟨u, hvput _ u (by omega) a, b, c, d⟩

/-- killing a 2D vertex does not touch the ownership of hits -/
theorem Owned.killVx2 (cut : Rat) (score : Slice → Vtx3 → Rat) {s : Slice} (ho : Owned s) (hs : VtxOK s) {iv : Nat}
    {v : Vtx} (hv : s.vtxs[iv]? = some v) (hid : v.id ≠ 0) (force : Bool) {r : Bool} {s' : Slice}
    (h : killVx2 cut score s iv force = .ok (r, s')) : Owned s' := by
  obtain ⟨r1, s1, e, _, h0, h1⟩ := C122_kill_vertex cut score hs hv hid force
  rw [h] at e
  cases e
  cases r with
  | false => rw [h0 rfl]; exact ho
  | true =>
    obtain ⟨hn, how, hu, _, _, htj, _, _⟩ := h1 rfl
    have hget : ∀ (j : Nat) (t' : Traj), s'.tjs[j]? = some t' → ∃ t, s.tjs[j]? = some t ∧ Detached v.id t t' := by
      intro j t' hj
      have hl := htj.length_eq
      have hjl := (List.getElem?_eq_some_iff.1 hj).1
      refine ⟨_, List.getElem?_eq_getElem (by omega), ?_⟩
      have := List.forall₂_iff_get.1 htj
      obtain ⟨_, h2⟩ := this
      have h3 := h2 j (by omega) hjl
      rw [List.getElem?_eq_getElem hjl] at hj
      cases hj
      exact h3
    have hput : ∀ (j : Nat) (t : Traj), s.tjs[j]? = some t → ∃ t', s'.tjs[j]? = some t' ∧ Detached v.id t t' := by
      intro j t hj
      have hl := htj.length_eq
      have hjl := (List.getElem?_eq_some_iff.1 hj).1
      refine ⟨_, List.getElem?_eq_getElem (by omega), ?_⟩
      obtain ⟨_, h2⟩ := List.forall₂_iff_get.1 htj
      have h3 := h2 j hjl (by omega)
      rw [List.getElem?_eq_getElem hjl] at hj
      cases hj
      exact h3
    have hus : ∀ {t t' : Traj}, Detached v.id t t' → used t' = used t := by
      intro t t' hd
      obtain ⟨_, _, f3, _, f5, _⟩ := hd.fields
      exact used_congr f3 f5 .used
    refine ⟨?_, ?_, ?_, ?_, ?_, ?_⟩
    · intro j t' hj
      obtain ⟨t, ht, hd⟩ := hget j t' hj
      rw [hd.fields.1]
      exact ho.ids j t ht
    · intro h hh hp
      rw [hn] at hh
      rw [how] at hp ⊢
      obtain ⟨j, t, a, b, c, d⟩ := ho.owner h hh hp
      obtain ⟨t', ht', hd⟩ := hput j t a
      exact ⟨j, t', ht', b, by rw [hd.fields.2.2.2.1]; exact c, by rw [hus hd]; exact d⟩
    · intro j t' hj hk
      obtain ⟨t, ht, hd⟩ := hget j t' hj
      rw [hus hd, hn, how]
      exact ho.owns j t ht (by rw [← hd.fields.2.2.2.1]; exact hk)
    · intro j t' hj hk
      obtain ⟨t, ht, hd⟩ := hget j t' hj
      rw [hus hd]
      exact ho.once j t ht (by rw [← hd.fields.2.2.2.1]; exact hk)
    · intro j t' hj hk hsh hha
      obtain ⟨t, ht, hd⟩ := hget j t' hj
      obtain ⟨_, _, f3, f4, f5, f6, _⟩ := hd.fields
      rw [f3]
      exact ho.charge j t ht (by rw [← f4]; exact hk) (by rw [← f5]; exact hsh) (by rw [← f6]; exact hha)
    · have hm : s'.tjs.map Traj.uid = s.tjs.map Traj.uid := by
        clear hget hput h h0 h1
        generalize s.tjs = l at htj
        generalize s'.tjs = l' at htj
        induction htj with
        | nil => rfl
        | cons hd _ ih => simp [hd.fields.2.1, ih]
      refine ⟨by rw [hm]; exact ho.uids.1, ?_⟩
      intro t' ht'
      obtain ⟨t, ht, hd⟩ := Forall₂.get htj t' ht'
      rw [hd.fields.2.1, hu]
      exact ho.uids.2 t ht

end Verif.TC

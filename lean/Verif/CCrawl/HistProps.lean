import Verif.CCrawl.StoreProps

/-! Properties of the histories of ClusterCrawler: C267 - C269. -/

namespace Verif.CCrawl

/-! ### Small facts -/

theorem store_keep (s : St) (hits : List Nat) (proc : Int) {j : Nat} {c : Cl} (hc : s.tcl[j]? = some c) :
    (tmpStore s hits proc).2.tcl[j]? = some c := by
  have hj : j < s.tcl.length := (List.getElem?_eq_some_iff.mp hc).1
  by_cases h : (tmpStore s hits proc).1 = true
  · obtain ⟨f, l, _, _, e3, _⟩ := store_eq s hits proc h
    rw [e3, List.getElem?_append_left hj]; exact hc
  · rw [(store_fail s hits proc (by simpa using h)).1]; exact hc

theorem loose_of_tcl {s t : St} (h : t.tcl = s.tcl) {hits : List Nat} (L : Loose s hits) : Loose t hits := by
  intro c hc; rw [h] at hc; exact L c hc

theorem setVtx_get (s : St) (k : Nat) (b e : Int) (j : Nat) :
    (setVtx s k b e).tcl[j]? = (s.tcl[j]?).map fun c => if k = j then { c with beginVtx := b, endVtx := e } else c := by
  unfold setVtx
  dsimp only
  rw [List.getElem?_modify]
  rfl

theorem setVtx_len (s : St) (k : Nat) (b e : Int) : (setVtx s k b e).tcl.length = s.tcl.length := by
  simp [setVtx]

theorem obsolete_num (s : St) (i : Nat) : (obsolete s i).num = s.num ∧ (obsolete s i).hit = s.hit ∧ (obsolete s i).n = s.n := by
  unfold obsolete
  split
  · split <;> exact ⟨rfl, rfl, rfl⟩
  · exact ⟨rfl, rfl, rfl⟩

/-! ### C267 every history -/

theorem inv_splitUS {s : St} (I : Inv s) {icl pos : Nat} {ivx : Int} {c d : Cl} (hd : s.tcl[icl]? = some d)
    (hdh : d.hits = c.hits) (hfree : ∀ h ∈ c.hits.drop pos, s.inClus h = 0)
    (hl : ∀ j e, s.tcl[j]? = some e → 0 < e.id → j ≠ s.tcl.length - 1 → ∀ h ∈ c.hits, h ∉ e.hits) :
    Inv (splitUS s icl pos ivx c).2 := by
  unfold splitUS
  split
  · split
    · rename_i h
      rw [List.any_eq_true] at h
      obtain ⟨x, hx, hx'⟩ := h
      simp [hfree x hx] at hx'
    · dsimp only
      split
      · exact inv_setVtx (inv_store I _ _) _ _ _
      · rename_i hf
        have ht := (store_fail s (c.hits.drop pos) c.proc (by simpa using hf)).1
        have I1 := inv_store I (c.hits.drop pos) c.proc
        generalize tmpStore s (c.hits.drop pos) c.proc = r at ht I1
        have I2 := inv_obsolete I1 (r.2.tcl.length - 1)
        have L : Loose (obsolete r.2 (r.2.tcl.length - 1)) c.hits := by
          intro e he hel h hh
          obtain ⟨j, hj⟩ := List.getElem?_of_mem he
          by_cases hjl : j = r.2.tcl.length - 1
          · subst hjl
            exfalso
            cases hg : r.2.tcl[r.2.tcl.length - 1]? with
            | none =>
              unfold obsolete at hj
              rw [hg] at hj
              dsimp only at hj
              rw [hg] at hj; cases hj
            | some g =>
              by_cases hgp : g.id ≤ 0
              · rw [obsolete_dead hg hgp, hg] at hj
                cases hj; omega
              · push Not at hgp
                rw [(obsolete_get hg hgp).1] at hj
                cases hj
                dsimp only at hel
                omega
          · rw [obsolete_other j hjl, ht] at hj
            rw [ht] at hjl
            exact hl j e hj hel hjl h hh
        by_cases hi : icl = r.2.tcl.length - 1
        · rw [← hi] at I2 L ⊢
          rw [← ht] at hd
          by_cases hdp : d.id ≤ 0
          · rw [obsolete_dead hd hdp] at I2 L ⊢
            exact inv_restore I2 hd fun _ => by rw [hdh]; exact L
          · push Not at hdp
            exact inv_restore I2 (obsolete_get hd hdp).1 fun _ => by dsimp only; rw [hdh]; exact L
        · refine inv_restore I2 (c := d) ?_ fun _ => by rw [hdh]; exact L
          rw [obsolete_other icl hi, ht]; exact hd
  · exact I

theorem inv_split {s : St} (I : Inv s) (icl pos : Nat) (ivx : Int) : Inv (split s icl pos ivx).2 := by
  unfold split
  split
  · exact I
  · rename_i c hc
    split
    · exact I
    · rename_i hneg
      have hp : 0 < c.id := by rcases I.ids icl c hc with e | e <;> omega
      have I1 := inv_obsolete I icl
      have L := loose_obsolete I hc hp
      have hg := (obsolete_get hc hp).1
      have hz := (C266_kill_restore I hc hp).1
      have hnd := I.nodup c (List.mem_of_getElem? hc)
      dsimp only
      generalize obsolete s icl = s1 at *
      split
      · split
        · rename_i hr
          obtain ⟨f, l, e1, _, e3, e4, e5, _, e6, e7⟩ := store_eq s1 (c.hits.take pos) c.proc hr
          have hk := store_keep s1 (c.hits.take pos) c.proc hg
          have I2 := inv_store I1 (c.hits.take pos) c.proc
          generalize tmpStore s1 (c.hits.take pos) c.proc = r at *
          have hlast : icl ≠ r.2.tcl.length - 1 := by
            have h2 : icl < s1.tcl.length := (List.getElem?_eq_some_iff.mp hg).1
            rw [e3]; simp; omega
          refine inv_splitUS (inv_setVtx I2 _ _ _) (d := { c with id := -c.id }) ?_ rfl ?_ ?_
          · rw [setVtx_get, hk]
            simp only [Option.map_some, if_neg (Ne.symm hlast)]
          · intro h hh
            show r.2.inClus h = 0
            rw [e7 h ?_]
            · exact hz h (List.mem_of_mem_drop hh)
            · intro ht
              exact (List.disjoint_take_drop hnd le_rfl) ht hh
          · intro j e hj hel hne h hh
            rw [setVtx_len] at hne
            rw [setVtx_get] at hj
            cases hx : r.2.tcl[j]? with
            | none => rw [hx] at hj; cases hj
            | some x =>
              rw [hx] at hj
              simp only [Option.map_some, if_neg (Ne.symm hne), Option.some.injEq] at hj
              subst hj
              have hjl : j < s1.tcl.length := by
                have := (List.getElem?_eq_some_iff.mp hx).1
                rw [e3] at this hne
                simp at this hne
                omega
              rw [e3, List.getElem?_append_left hjl] at hx
              exact L x (List.mem_of_getElem? hx) hel h hh
        · rename_i hr
          have ht := (store_fail s1 (c.hits.take pos) c.proc (by simpa using hr)).1
          have I2 := inv_store I1 (c.hits.take pos) c.proc
          refine inv_restore I2 (c := { c with id := -c.id }) (by rw [ht]; exact hg) fun _ => loose_of_tcl ht L
      · refine inv_splitUS I1 hg rfl (fun h hh => hz h (List.mem_of_mem_drop hh)) ?_
        intro j e hj hel _ h hh
        exact L e (List.mem_of_getElem? hj) hel h hh

theorem inv_overlap {s : St} (I : Inv s) (i j : Nat) (hits : List Nat) : Inv (mergeOverlap s i j hits) := by
  unfold mergeOverlap
  split
  · rename_i ci cj hi hj
    split
    · exact I
    · rename_i hneg
      push Not at hneg
      have hpi : 0 < ci.id := by rcases I.ids i ci hi with e | e <;> omega
      have hpj : 0 < cj.id := by rcases I.ids j cj hj with e | e <;> omega
      dsimp only
      have I1 := inv_obsolete I i
      have I2 := inv_obsolete I1 j
      have I3 := inv_store I2 hits (ci.proc + 500)
      have L1 := loose_keep (loose_obsolete I hi hpi) j
      split
      · exact inv_setVtx I3 _ _ _
      · rename_i hr
        have ht := (store_fail _ hits (ci.proc + 500) (by simpa using hr)).1
        generalize tmpStore (obsolete (obsolete s i) j) hits (ci.proc + 500) = r at *
        have gi := (obsolete_get hi hpi).1
        by_cases hij : i = j
        · subst hij
          have hdead : obsolete (obsolete s i) i = obsolete s i := obsolete_dead gi (by dsimp only; omega)
          rw [hdead] at ht L1
          have gr : r.2.tcl[i]? = some { ci with id := -ci.id } := by rw [ht]; exact gi
          have I4 := inv_restore I3 gr fun _ => loose_of_tcl ht L1
          have g4 : (restore r.2 i).tcl[i]? = some { ci with id := - -ci.id } := by
            rw [restore_dead gr (by dsimp only; omega)]
            have := (List.getElem?_eq_some_iff.mp gr).1
            simp [this]
          exact inv_restore I4 g4 fun h => by dsimp only at h; omega
        · have gi2 : r.2.tcl[i]? = some { ci with id := -ci.id } := by
            rw [ht, obsolete_other i hij]; exact gi
          have hj1 : (obsolete s i).tcl[j]? = some cj := by
            rw [obsolete_other j (Ne.symm hij)]; exact hj
          have gj2 : r.2.tcl[j]? = some { cj with id := -cj.id } := by
            rw [ht]; exact (obsolete_get hj1 hpj).1
          have L2 := loose_obsolete I1 hj1 hpj
          have I4 := inv_restore I3 gi2 fun _ => loose_of_tcl ht L1
          refine inv_restore I4 (c := { cj with id := -cj.id }) ?_ ?_
          · rw [restore_other j (Ne.symm hij)]; exact gj2
          · intro _ d hd hdl h hh
            obtain ⟨k, hk⟩ := List.getElem?_of_mem hd
            by_cases hki : k = i
            · subst hki
              rw [restore_dead gi2 (by dsimp only; omega)] at hk
              have := (List.getElem?_eq_some_iff.mp gi2).1
              simp [this] at hk
              subst hk
              exact live_disjoint I hj hi (Ne.symm hij) hpj hpi h hh
            · rw [restore_other k hki, ht] at hk
              exact L2 d (List.mem_of_getElem? hk) hdl h hh
  · exact I

theorem inv_merge {s : St} (I : Inv s) (i1 i2 : Nat) (p q : Int) (f : Bool) : Inv (doMerge s i1 i2 p q f) := by
  unfold doMerge
  split
  · split
    · exact I
    · split
      · exact I
      · dsimp only
        have I3 := fun hs => inv_store (inv_obsolete (inv_obsolete I i1) i2) hs p
        split
        · split
          · exact inv_setVtx (inv_modify (I3 _) _ (fun c => { c with proc := q }) fun _ => ⟨rfl, rfl, rfl⟩) _ _ _
          · exact inv_setVtx (inv_modify (I3 _) _ (fun c => { c with proc := q }) fun _ => ⟨rfl, rfl, rfl⟩) _ _ _
        · exact I3 _
  · exact I

theorem inv_step {s : St} (I : Inv s) (op : Op) : Inv (step s op) := by
  cases op with
  | store hits proc => exact inv_store I _ _
  | kill i => exact inv_obsolete I i
  | split i pos ivx => exact inv_split I _ _ _
  | merge i1 i2 p q f => exact inv_merge I _ _ _ _ _
  | overlap i j hits => exact inv_overlap I _ _ _
  | replace i hits add e =>
    show Inv (replaceCl s i hits add e)
    unfold replaceCl
    split
    · split
      · exact I
      · dsimp only
        split
        · exact inv_setVtx (inv_store (inv_obsolete I i) _ _) _ _ _
        · exact inv_store (inv_obsolete I i) _ _
    · exact I
  | shorten i k iv =>
    show Inv (shorten s i k iv)
    unfold shorten
    split
    · split
      · exact I
      · dsimp only
        exact inv_modify (inv_store (inv_obsolete I i) _ _) _ _ fun _ => ⟨rfl, rfl, rfl⟩
    · exact I
  | dropHit h =>
    show Inv (dropHit s h)
    unfold dropHit
    split
    · rename_i h0
      refine ⟨I.num, I.ids, I.nodup, I.plane, ?_⟩
      intro c hc hcl x hx
      have := I.live c hc hcl x hx
      dsimp only
      rw [Function.update_of_ne (by rintro rfl; omega)]
      exact this
    · exact I

theorem inv_history (H : Nat → Hit) (n : Nat) (ops : List Op) : Inv (ops.foldl step (start H n)) := by
  have : ∀ (s : St), Inv s → Inv (ops.foldl step s) := by
    induction ops with
    | nil => intro s I; exact I
    | cons o t ih => intro s I; exact ih _ (inv_step I o)
  exact this _ (inv_start H n)

/-- C267: after any history of storing, deleting, splitting, merging and replacing, whether the attempts succeed or not, no
hit is in two live clusters or twice in one, all hits of a live cluster are in its plane, and the check of the module before
the clusters are saved passes. -/
theorem C267_history (H : Nat → Hit) (n : Nat) (ops : List Op) :
    let s := ops.foldl step (start H n)
    moduleCheck s = true ∧
    (∀ (i j : Nat) c d, s.tcl[i]? = some c → s.tcl[j]? = some d → i ≠ j → 0 < c.id → 0 < d.id → ∀ h ∈ c.hits, h ∉ d.hits) ∧
    (∀ c ∈ s.tcl, c.hits.Nodup ∧ ∀ h ∈ c.hits, (s.hit h).plane = c.plane) ∧
    (∀ (i : Nat) c, s.tcl[i]? = some c → c.id.natAbs = i + 1) := by
  intro s
  have I : Inv s := inv_history H n ops
  refine ⟨?_, ?_, ?_, ?_⟩
  · unfold moduleCheck
    rw [List.all_eq_true]
    intro c hc
    by_cases h : c.id < 0
    · simp [h]
    · have hp : 0 < c.id := by
        obtain ⟨i, hi⟩ := List.getElem?_of_mem hc
        rcases I.ids i c hi with e | e <;> omega
      simp only [Bool.or_eq_true, List.all_eq_true, Bool.and_eq_true, beq_iff_eq]
      right
      intro x hx
      exact ⟨I.plane c hc x hx, I.live c hc hp x hx⟩
  · intro i j c d hc hd hij h1 h2
    exact live_disjoint I hc hd hij h1 h2
  · intro c hc
    exact ⟨I.nodup c hc, I.plane c hc⟩
  · intro i c hc
    rcases I.ids i c hc with e | e <;> omega

example : ([Op.store [0, 1, 2, 3, 4, 5, 6, 7] 0, Op.split 0 4 7, Op.merge 1 2 0 50 true].foldl step (start exHit 10)).tcl.map
    (fun c => (c.id, c.hits)) =
    [(-1, [0, 1, 2, 3, 4, 5, 6, 7]), (-2, [0, 1, 2, 3]), (-3, [4, 5, 6, 7]), (4, [0, 1, 2, 3, 4, 5, 6, 7])] := by
  decide +kernel

/-! ### C268 the marks -/

/-- every hit with a number is in the live cluster of that number -/
def Exact (s : St) : Prop := ∀ h, 0 < s.inClus h → ∃ c ∈ s.tcl, c.id = s.inClus h ∧ h ∈ c.hits

/-- an operation that stores what it set out to store -/
def Ok (s : St) (op : Op) : Prop :=
  match op with
  | .kill _ => True
  | .dropHit _ => True
  | .store hits proc => (tmpStore s hits proc).1 = true
  | .split i pos ivx => (split s i pos ivx).1 = true
  | op => s.tcl.length < (step s op).tcl.length

theorem exact_store {s : St} (I : Inv s) (E : Exact s) {hits : List Nat} {proc : Int} (h : (tmpStore s hits proc).1 = true) :
    Exact (tmpStore s hits proc).2 := by
  obtain ⟨f, l, _, _, e3, e4, _, _, e6, e7⟩ := store_eq s hits proc h
  intro x hx
  rw [e3]
  by_cases hm : x ∈ hits
  · refine ⟨_, by simp; exact Or.inr rfl, ?_, hm⟩
    rw [e6 x hm]
  · rw [e7 x hm] at hx ⊢
    obtain ⟨c, hc, e⟩ := E x hx
    exact ⟨c, by simp [hc], e⟩

theorem exact_obsolete {s : St} (E : Exact s) (i : Nat) : Exact (obsolete s i) := by
  cases hc : s.tcl[i]? with
  | none =>
    have : obsolete s i = s := by unfold obsolete; rw [hc]
    rw [this]; exact E
  | some c =>
    by_cases hp : c.id ≤ 0
    · rw [obsolete_dead hc hp]; exact E
    · push Not at hp
      intro x hx
      have hx2 : x ∉ c.hits ∧ 0 < s.inClus x ∧ (obsolete s i).inClus x = s.inClus x := by
        rw [obsolete_live hc hp] at hx ⊢
        dsimp only at hx ⊢
        rw [setAll_mem] at hx ⊢
        split at hx
        · omega
        · rename_i h
          exact ⟨h, hx, if_neg h⟩
      obtain ⟨d, hd, e1, e2⟩ := E x hx2.2.1
      obtain ⟨j, hj⟩ := List.getElem?_of_mem hd
      have hji : j ≠ i := by
        rintro rfl
        rw [hc] at hj
        cases hj
        exact hx2.1 e2
      refine ⟨d, List.mem_of_getElem? ((obsolete_other j hji).trans hj), ?_, e2⟩
      rw [hx2.2.2]; exact e1

theorem exact_modify {s : St} (E : Exact s) (k : Nat) (f : Cl → Cl)
    (hf : ∀ c, (f c).id = c.id ∧ (f c).hits = c.hits) : Exact { s with tcl := s.tcl.modify k f } := by
  intro x hx
  obtain ⟨c, hc, e1, e2⟩ := E x hx
  obtain ⟨j, hj⟩ := List.getElem?_of_mem hc
  by_cases hk : k = j
  · refine ⟨f c, List.mem_of_getElem? (i := j) ?_, (hf c).1.trans e1, by rw [(hf c).2]; exact e2⟩
    dsimp only
    rw [List.getElem?_modify, hj]; simp [hk]
  · refine ⟨c, List.mem_of_getElem? (i := j) ?_, e1, e2⟩
    dsimp only
    rw [List.getElem?_modify, hj]; simp [hk]

theorem exact_setVtx {s : St} (E : Exact s) (k : Nat) (b e : Int) : Exact (setVtx s k b e) :=
  exact_modify E k _ fun _ => ⟨rfl, rfl⟩

theorem exact_splitUS {s : St} (I : Inv s) (E : Exact s) {icl pos : Nat} {ivx : Int} {c : Cl}
    (h : (splitUS s icl pos ivx c).1 = true) : Exact (splitUS s icl pos ivx c).2 := by
  unfold splitUS at h ⊢
  split at h
  · rename_i c1
    rw [if_pos c1]
    split at h
    · cases h
    · rename_i c2
      rw [if_neg c2]
      dsimp only at h ⊢
      split at h
      · rename_i c3
        rw [if_pos c3]
        exact exact_setVtx (exact_store I E c3) _ _ _
      · cases h
  · rename_i c1
    rw [if_neg c1]; exact E

theorem exact_step {s : St} (I : Inv s) (E : Exact s) (op : Op) (ok : Ok s op) : Exact (step s op) := by
  have stored : ∀ (t : St) hits proc, Inv t → Exact t → t.tcl.length < (tmpStore t hits proc).2.tcl.length →
      Exact (tmpStore t hits proc).2 := by
    intro t hits proc It Et hl
    refine exact_store It Et ?_
    by_contra hf
    rw [(store_fail t hits proc (by simpa using hf)).1] at hl
    omega
  cases op with
  | store hits proc => exact exact_store I E ok
  | kill i => exact exact_obsolete E i
  | split i pos ivx =>
    show Exact (split s i pos ivx).2
    have ok' : (split s i pos ivx).1 = true := ok
    unfold split at ok' ⊢
    split at ok'
    · cases ok'
    · rename_i c hc
      split at ok'
      · cases ok'
      · rename_i c1
        simp only [hc]
        rw [if_neg c1]
        dsimp only at ok' ⊢
        split at ok'
        · rename_i c2
          rw [if_pos c2]
          split at ok'
          · rename_i c3
            rw [if_pos c3]
            exact exact_splitUS (inv_setVtx (inv_store (inv_obsolete I i) _ _) _ _ _)
              (exact_setVtx (exact_store (inv_obsolete I i) (exact_obsolete E i) c3) _ _ _) ok'
          · cases ok'
        · rename_i c2
          rw [if_neg c2]
          exact exact_splitUS (inv_obsolete I i) (exact_obsolete E i) ok'
  | merge i1 i2 p q f =>
    have ok' : s.tcl.length < (doMerge s i1 i2 p q f).tcl.length := ok
    show Exact (doMerge s i1 i2 p q f)
    unfold doMerge at ok' ⊢
    cases h1 : s.tcl[i1]? with
    | none => simp only [h1] at ok'; omega
    | some c1 =>
      cases h2 : s.tcl[i2]? with
      | none => simp only [h1, h2] at ok'; omega
      | some c2 =>
        simp only [h1, h2] at ok' ⊢
        split at ok'
        · omega
        · rename_i k1
          rw [if_neg k1]
          split at ok'
          · omega
          · rename_i k2
            rw [if_neg k2]
            split at ok'
            · rename_i k3
              rw [if_pos k3]
              have I2 := inv_obsolete (inv_obsolete I i1) i2
              have E3 := exact_store I2 (exact_obsolete (exact_obsolete E i1) i2) k3
              split
              · exact exact_setVtx (exact_modify E3 _ (fun c => { c with proc := q }) fun _ => ⟨rfl, rfl⟩) _ _ _
              · exact exact_setVtx (exact_modify E3 _ (fun c => { c with proc := q }) fun _ => ⟨rfl, rfl⟩) _ _ _
            · rename_i k3
              rw [(store_fail _ _ _ (by simpa using k3)).1, obsolete_len, obsolete_len] at ok'
              omega
  | overlap i j hits =>
    have ok' : s.tcl.length < (mergeOverlap s i j hits).tcl.length := ok
    show Exact (mergeOverlap s i j hits)
    have rlen : ∀ (t : St) k, (restore t k).tcl.length = t.tcl.length := by
      intro t k
      unfold restore
      split
      · split <;> simp
      · rfl
    unfold mergeOverlap at ok' ⊢
    cases h1 : s.tcl[i]? with
    | none => simp only [h1] at ok'; omega
    | some c1 =>
      cases h2 : s.tcl[j]? with
      | none => simp only [h1, h2] at ok'; omega
      | some c2 =>
        simp only [h1, h2] at ok' ⊢
        split at ok'
        · omega
        · rename_i k1
          rw [if_neg k1]
          split at ok'
          · rename_i k3
            rw [if_pos k3]
            exact exact_setVtx (exact_store (inv_obsolete (inv_obsolete I i) j) (exact_obsolete (exact_obsolete E i) j) k3) _ _ _
          · rename_i k3
            rw [rlen, rlen, (store_fail _ _ _ (by simpa using k3)).1, obsolete_len, obsolete_len] at ok'
            omega
  | replace i hits add e =>
    have ok' : s.tcl.length < (replaceCl s i hits add e).tcl.length := ok
    show Exact (replaceCl s i hits add e)
    unfold replaceCl at ok' ⊢
    cases h1 : s.tcl[i]? with
    | none => simp only [h1] at ok'; omega
    | some c1 =>
      simp only [h1] at ok' ⊢
      split at ok'
      · omega
      · rename_i k1
        rw [if_neg k1]
        split at ok'
        · rename_i k3
          rw [if_pos k3]
          exact exact_setVtx (exact_store (inv_obsolete I i) (exact_obsolete E i) k3) _ _ _
        · rename_i k3
          rw [(store_fail _ _ _ (by simpa using k3)).1, obsolete_len] at ok'
          omega
  | shorten i k iv =>
    have ok' : s.tcl.length < (shorten s i k iv).tcl.length := ok
    show Exact (shorten s i k iv)
    unfold shorten at ok' ⊢
    cases h1 : s.tcl[i]? with
    | none => simp only [h1] at ok'; omega
    | some c1 =>
      simp only [h1] at ok' ⊢
      split at ok'
      · omega
      · rename_i k1
        rw [if_neg k1]
        simp only [List.length_modify] at ok'
        exact exact_modify (stored _ _ _ (inv_obsolete I i) (exact_obsolete E i) (by rw [obsolete_len]; exact ok')) _ _
          fun _ => ⟨rfl, rfl⟩
  | dropHit h =>
    show Exact (dropHit s h)
    unfold dropHit
    split
    · intro x hx
      dsimp only at hx ⊢
      by_cases hxh : x = h
      · subst hxh; rw [Function.update_self] at hx; omega
      · rw [Function.update_of_ne hxh] at hx ⊢
        exact E x hx
    · exact E

/-- a history in which every attempt to store succeeds -/
def AllOk : St → List Op → Prop
  | _, [] => True
  | s, o :: t => Ok s o ∧ AllOk (step s o) t

/-- C268 (part): in a history without a failed store the marks are exact: a hit marked with a number is in the live cluster
of that number, and (C267) the hits of a live cluster are marked with its number. -/
theorem C268_marks_partial (H : Nat → Hit) (n : Nat) (ops : List Op) (ok : AllOk (start H n) ops) (h : Nat) (k : Int)
    (hk : 0 < k) :
    let s := ops.foldl step (start H n)
    s.inClus h = k ↔ ∃ c ∈ s.tcl, c.id = k ∧ h ∈ c.hits := by
  intro s
  have key : ∀ (ops : List Op) (s : St), Inv s → Exact s → AllOk s ops → Exact (ops.foldl step s) := by
    intro ops
    induction ops with
    | nil => intro s _ E _; exact E
    | cons o t ih => intro s I E A; exact ih _ (inv_step I o) (exact_step I E o A.1) A.2
  have E : Exact s := key ops _ (inv_start H n) (by intro x hx; simp [start] at hx) ok
  have I : Inv s := inv_history H n ops
  constructor
  · intro e
    have := E h (by omega)
    rwa [e] at this
  · rintro ⟨c, hc, e1, e2⟩
    rw [← e1]
    exact I.live c hc (by omega) h e2

/-- C268 (refuted): after a store that failed, the next cluster gets the number of the stray marks: a hit is marked as
belonging to a cluster that does not contain it. -/
theorem C268_refuted : ¬ ∀ (H : Nat → Hit) (n : Nat) (ops : List Op) (h : Nat) (k : Int), 0 < k →
    ((ops.foldl step (start H n)).inClus h = k ↔ ∃ c ∈ (ops.foldl step (start H n)).tcl, c.id = k ∧ h ∈ c.hits) := by
  intro h
  have := (h exHit 10 [Op.store [1, 0] 0, Op.store [3, 4, 5] 0] 1 1 (by decide)).mp (by decide +kernel)
  revert this
  decide +kernel

example : AllOk (start exHit 10) [Op.store [0, 1, 2, 3, 4, 5, 6, 7] 0, Op.split 0 4 7, Op.merge 1 2 0 50 true] := by
  refine ⟨?_, ?_, ?_, trivial⟩
  · show (tmpStore _ _ _).1 = true; decide +kernel
  · show (split _ _ _ _).1 = true; decide +kernel
  · show List.length _ < List.length _; decide +kernel

end Verif.CCrawl

import Verif.CMTool.ManagerProps
/-! # Properties C12, C13, C55: the whole `Process` call of the merge manager -/
namespace Verif.CMTool
open Verif

section
variable {η κ : Type} [LinearOrder κ] [Zero κ]

/-- hits of input cluster `i` -/
def hitsOf (cs : List (Cluster η)) (i : Nat) : List η := (cs[i]?.map (·.hits)).getD []

/-- A well-formed cluster: it has hits, and all are on its plane (planes below 256). -/
def WellFormed (hp : η → Nat) (c : Cluster η) : Prop :=
  c.hits ≠ [] ∧ (∀ h ∈ c.hits, hp h = c.plane) ∧ c.plane < 256

/-! ## Lemmas -/

theorem switchLoop_ok (gs : List (List Nat)) (i : Nat) (fl : List Bool) (h : gs.length + i ≤ fl.length) :
    ∃ fl', switchLoop gs i fl = .ok fl' ∧ fl'.length = fl.length := by
  induction gs generalizing i fl with
  | nil => exact ⟨fl, rfl, rfl⟩
  | cons g gs ih =>
    simp only [List.length_cons] at h
    unfold switchLoop
    split
    · rw [if_pos (by omega)]
      obtain ⟨fl', h1, h2⟩ := ih (i + 1) (fl.set i false) (by simp; omega)
      exact ⟨fl', h1, by simpa using h2⟩
    · exact ih (i + 1) fl (by omega)

theorem gatherHits_ok (cs : List (Cluster η)) (g : List Nat) (h : ∀ i ∈ g, i < cs.length) :
    gatherHits cs g = .ok (g.flatMap (hitsOf cs)) := by
  induction g with
  | nil => rfl
  | cons i g ih =>
    have hi := h i (by simp)
    simp only [gatherHits, List.getElem?_eq_getElem hi, ih (fun j hj => h j (by simp [hj]))]
    simp [hitsOf, List.getElem?_eq_getElem hi]

theorem outCluster_hits (hp : η → Nat) (cs : List (Cluster η)) (g : List Nat) (h : ∀ i ∈ g, i < cs.length)
    (c : Cluster η) (hc : outCluster hp cs g = .ok c) : c.hits = g.flatMap (hitsOf cs) := by
  unfold outCluster at hc
  split at hc
  · rename_i hl
    obtain ⟨i, rfl⟩ := List.length_eq_one_iff.1 hl
    have hi := h i (by simp)
    simp [BK.atRes, List.getElem?_eq_getElem hi] at hc
    subst hc
    simp [hitsOf, List.getElem?_eq_getElem hi]
  · rw [gatherHits_ok cs g h] at hc
    simp only [Res.bind_ok] at hc
    split at hc
    · simp at hc
    · rename_i x l e
      simp at hc
      subst hc
      exact e ▸ rfl

theorem outCluster_wf (hp : η → Nat) (cs : List (Cluster η)) (g : List Nat) (h : ∀ i ∈ g, i < cs.length)
    (hg : g ≠ []) (hw : ∀ c ∈ cs, WellFormed hp c) (p : Nat) (hpl : ∀ i ∈ g, planeOf cs i = p) :
    ∃ c, outCluster hp cs g = .ok c ∧ WellFormed hp c ∧ c.plane = p := by
  have hne : ∀ i, i < cs.length → hitsOf cs i ≠ [] := by
    intro i hi
    simp only [hitsOf, List.getElem?_eq_getElem hi]
    exact (hw _ (List.getElem_mem hi)).1
  have hpof : ∀ i, (hi : i < cs.length) → planeOf cs i = cs[i].plane := fun i hi =>
    planeOf_eq (List.getElem?_eq_getElem hi)
  unfold outCluster
  split
  · rename_i hl
    obtain ⟨i, rfl⟩ := List.length_eq_one_iff.1 hl
    have hi := h i (by simp)
    refine ⟨cs[i], by simp [BK.atRes, List.getElem?_eq_getElem hi], hw _ (List.getElem_mem hi), ?_⟩
    rw [← hpof i hi]; exact hpl i (by simp)
  · rw [gatherHits_ok cs g h]
    simp only [Res.bind_ok]
    have hhits : ∀ x ∈ g.flatMap (hitsOf cs), hp x = p := by
      intro x hx
      obtain ⟨i, hi, hx⟩ := List.mem_flatMap.1 hx
      have hlt := h i hi
      simp only [hitsOf, List.getElem?_eq_getElem hlt] at hx
      rw [(hw _ (List.getElem_mem hlt)).2.1 x hx, ← hpof i hlt]
      exact hpl i hi
    split
    · rename_i e
      exfalso
      cases g with
      | nil => exact hg rfl
      | cons i g =>
        rw [List.flatMap_cons] at e
        exact hne i (h i (by simp)) (List.append_eq_nil_iff.1 e).1
    · rename_i x l e
      have hx : hp x = p := hhits x (by rw [e]; simp)
      refine ⟨_, rfl, ⟨by rw [e]; simp, ?_, ?_⟩, hx⟩
      · intro y hy; dsimp only at hy ⊢; rw [hhits y hy, hx]
      · dsimp only
        cases g with
        | nil => exact absurd rfl hg
        | cons i g =>
          have hi := h i (by simp)
          rw [hx, ← hpl i (by simp), hpof i hi]
          exact (hw _ (List.getElem_mem hi)).2.2

theorem outClusters_spec (hp : η → Nat) (cs : List (Cluster η)) (gs : List (List Nat)) (out : List (Cluster η))
    (h : outClusters hp cs gs = .ok out) :
    out.length = gs.length ∧ ∀ (k : Nat) (g : List Nat) (c : Cluster η), gs[k]? = some g → out[k]? = some c → outCluster hp cs g = .ok c := by
  induction gs generalizing out with
  | nil => simp [outClusters] at h; subst h; simp
  | cons g gs ih =>
    unfold outClusters at h
    cases h1 : outCluster hp cs g with
    | throw => simp [h1] at h
    | ub => simp [h1] at h
    | ok c =>
      cases h2 : outClusters hp cs gs with
      | throw => simp [h1, h2] at h
      | ub => simp [h1, h2] at h
      | ok r =>
        simp [h1, h2] at h
        subst h
        obtain ⟨e1, e2⟩ := ih r h2
        refine ⟨by simp [e1], ?_⟩
        intro k g' c' hg hc
        cases k with
        | zero => simp at hg hc; subst hg hc; exact h1
        | succ k => exact e2 k g' c' (by simpa using hg) (by simpa using hc)

theorem outClusters_ok (hp : η → Nat) (cs : List (Cluster η)) (gs : List (List Nat))
    (h : ∀ g ∈ gs, ∃ c, outCluster hp cs g = .ok c) : ∃ out, outClusters hp cs gs = .ok out := by
  induction gs with
  | nil => exact ⟨[], rfl⟩
  | cons g gs ih =>
    obtain ⟨c, hc⟩ := h g (by simp)
    obtain ⟨r, hr⟩ := ih (fun g' hg' => h g' (by simp [hg']))
    exact ⟨c :: r, by simp [outClusters, hc, hr]⟩

/-- what one iteration does, given its pass -/
theorem iteration_cases (hp : η → Nat) (al : PassAlgs κ) (st : Loop η) (hidx : st.indexes.length ≤ st.cur.length) :
    ∃ flags bk M P idx, flags.length = st.cur.length ∧
      BK.Reach st.cur.length bk M P ∧ (∀ a b, (a, b) ∈ M → Link st.cur flags al a b) ∧
      bk.getResult = .ok idx ∧ idx.length ≤ st.cur.length ∧
      iteration hp al st = (if st.cur.length = idx.length then .ok (false, ⟨st.cur, idx, st.books⟩)
        else match outClusters hp st.cur idx with
          | .ok out => .ok (decide (¬ out.length = numPlanes st.cur (prioOrder al.prio st.cur.length)),
              ⟨out, idx, st.books ++ [bk]⟩)
          | .throw => .throw
          | .ub => .ub) := by
  obtain ⟨flags, hf1, hf2⟩ := switchLoop_ok st.indexes 0 (List.replicate st.cur.length true) (by simpa using hidx)
  simp only [List.length_replicate] at hf2
  obtain ⟨bk, M, P, e, hr, hP, hM, hc⟩ := pass_spec st.cur flags al hf2
  have hinv := BK.reach_inv hr
  refine ⟨flags, bk, M, P, _, hf2, hr, hM, BK.getResult_ok hinv, by simpa using hinv.cnt_le, ?_⟩
  unfold iteration
  rw [hf1]
  simp only [Res.bind_ok, e, BK.getResult_ok hinv, hinv.len]
  split
  · rfl
  · rename_i hne
    cases ho : outClusters hp st.cur ((List.range bk.cnt).map (BK.group bk)) with
    | throw => rfl
    | ub => rfl
    | ok out =>
      have hl := (outClusters_spec hp _ _ _ ho).1
      simp only [Res.bind_ok]
      rw [if_neg (by rw [hl]; exact hne)]
      split
      · rename_i h; simp [h]
      · rename_i h; simp [h]

/-- The loop state follows the input clusters `cs` -/
structure Track (cs : List (Cluster η)) (st : Loop η) (B : BK) (gs : List (List Nat)) : Prop where
  books : combineAll st.books (BK.reset cs.length) = (.ok (), B)
  reach : ∃ M, BK.Reach cs.length B M []
  result : B.getResult = .ok gs
  len : gs.length = st.cur.length
  hits : ∀ (k : Nat) (g : List Nat) (c : Cluster η), gs[k]? = some g → st.cur[k]? = some c → c.hits.Perm (g.flatMap (hitsOf cs))
  idx : st.indexes.length ≤ st.cur.length

theorem combineAll_append (l : List BK) (b : BK) (s B : BK) (h : combineAll l s = (.ok (), B)) :
    combineAll (l ++ [b]) s = BK.combine b B := by
  unfold combineAll at h ⊢
  rw [BK.forEach_append, Exec.bind_of_ok h]
  show (do BK.combine b; Pure.pure () : Exec BK Unit) B = _
  show Exec.bind _ _ B = _
  unfold Exec.bind
  rcases BK.combine b B with ⟨r, t⟩
  cases r <;> rfl

theorem getElem_flatMap_perm {cs : List (Cluster η)} {gs : List (List Nat)} {cur : List (Cluster η)}
    (hlen : gs.length = cur.length)
    (hits : ∀ (k : Nat) (g : List Nat) (c : Cluster η), gs[k]? = some g → cur[k]? = some c → c.hits.Perm (g.flatMap (hitsOf cs)))
    (h : List Nat) (hh : ∀ r ∈ h, r < cur.length) :
    (h.flatMap (hitsOf cur)).Perm ((h.flatMap (fun r => (gs[r]?).getD [])).flatMap (hitsOf cs)) := by
  induction h with
  | nil => simp
  | cons r h ih =>
    have hr := hh r (by simp)
    simp only [List.flatMap_cons, List.flatMap_append]
    refine List.Perm.append ?_ (ih (fun q hq => hh q (by simp [hq])))
    rw [List.getElem?_eq_getElem (by omega)]
    have := hits r gs[r] cur[r] (List.getElem?_eq_getElem _) (List.getElem?_eq_getElem _)
    simpa [hitsOf, List.getElem?_eq_getElem hr] using this

/-- one step of the event loop -/
theorem track_step {cs : List (Cluster η)} {st : Loop η} {B : BK} {gs : List (List Nat)}
    (hp : η → Nat) (al : PassAlgs κ) (ht : Track cs st B gs) (keep : Bool) (st' : Loop η)
    (hit : iteration hp al st = .ok (keep, st')) :
    (∃ B' gs', Track cs st' B' gs') ∧ (keep = true → st'.cur.length < st.cur.length) := by
  obtain ⟨flags, bk, M', P', idx, hfl, hr, hM, hres, hle, e⟩ := iteration_cases hp al st ht.idx
  rw [e] at hit
  split at hit
  · rename_i hl
    simp at hit
    obtain ⟨rfl, rfl⟩ := hit
    exact ⟨⟨B, gs, ht.books, ht.reach, ht.result, ht.len, ht.hits, by dsimp only; omega⟩, by simp⟩
  · rename_i hl
    split at hit
    · rename_i out ho
      simp only [Res.ok.injEq, Prod.mk.injEq] at hit
      obtain ⟨_, rfl⟩ := hit
      obtain ⟨hol, hoc⟩ := outClusters_spec hp _ _ _ ho
      obtain ⟨M, hB⟩ := ht.reach
      have hlt : idx.length < st.cur.length := by omega
      refine ⟨?_, fun _ => by dsimp only; omega⟩
      have hok : (BK.combine bk B).1 = .ok () := by
        rw [C05_combine_succeeds_iff hB hr ht.result hres]
        exact ⟨ht.len, hlt, by simp⟩
      obtain ⟨⟨ks, hks, hkl, hkm⟩, _⟩ := C05_combine_composes hB hr hok ht.result hres
      have hB' := BK.Reach.combine hB hr
      obtain ⟨ks', hks', hpart⟩ := C01_result_is_partition hB'
      rw [hks] at hks'
      simp only [Res.ok.injEq] at hks'
      subst hks'
      obtain ⟨idx', hidx', hipart⟩ := C01_result_is_partition hr
      rw [hres] at hidx'
      simp only [Res.ok.injEq] at hidx'
      subst hidx'
      obtain ⟨gs', hgs', hgpart⟩ := C01_result_is_partition hB
      rw [ht.result] at hgs'
      simp only [Res.ok.injEq] at hgs'
      subst hgs'
      refine ⟨(BK.combine bk B).2, ks, ?_, ⟨_, hB'⟩, hks, by dsimp only; omega, ?_, by dsimp only; omega⟩
      · rw [combineAll_append _ _ _ _ ht.books]
        rw [← hok]
      · intro k g c hg hc
        dsimp only at hc
        have hk : k < ks.length := (List.getElem?_eq_some_iff.1 hg).1
        have hk' : k < idx.length := by omega
        have hik := List.getElem?_eq_getElem hk'
        have hoc' := hoc k idx[k] c hik hc
        have hrange : ∀ i ∈ idx[k], i < st.cur.length := hipart.inRange _ (List.getElem_mem hk')
        rw [outCluster_hits hp _ _ hrange c hoc']
        refine (getElem_flatMap_perm ht.len ht.hits _ hrange).trans ?_
        refine List.Perm.flatMap_right _ ?_
        have hgk : ks[k] = g := by
          rw [List.getElem?_eq_getElem hk] at hg; simpa using hg
        rw [List.perm_ext_iff_of_nodup]
        · intro x
          rw [← hgk, hkm k hk hk' x]
          simp only [List.mem_flatMap]
          constructor
          · rintro ⟨r, hr', hx⟩
            have hrl := hrange r hr'
            rw [List.getElem?_eq_getElem (by rw [ht.len]; exact hrl)] at hx
            exact ⟨r, hr', _, List.getElem?_eq_getElem _, hx⟩
          · rintro ⟨r, hr', g', hg', hx⟩
            exact ⟨r, hr', by rw [hg']; exact hx⟩
        · rw [List.nodup_flatMap]
          constructor
          · intro r hr'
            rw [List.getElem?_eq_getElem (by rw [ht.len]; exact hrange r hr')]
            exact List.Pairwise.imp (fun h => Nat.ne_of_lt h)
              (hgpart.ascending _ (List.getElem_mem _))
          · refine List.Pairwise.imp_of_mem ?_ (hipart.ascending _ (List.getElem_mem hk'))
            intro a b ha hb hab x hx hy
            have ha' : a < gs.length := by rw [ht.len]; exact hrange a ha
            have hb' : b < gs.length := by rw [ht.len]; exact hrange b hb
            dsimp only at hx hy
            rw [List.getElem?_eq_getElem ha'] at hx
            rw [List.getElem?_eq_getElem hb'] at hy
            exact List.pairwise_iff_getElem.1 hgpart.disjoint a b ha' hb' hab x hx hy
        · rw [← hgk]
          exact List.Pairwise.imp (fun h => Nat.ne_of_lt h) (hpart.ascending _ (List.getElem_mem hk))
    · simp at hit
    · simp at hit

/-! ## The event loop -/

theorem eventLoop_track {cs : List (Cluster η)} (hp : η → Nat) (conv : Bool) (al : Nat → PassAlgs κ) (fuel k : Nat)
    (st : Loop η) (ht : ∃ B gs, Track cs st B gs) (st' : Loop η)
    (h : eventLoop hp conv al fuel k st = .ok (some st')) : ∃ B gs, Track cs st' B gs := by
  induction fuel generalizing k st with
  | zero => simp [eventLoop] at h
  | succ fuel ih =>
    obtain ⟨B, gs, ht⟩ := ht
    unfold eventLoop at h
    cases hi : iteration hp (al k) st with
    | throw => simp [hi] at h
    | ub => simp [hi] at h
    | ok r =>
      obtain ⟨keep, s1⟩ := r
      obtain ⟨h1, _⟩ := track_step hp (al k) ht keep s1 hi
      simp only [hi] at h
      split at h
      · simp at h; subst h; exact h1
      · exact ih (k + 1) s1 h1 h

theorem eventLoop_terminates {cs : List (Cluster η)} (hp : η → Nat) (conv : Bool) (al : Nat → PassAlgs κ)
    (n k : Nat) (st : Loop η) (hn : st.cur.length ≤ n) (hpos : 0 < n) (ht : ∃ B gs, Track cs st B gs) (fuel : Nat)
    (hf : n ≤ fuel) :
    eventLoop hp conv al fuel k st = eventLoop hp conv al n k st ∧ eventLoop hp conv al n k st ≠ .ok none := by
  induction n generalizing k st fuel with
  | zero => omega
  | succ n ih =>
    obtain ⟨B, gs, ht⟩ := ht
    obtain ⟨f, rfl⟩ : ∃ f, fuel = f + 1 := ⟨fuel - 1, by omega⟩
    unfold eventLoop
    cases hi : iteration hp (al k) st with
    | throw => simp
    | ub => simp
    | ok r =>
      obtain ⟨keep, s1⟩ := r
      obtain ⟨h1, h2⟩ := track_step hp (al k) ht keep s1 hi
      simp only []
      split
      · simp
      · rename_i hk
        have hkeep : keep = true := by
          cases keep <;> simp at hk ⊢
        have hlt := h2 hkeep
        by_cases hn0 : n = 0
        · -- a single cluster cannot be merged further
          exfalso
          subst hn0
          obtain ⟨B1, gs1, ht1⟩ := h1
          obtain ⟨M1, hr1⟩ := ht1.reach
          have hz : s1.cur.length = 0 := by omega
          have hpos' : 0 < st.cur.length := by omega
          obtain ⟨M, hr⟩ := ht.reach
          have hl0 : gs1.length = 0 := by rw [ht1.len, hz]
          obtain ⟨x, hx, hpart⟩ := C01_result_is_partition hr1
          rw [ht1.result] at hx
          simp only [Res.ok.injEq] at hx
          subst hx
          obtain ⟨y, hy, hpart2⟩ := C01_result_is_partition hr
          rw [ht.result] at hy
          simp only [Res.ok.injEq] at hy
          subst hy
          have hg0 : 0 < gs.length := by rw [ht.len]; exact hpos'
          have hne := hpart2.nonempty gs[0] (List.getElem_mem hg0)
          obtain ⟨i, hi'⟩ := List.exists_mem_of_ne_nil _ hne
          have hin := hpart2.inRange _ (List.getElem_mem hg0) i hi'
          obtain ⟨g, hg, _⟩ := hpart.covers i hin
          rw [List.length_eq_zero_iff.1 hl0] at hg
          simp at hg
        · exact ih (k + 1) s1 (by omega) (by omega) h1 f (by omega)

theorem track_init (cs : List (Cluster η)) : ∃ B gs, Track cs ⟨cs, [], []⟩ B gs := by
  refine ⟨BK.reset cs.length, (List.range cs.length).map (fun i => [i]), rfl, ⟨[], BK.Reach.reset _⟩, ?_, by simp,
    ?_, by simp⟩
  · rw [BK.getResult_ok (BK.inv_reset cs.length)]
    congr 1
    apply List.map_congr_left
    intro k hk
    rw [List.mem_range] at hk
    have hinv := BK.inv_reset cs.length
    have hlab : ∀ i, i < cs.length → BK.lab (BK.reset cs.length) i = i := by
      intro i hi; simp [BK.lab, BK.reset, hi]
    have : (BK.group (BK.reset cs.length) k).Perm [k] := by
      rw [List.perm_ext_iff_of_nodup]
      · intro x
        rw [BK.mem_group, hinv.len]
        simp only [List.mem_singleton]
        constructor
        · rintro ⟨h1, h2⟩; rw [hlab x h1] at h2; exact h2
        · rintro rfl; exact ⟨hk, hlab x hk⟩
      · exact (List.nodup_range).filter _
      · simp
    exact List.perm_singleton.1 this
  · intro k g c hg hc
    simp only [List.getElem?_map, Option.map_eq_some_iff] at hg
    obtain ⟨i, hi, rfl⟩ := hg
    have : i = k := by
      rw [List.getElem?_eq_some_iff] at hi
      obtain ⟨h, e⟩ := hi
      simpa using e.symm
    subst this
    simp [hitsOf, hc]

/-! ## Property theorems -/

/-- **C12** If `Process` returns, the k-th output cluster holds exactly the hits of the input clusters listed in
the k-th group of the book keeper (as a rearrangement, with multiplicity), and those groups partition the input
clusters; so no hit is lost or duplicated. -/
theorem C12_hits_follow_book (hp : η → Nat) (conv : Bool) (al : Nat → PassAlgs κ) (fuel : Nat) (m m' : Mgr η)
    (hne : m.input ≠ []) (h : process hp conv al fuel m = .ok (some m')) :
    m'.input = m.input ∧
    ∃ gs, m'.book.getResult = .ok gs ∧ OrderedPartition m.input.length gs ∧ m'.out.length = gs.length ∧
      ∀ (k : Nat) (hk : k < gs.length) (hk' : k < m'.out.length),
        (m'.out[k]).hits.Perm ((gs[k]).flatMap (hitsOf m.input)) := by
  unfold process at h
  rw [if_neg (by simpa using hne)] at h
  cases hl : eventLoop hp conv al fuel 0 ⟨m.input, [], []⟩ with
  | throw => simp [hl] at h
  | ub => simp [hl] at h
  | ok o =>
    cases o with
    | none => simp [hl] at h
    | some st =>
      obtain ⟨B, gs, ht⟩ := eventLoop_track hp conv al fuel 0 _ (track_init m.input) st hl
      simp only [hl, ht.books] at h
      simp only [Res.ok.injEq, Option.some.injEq] at h
      subst h
      obtain ⟨M, hr⟩ := ht.reach
      obtain ⟨x, hx, hpart⟩ := C01_result_is_partition hr
      rw [ht.result] at hx
      simp only [Res.ok.injEq] at hx
      subst hx
      refine ⟨rfl, gs, ht.result, hpart, ht.len.symm, ?_⟩
      intro k hk hk'
      exact ht.hits k _ _ (List.getElem?_eq_getElem hk) (List.getElem?_eq_getElem hk')

/-- **C13** `Process` ends after at most as many passes as there are input clusters, whatever the algorithms
answer: a step budget of that size is never exhausted and a larger one gives the same outcome. -/
theorem C13_process_terminates (hp : η → Nat) (conv : Bool) (al : Nat → PassAlgs κ) (m : Mgr η) :
    process hp conv al m.input.length m ≠ .ok none ∧
    ∀ fuel, m.input.length ≤ fuel → process hp conv al fuel m = process hp conv al m.input.length m := by
  unfold process
  by_cases h0 : m.input.length = 0
  · simp [h0]
  · simp only [h0, if_false]
    have key := eventLoop_terminates hp conv al m.input.length 0 ⟨m.input, [], []⟩ (Nat.le_refl _) (by omega)
      (track_init m.input)
    constructor
    · have := (key m.input.length (Nat.le_refl _)).2
      cases hl : eventLoop hp conv al m.input.length 0 ⟨m.input, [], []⟩ with
      | throw => simp
      | ub => simp
      | ok o =>
        cases o with
        | none => exact absurd hl this
        | some st =>
          simp only []
          rcases combineAll st.books (BK.reset m.input.length) with ⟨r, b⟩
          cases r <;> simp
    · intro fuel hf
      rw [(key fuel hf).1]

/-! ### planes and absence of exceptions -/

/-- all current clusters are well formed and each group lives on its cluster's plane -/
def Planes (hp : η → Nat) (cs : List (Cluster η)) (st : Loop η) (gs : List (List Nat)) : Prop :=
  (∀ c ∈ st.cur, WellFormed hp c) ∧
  ∀ (k : Nat) (g : List Nat) (c : Cluster η), gs[k]? = some g → st.cur[k]? = some c → ∀ i ∈ g, planeOf cs i = c.plane

theorem planes_step {cs : List (Cluster η)} {st : Loop η} {B : BK} {gs : List (List Nat)}
    (hp : η → Nat) (al : PassAlgs κ) (ht : Track cs st B gs) (hpl : Planes hp cs st gs) :
    ∃ keep st' B' gs', iteration hp al st = .ok (keep, st') ∧ Track cs st' B' gs' ∧ Planes hp cs st' gs' := by
  obtain ⟨flags, bk, M', P', idx, hfl, hr, hM, hres, hle, e⟩ := iteration_cases hp al st ht.idx
  obtain ⟨idx', hidx', hipart⟩ := C01_result_is_partition hr
  rw [hres] at hidx'
  simp only [Res.ok.injEq] at hidx'
  subst hidx'
  by_cases hl : st.cur.length = idx.length
  · rw [if_pos hl] at e
    exact ⟨_, _, B, gs, e, ⟨ht.books, ht.reach, ht.result, ht.len, ht.hits, by dsimp only; omega⟩, hpl⟩
  · rw [if_neg hl] at e
    -- members of one group are on one plane
    have hsame : ∀ i j, Relation.EqvGen (Link st.cur flags al) i j → planeOf st.cur i = planeOf st.cur j := by
      intro i j hij
      induction hij with
      | rel x y hxy =>
        have hx := (hpl.1 _ (List.getElem_mem hxy.1)).2.2
        have hy := (hpl.1 _ (List.getElem_mem hxy.2.1)).2.2
        have e1 := planeOf_eq (List.getElem?_eq_getElem hxy.1)
        have e2 := planeOf_eq (List.getElem?_eq_getElem hxy.2.1)
        have := hxy.2.2.2.2.2.1
        omega
      | refl x => rfl
      | symm x y _ ih => exact ih.symm
      | trans x y z _ _ ih1 ih2 => exact ih1.trans ih2
    have hgrp : ∀ k (hk : k < idx.length), ∀ i ∈ idx[k], ∀ j ∈ idx[k], planeOf st.cur i = planeOf st.cur j := by
      intro k hk i hi j hj
      apply hsame
      have hinv := BK.reach_inv hr
      have hri := hipart.inRange _ (List.getElem_mem hk) i hi
      have hrj := hipart.inRange _ (List.getElem_mem hk) j hj
      have hlab : BK.lab bk i = BK.lab bk j := by
        have hg : idx = (List.range bk.cnt).map (BK.group bk) := by
          have := BK.getResult_ok hinv; rw [hres] at this; simpa using this
        subst hg
        simp only [List.getElem_map, List.getElem_range] at hi hj
        rw [(BK.mem_group.1 hi).2, (BK.mem_group.1 hj).2]
      exact Relation.EqvGen.mono (fun a b h => hM a b h) _ _ ((hinv.eqv i j hri hrj).1 hlab)
    have hout : ∀ k (hk : k < idx.length), ∃ c, outCluster hp st.cur idx[k] = .ok c ∧ WellFormed hp c ∧
        ∀ i ∈ idx[k], planeOf st.cur i = c.plane := by
      intro k hk
      have hne := hipart.nonempty _ (List.getElem_mem hk)
      obtain ⟨i, hi⟩ := List.exists_mem_of_ne_nil _ hne
      obtain ⟨c, h1, h2, h3⟩ := outCluster_wf hp st.cur idx[k] (hipart.inRange _ (List.getElem_mem hk)) hne hpl.1
        (planeOf st.cur i) (fun j hj => hgrp k hk j hj i hi)
      exact ⟨c, h1, h2, fun j hj => by rw [h3]; exact hgrp k hk j hj i hi⟩
    obtain ⟨out, ho⟩ := outClusters_ok hp st.cur idx (by
      intro g hg
      obtain ⟨k, hk, rfl⟩ := List.getElem_of_mem hg
      obtain ⟨c, hc, _⟩ := hout k hk
      exact ⟨c, hc⟩)
    rw [ho] at e
    obtain ⟨⟨B', gs', ht'⟩, _⟩ := track_step hp al ht _ _ e
    obtain ⟨hol, hoc⟩ := outClusters_spec hp _ _ _ ho
    refine ⟨_, _, B', gs', e, ht', ?_, ?_⟩
    · intro c hc
      dsimp only at hc
      obtain ⟨k, hk, rfl⟩ := List.getElem_of_mem hc
      have hk' : k < idx.length := by omega
      obtain ⟨c', h1, h2, _⟩ := hout k hk'
      have := hoc k _ _ (List.getElem?_eq_getElem hk') (List.getElem?_eq_getElem hk)
      rw [h1] at this
      simp only [Res.ok.injEq] at this
      rw [← this]; exact h2
    · intro k g c hg hc x hx
      dsimp only at hc
      have hk : k < out.length := (List.getElem?_eq_some_iff.1 hc).1
      have hk' : k < idx.length := by omega
      obtain ⟨c', h1, h2, h3⟩ := hout k hk'
      have := hoc k _ _ (List.getElem?_eq_getElem hk') hc
      rw [h1] at this
      simp only [Res.ok.injEq] at this
      subst this
      -- x is in a group listed in idx[k]
      have hB' : B' = (BK.combine bk B).2 := by
        have h1 := ht'.books
        dsimp only at h1
        rw [combineAll_append _ _ _ _ ht.books] at h1
        rw [h1]
      obtain ⟨M, hB⟩ := ht.reach
      have hok : (BK.combine bk B).1 = .ok () := by
        rw [C05_combine_succeeds_iff hB hr ht.result hres]
        exact ⟨ht.len, by omega, by simp⟩
      obtain ⟨⟨ks, hks, hkl, hkm⟩, _⟩ := C05_combine_composes hB hr hok ht.result hres
      have hgs' : gs' = ks := by
        have := ht'.result
        rw [hB', hks] at this
        simpa using this.symm
      subst hgs'
      have hkk : k < gs'.length := by omega
      have hgk : gs'[k] = g := by
        rw [List.getElem?_eq_getElem hkk] at hg; simpa using hg
      rw [← hgk, hkm k hkk hk' x] at hx
      obtain ⟨r, hr', g', hg', hx'⟩ := hx
      have hrl := hipart.inRange _ (List.getElem_mem hk') r hr'
      have hcr := List.getElem?_eq_getElem hrl
      rw [hpl.2 r g' _ hg' hcr x hx', ← planeOf_eq hcr]
      exact h3 r hr'

/-- **C12** (planes, no exception) For well-formed input clusters (with hits, all on the cluster's plane) `Process`
never throws, every output cluster is well formed, and all input clusters of a group are on the plane of the
output cluster: no hit is moved to another plane. -/
theorem C12_planes_preserved (hp : η → Nat) (conv : Bool) (al : Nat → PassAlgs κ) (m : Mgr η)
    (hw : ∀ c ∈ m.input, WellFormed hp c) (hne : m.input ≠ []) :
    ∃ m' gs, process hp conv al m.input.length m = .ok (some m') ∧ m'.book.getResult = .ok gs ∧
      (∀ c ∈ m'.out, WellFormed hp c) ∧
      ∀ (k : Nat) (hk : k < gs.length) (hk' : k < m'.out.length), ∀ i ∈ gs[k], planeOf m.input i = (m'.out[k]).plane := by
  have key : ∀ fuel k (st : Loop η), (∃ B gs, Track m.input st B gs ∧ Planes hp m.input st gs) →
      eventLoop hp conv al fuel k st = .ok none ∨
      ∃ st' B gs, eventLoop hp conv al fuel k st = .ok (some st') ∧ Track m.input st' B gs ∧ Planes hp m.input st' gs := by
    intro fuel
    induction fuel with
    | zero => intro k st _; exact .inl rfl
    | succ fuel ih =>
      rintro k st ⟨B, gs, ht, hpl⟩
      obtain ⟨keep, s1, B1, gs1, e, ht1, hpl1⟩ := planes_step hp (al k) ht hpl
      unfold eventLoop
      simp only [e]
      split
      · exact .inr ⟨s1, B1, gs1, rfl, ht1, hpl1⟩
      · exact ih (k + 1) s1 ⟨B1, gs1, ht1, hpl1⟩
  obtain ⟨B0, gs0, ht0⟩ := track_init m.input
  have hpl0 : Planes hp m.input ⟨m.input, [], []⟩ gs0 := by
    refine ⟨hw, ?_⟩
    intro k g c hg hc i hi
    have hB : B0 = BK.reset m.input.length := by
      have := ht0.books
      have h2 : combineAll [] (BK.reset m.input.length) = (.ok (), BK.reset m.input.length) := rfl
      dsimp only at this
      rw [h2] at this
      simpa using this.symm
    have hres := ht0.result
    rw [hB, BK.getResult_ok (BK.inv_reset _)] at hres
    simp only [Res.ok.injEq] at hres
    subst hres
    simp only [List.getElem?_map, Option.map_eq_some_iff] at hg
    obtain ⟨j, hj, rfl⟩ := hg
    have hjk : j = k := by
      rw [List.getElem?_eq_some_iff] at hj
      obtain ⟨h, e⟩ := hj
      simpa using e.symm
    subst hjk
    have hmem := BK.mem_group.1 hi
    have : i = j := by
      have h1 : i < m.input.length := by simpa [BK.reset] using hmem.1
      have h2 := hmem.2
      simpa [BK.lab, BK.reset, h1] using h2
    subst this
    exact planeOf_eq hc
  have hterm := (C13_process_terminates hp conv al m).1
  have hlen : ¬ m.input.length = 0 := by simpa using hne
  rcases key m.input.length 0 ⟨m.input, [], []⟩ ⟨B0, gs0, ht0, hpl0⟩ with h | ⟨st', B, gs, h, ht, hpl⟩
  · exfalso
    apply hterm
    unfold process
    rw [if_neg hlen, h]
  · refine ⟨{ m with out := st'.cur, book := B }, gs, ?_, ht.result, hpl.1, ?_⟩
    · unfold process
      rw [if_neg hlen, h]
      simp only [ht.books]
    · intro k hk hk' i hi
      exact hpl.2 k _ _ (List.getElem?_eq_getElem hk) (List.getElem?_eq_getElem hk') i hi

/-- **C55 (refuted)** After loading an *empty* event through `SetClusters(vector<ClusterParamsAlg>)`, `Process`
leaves the previous event's clusters and book keeper in place. -/
theorem C55_stale_output_on_empty_event :
    ∃ (m : Mgr Nat), ∀ (hp : Nat → Nat) (conv : Bool) (al : Nat → PassAlgs Int) (fuel : Nat),
      process hp conv al fuel (setClusters m []) = .ok (some (setClusters m [])) ∧
      (setClusters m []).out ≠ [] ∧ (setClusters m []).book.labels.length = 1 :=
  ⟨⟨[⟨0, [7]⟩], [⟨0, [7]⟩], BK.reset 1⟩, by
    intro hp conv al fuel
    refine ⟨rfl, by simp [setClusters], by simp [setClusters, BK.reset]⟩⟩

/-- **C55 (partial)** When the event is loaded as hit lists (the interface that resets the manager), `Process` on an
empty event leaves no clusters and an empty book keeper. Missing: the copying interface, where it is false
(`C55_stale_output_on_empty_event`). -/
theorem C55_empty_event_clears_partial (hp : η → Nat) (conv : Bool) (al : Nat → PassAlgs κ) (fuel : Nat) (m : Mgr η) :
    ∃ m1 m2, setHitLists hp m [] = .ok m1 ∧ process hp conv al fuel m1 = .ok (some m2) ∧ m2.out = [] ∧
      m2.book.getResult = .ok [] :=
  ⟨{}, {}, rfl, rfl, rfl, rfl⟩

end

/-- Six clusters on two planes; the merge algorithm joins neighbours 0-1 and 3-4 in the first pass and, in the
second pass, cluster 0 (the merged one) with 1 (formerly 2). Cluster 2 and 5 forbid each other. -/
def demoMgr : Mgr (Nat × Nat) :=
  { input := [⟨0, [(0, 1)]⟩, ⟨0, [(0, 2)]⟩, ⟨0, [(0, 3)]⟩, ⟨1, [(1, 4)]⟩, ⟨1, [(1, 5)]⟩, ⟨0, [(0, 6)]⟩] }

def demoAlgs : Nat → PassAlgs Int
  | 0 => ⟨fun _ => 1, some (fun a b => a == 2 && b == 5), fun a b => (a == 0 && b == 1) || (a == 3 && b == 4) || (a == 2 && b == 5)⟩
  | 1 => ⟨fun _ => 1, none, fun a b => a == 0 && b == 1⟩
  | _ => ⟨fun _ => 1, none, fun _ _ => false⟩

example : (∀ c ∈ demoMgr.input, WellFormed (·.1) c) ∧
    (match process (·.1) true demoAlgs 6 demoMgr with
      | .ok (some m') => m'.book.getResult = .ok [[0, 1, 2], [3, 4], [5]] ∧
          m'.out = [⟨0, [(0, 1), (0, 2), (0, 3)]⟩, ⟨1, [(1, 4), (1, 5)]⟩, ⟨0, [(0, 6)]⟩]
      | _ => False) := by
  constructor
  · unfold WellFormed; decide
  · have h : ((match process (·.1) true demoAlgs 6 demoMgr with
      | .ok (some m') => decide (m'.book.getResult = .ok [[0, 1, 2], [3, 4], [5]] ∧
          m'.out = [⟨0, [(0, 1), (0, 2), (0, 3)]⟩, ⟨1, [(1, 4), (1, 5)]⟩, ⟨0, [(0, 6)]⟩])
      | _ => false) = true) := by decide +kernel
    split <;> simp_all

end Verif.CMTool

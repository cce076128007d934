import Verif.MCComp.BackTrackProps
import Mathlib.Algebra.Order.Field.Basic
/-!
# Properties of the MC matching (C33, C61, C63 and the cluster part of C32)
-/
namespace Verif.MCComp
open Verif

/-! ## Specification -/

/-- charge of object `mc` in cluster `c`, as reported by the back tracker -/
def chargeOf (bt : BT) (clusters : List (List CHit)) (c mc : Nat) : ℚ :=
  (bt.mcqList ((clusters.getD c []).map (·.win))).getD mc 0

/-- plane of cluster `c`: the plane of its first hit -/
def planeOfCl (clusters : List (List CHit)) (c : Nat) : Nat := (((clusters.getD c []).head?).map (·.plane)).getD 0

/-- clusters are not empty and their hits are on existing planes -/
def ClOk (g : Geo) (clusters : List (List CHit)) : Prop := ∀ cl ∈ clusters, cl ≠ [] ∧ ∀ h ∈ cl, h.plane < g.nplanes

/-- `b` is the index of the first cluster of plane `p` with the largest positive charge of `mc`, or -1 without any -/
def IsBest (bt : BT) (clusters : List (List CHit)) (mc p : Nat) (b : Int) : Prop :=
  (b = -1 ∧ ∀ c, c < clusters.length → planeOfCl clusters c = p → chargeOf bt clusters c mc ≤ 0) ∨
  (∃ c : Nat, b = c ∧ c < clusters.length ∧ planeOfCl clusters c = p ∧ 0 < chargeOf bt clusters c mc ∧
    ∀ c', c' < clusters.length → planeOfCl clusters c' = p →
      chargeOf bt clusters c' mc ≤ chargeOf bt clusters c mc ∧ (c' < c → chargeOf bt clusters c' mc < chargeOf bt clusters c mc))

/-! ## Proof -/

theorem addSummed_spec (plane : Nat) (s : List (List ℚ)) (q : List ℚ) (hlen : q.length = s.length)
    (hp : ∀ row ∈ s, plane < row.length) :
    ∃ s', addSummed plane s q = .ok s' ∧ s'.length = s.length ∧ (∀ i, (s'.getD i []).length = (s.getD i []).length) ∧
      (∀ i p, i < s.length → (s'.getD i []).getD p 0 = (s.getD i []).getD p 0 + if p = plane then q.getD i 0 else 0) := by
  induction s generalizing q with
  | nil =>
    obtain rfl : q = [] := List.length_eq_zero_iff.1 (by simpa using hlen)
    exact ⟨[], by simp [addSummed], rfl, by simp, by simp⟩
  | cons row rows ih =>
    cases q with
    | nil => simp at hlen
    | cons x qs =>
      obtain ⟨rows', e1, e2, e3, e4⟩ := ih qs (by simpa using hlen) (fun r hr => hp r (by simp [hr]))
      have hr := hp row (by simp)
      refine ⟨row.set plane (row.getD plane 0 + x) :: rows', ?_, by simp [e2], ?_, ?_⟩
      · unfold addSummed
        rw [e1]
        simp only [addAt, hr, if_true]
      · intro i
        cases i with
        | zero => simp
        | succ i => simpa using e3 i
      · intro i p hi
        cases i with
        | zero =>
          simp only [List.getD_cons_zero]
          rw [getD_set _ _ _ _ _ hr]
          by_cases h : p = plane
          · subst h; simp
          · simp [h]
        | succ i =>
          simp only [List.getD_cons_succ]
          exact e4 i p (by simpa using hi)

/-- what the cluster loop has done after the clusters `done` -/
structure LoopInv (g : Geo) (bt : BT) (n : Nat) (done : List (List CHit)) (m : Match) : Prop where
  best : m.best = []
  qs : m.clusterQ = done.map (fun cl => bt.mcqList (cl.map (·.win)))
  planes : m.clusterPlane = done.map (fun cl => (cl.head?.map (·.plane)).getD 0)
  slen : m.summed.length = n + 1
  rlen : ∀ r ∈ m.summed, r.length = g.nplanes
  sum : ∀ i p, i ≤ n → (m.summed.getD i []).getD p 0 =
    ((done.filter (fun cl => decide ((cl.head?.map (·.plane)).getD 0 = p))).map
      (fun cl => (bt.mcqList (cl.map (·.win))).getD i 0)).sum

theorem clusterLoop_spec (g : Geo) (bt : BT) (n : Nat) (hbt : StOk g bt) (hn : bt.nparts = n + 1) (hg : g.nplanes ≤ 256)
    (cs done : List (List CHit)) (hok : ClOk g cs) (m : Match) (hm : LoopInv g bt n done m) :
    ∃ m', clusterLoop g.nplanes bt cs m = .ok m' ∧ LoopInv g bt n (done ++ cs) m' := by
  induction cs generalizing done m with
  | nil => exact ⟨m, rfl, by simpa using hm⟩
  | cons hits cs ih =>
    obtain ⟨hne, hpl⟩ := hok hits (by simp)
    obtain ⟨h, hs, rfl⟩ := List.exists_cons_of_ne_nil hne
    have hp := hpl h (by simp)
    have hq := (mcqList_spec hbt ((h :: hs).map (·.win))).1
    obtain ⟨s', e1, e2, e3, e4⟩ := addSummed_spec h.plane m.summed (bt.mcqList ((h :: hs).map (·.win)))
      (by rw [hq, hn, hm.slen]) (fun r hr => by rw [hm.rlen r hr]; exact hp)
    have hfind : (((h :: hs).find? (fun h => decide (h.plane ≠ g.nplanes))).map (·.plane)).getD g.nplanes = h.plane := by
      rw [List.find?_cons_of_pos (by simp; omega)]; rfl
    unfold clusterLoop
    dsimp only
    rw [hfind, e1]
    dsimp only
    have hmod : h.plane % 256 = h.plane := Nat.mod_eq_of_lt (by omega)
    obtain ⟨m', a, b⟩ := ih (done ++ [h :: hs]) (fun c hc => hok c (by simp [hc]))
      { m with summed := s', clusterQ := m.clusterQ ++ [bt.mcqList ((h :: hs).map (·.win))],
               clusterPlane := m.clusterPlane ++ [h.plane % 256] }
      { best := hm.best, qs := by simp [hm.qs], planes := by simp [hm.planes, hmod], slen := by rw [e2, hm.slen]
        rlen := by
          intro r hr
          obtain ⟨i, hi, rfl⟩ := List.getElem_of_mem hr
          have hi' : i < m.summed.length := by rw [← e2]; exact hi
          have := e3 i
          simp only [List.getD, List.getElem?_eq_getElem hi, List.getElem?_eq_getElem hi', Option.getD_some] at this
          rw [this]; exact hm.rlen _ (List.getElem_mem hi')
        sum := by
          intro i p hi
          show (s'.getD i []).getD p 0 = _
          rw [e4 i p (by rw [hm.slen]; omega), hm.sum i p hi, List.filter_append, List.map_append, List.sum_append]
          congr 1
          by_cases hpp : p = h.plane
          · rw [if_pos hpp, List.filter_cons_of_pos (by simp [hpp])]; simp
          · rw [if_neg hpp, List.filter_cons_of_neg (by have := Ne.symm hpp; simp [this])]; simp }
    exact ⟨m', a, by simpa using b⟩

/-- partial result of the best-match search after the first `i` clusters -/
def BestUpTo (q : Nat → ℚ) (pl : Nat → Nat) (i p : Nat) (x : ℚ) (b : Int) : Prop :=
  (b = -1 ∧ x = 0 ∧ ∀ c, c < i → pl c = p → q c ≤ 0) ∨
  (∃ c : Nat, b = c ∧ c < i ∧ pl c = p ∧ x = q c ∧ 0 < q c ∧ ∀ c', c' < i → pl c' = p → q c' ≤ q c ∧ (c' < c → q c' < q c))

theorem bestLoop_spec (g : Nat) (mc : Nat) (planes : List Nat) (qs : List (List ℚ)) (hlen : planes.length = qs.length)
    (hpl : ∀ p ∈ planes, p < g) (hmc : ∀ v ∈ qs, mc < v.length) (n i : Nat) (hni : i + n = qs.length) (bq : List ℚ) (b : List Int)
    (h1 : bq.length = g) (h2 : b.length = g)
    (hinv : ∀ p, p < g → BestUpTo (fun c => (qs.getD c []).getD mc 0) (fun c => planes.getD c 0) i p (bq.getD p 0) (b.getD p 0)) :
    ∃ b', bestLoop mc planes qs n i bq b = .ok b' ∧ b'.length = g ∧
      ∀ p, p < g → ∃ x, BestUpTo (fun c => (qs.getD c []).getD mc 0) (fun c => planes.getD c 0) qs.length p x (b'.getD p 0) := by
  induction n generalizing i bq b with
  | zero =>
    have : i = qs.length := by omega
    subst this
    exact ⟨b, rfl, h2, fun p hp => ⟨_, hinv p hp⟩⟩
  | succ n ih =>
    have hi : i < qs.length := by omega
    have hi' : i < planes.length := by omega
    have ep : planes[i]? = some planes[i] := List.getElem?_eq_getElem hi'
    have hv := hmc _ (List.getElem_mem hi)
    have eq : (qs[i]?).bind (·[mc]?) = some (qs[i][mc]) := by
      rw [List.getElem?_eq_getElem hi, Option.bind_some, List.getElem?_eq_getElem hv]
    have hpg := hpl _ (List.getElem_mem hi')
    have eb : bq[planes[i]]? = some (bq.getD planes[i] 0) := by
      have : planes[i] < bq.length := by omega
      simp [List.getD, List.getElem?_eq_getElem this]
    have dq : (qs.getD i []).getD mc 0 = qs[i][mc] := by
      simp [List.getD, List.getElem?_eq_getElem hi, List.getElem?_eq_getElem hv]
    have dp : planes.getD i 0 = planes[i] := by simp [List.getD, List.getElem?_eq_getElem hi']
    unfold bestLoop
    rw [ep, eq]
    dsimp only
    rw [eb]
    dsimp only
    generalize hP : planes[i] = P at *
    generalize hQ : qs[i][mc] = Q at *
    by_cases hlt : bq.getD P 0 < Q
    · rw [if_pos hlt]
      apply ih (i + 1) (by omega) _ _ (by simpa using h1) (by simpa using h2)
      intro p hp
      rw [getD_set _ _ _ _ _ (by omega), getD_set _ _ _ _ _ (by omega)]
      by_cases hpe : p = P
      · subst hpe
        simp only [if_true]
        have hold := hinv p hp
        right
        refine ⟨i, rfl, by omega, dp, dq.symm, ?_, ?_⟩
        · show 0 < (qs.getD i []).getD mc 0
          rw [dq]
          rcases hold with ⟨_, e, _⟩ | ⟨c, _, _, _, e, h3, _⟩
          · rw [e] at hlt; exact hlt
          · rw [e] at hlt; exact lt_trans h3 hlt
        · intro c' hc' hp'
          show (qs.getD c' []).getD mc 0 ≤ (qs.getD i []).getD mc 0 ∧ (c' < i → (qs.getD c' []).getD mc 0 < (qs.getD i []).getD mc 0)
          rw [dq]
          by_cases hci : c' = i
          · subst hci
            exact ⟨le_of_eq dq, fun h => absurd h (lt_irrefl _)⟩
          · have : (qs.getD c' []).getD mc 0 < Q := by
              rcases hold with ⟨_, e, h3⟩ | ⟨c, _, _, _, e, h3, h4⟩
              · rw [e] at hlt; exact lt_of_le_of_lt (h3 c' (by omega) hp') hlt
              · rw [e] at hlt; exact lt_of_le_of_lt (h4 c' (by omega) hp').1 hlt
            exact ⟨le_of_lt this, fun _ => this⟩
      · rw [if_neg hpe, if_neg hpe]
        rcases hinv p hp with ⟨e1, e2, e3⟩ | ⟨c, e1, e2, e3, e4, e5, e6⟩
        · left
          refine ⟨e1, e2, fun c hc hcp => ?_⟩
          by_cases hci : c = i
          · subst hci; dsimp only at hcp; rw [dp] at hcp; exact absurd hcp.symm hpe
          · exact e3 c (by omega) hcp
        · right
          refine ⟨c, e1, by omega, e3, e4, e5, fun c' hc' hcp => ?_⟩
          by_cases hci : c' = i
          · subst hci; dsimp only at hcp; rw [dp] at hcp; exact absurd hcp.symm hpe
          · exact e6 c' (by omega) hcp
    · rw [if_neg hlt]
      apply ih (i + 1) (by omega) _ _ h1 h2
      intro p hp
      rcases hinv p hp with ⟨e1, e2, e3⟩ | ⟨c, e1, e2, e3, e4, e5, e6⟩
      · left
        refine ⟨e1, e2, fun c hc hcp => ?_⟩
        by_cases hci : c = i
        · subst hci; dsimp only at hcp ⊢; rw [dp] at hcp; subst hcp
          rw [dq]; rw [e2] at hlt; exact not_lt.1 hlt
        · exact e3 c (by omega) hcp
      · right
        refine ⟨c, e1, by omega, e3, e4, e5, fun c' hc' hcp => ?_⟩
        by_cases hci : c' = i
        · subst hci
          dsimp only at hcp
          rw [dp] at hcp; subst hcp
          refine ⟨?_, fun h => by omega⟩
          dsimp only at e4 ⊢
          rw [dq, ← e4]; exact not_lt.1 hlt
        · exact e6 c' (by omega) hcp

theorem bestAll_spec (g : Nat) (m : Match) (N : Nat) (hlen : m.clusterPlane.length = m.clusterQ.length)
    (hpl : ∀ p ∈ m.clusterPlane, p < g) (hmc : ∀ v ∈ m.clusterQ, N ≤ v.length) (n mc : Nat) (hN : mc + n ≤ N) :
    ∃ bs, bestAll g m n mc = .ok bs ∧ bs.length = n ∧ ∀ k, k < n → (bs.getD k []).length = g ∧ ∀ p, p < g →
      ∃ x, BestUpTo (fun c => (m.clusterQ.getD c []).getD (mc + k) 0) (fun c => m.clusterPlane.getD c 0) m.clusterQ.length p x
        ((bs.getD k []).getD p 0) := by
  induction n generalizing mc with
  | zero => exact ⟨[], rfl, rfl, by intro k hk; omega⟩
  | succ n ih =>
    obtain ⟨b, a1, a2, a3⟩ := bestLoop_spec g mc m.clusterPlane m.clusterQ hlen hpl
      (fun v hv => lt_of_lt_of_le (by omega) (hmc v hv)) m.clusterQ.length 0 (by omega)
      (List.replicate g 0) (List.replicate g (-1)) (by simp) (by simp) (by
        intro p hp
        left
        refine ⟨?_, ?_, by intro c hc; omega⟩ <;> simp [List.getD, List.getElem?_replicate, hp])
    obtain ⟨bs, b1, b2, b3⟩ := ih (mc + 1) (by omega)
    refine ⟨b :: bs, by simp [bestAll, a1, b1], by simp [b2], ?_⟩
    intro k hk
    cases k with
    | zero => simpa using ⟨a2, a3⟩
    | succ k =>
      simp only [List.getD_cons_succ]
      have := b3 k (by omega)
      rw [show mc + 1 + k = mc + (k + 1) by omega] at this
      exact this

theorem buildMap_full (g : Geo) (bt : BT) (n : Nat) (hbt : StOk g bt) (hn : bt.nparts = n + 1) (hg : g.nplanes ≤ 256)
    (cs : List (List CHit)) (hok : ClOk g cs) :
    ∃ m, buildMap g bt cs = .ok m ∧ LoopInv g bt n cs { m with best := [] } ∧ m.best.length = n ∧
      ∀ mc, mc < n → (m.best.getD mc []).length = g.nplanes ∧
        ∀ p, p < g.nplanes → IsBest bt cs mc p ((m.best.getD mc []).getD p 0) := by
  have hnp : bt.numParts = n := by unfold BT.numParts; omega
  obtain ⟨m, a, b⟩ := clusterLoop_spec g bt n hbt hn hg cs [] hok
    { summed := List.replicate (n + 1) (List.replicate g.nplanes 0), clusterQ := [], clusterPlane := [], best := [] }
    { best := rfl, qs := rfl, planes := rfl, slen := by simp, rlen := by intro r hr; rw [(List.mem_replicate.1 hr).2]; simp
      sum := by
        intro i p hi
        have h1 : (List.replicate (n + 1) (List.replicate g.nplanes (0 : ℚ))).getD i [] = List.replicate g.nplanes 0 := by
          simp [List.getD, List.getElem?_replicate, show i < n + 1 by omega]
        show ((List.replicate (n + 1) (List.replicate g.nplanes (0 : ℚ))).getD i []).getD p 0 = _
        rw [h1]
        simp only [List.getD, List.getElem?_replicate]
        split <;> simp }
  rw [List.nil_append] at b
  obtain ⟨bs, c1, c2, c3⟩ := bestAll_spec g.nplanes m n (by simp [b.qs, b.planes]) (by
      intro p hp
      rw [b.planes] at hp
      obtain ⟨cl, hcl, rfl⟩ := List.mem_map.1 hp
      obtain ⟨hne, hpl⟩ := hok cl hcl
      obtain ⟨h, hs, rfl⟩ := List.exists_cons_of_ne_nil hne
      simpa using hpl h (by simp))
    (by
      intro v hv
      rw [b.qs] at hv
      obtain ⟨cl, _, rfl⟩ := List.mem_map.1 hv
      rw [(mcqList_spec hbt _).1, hn]; omega) n 0 (by omega)
  have hbuild : buildMap g bt cs = .ok { m with best := bs } := by
    unfold buildMap
    dsimp only
    rw [hnp, a]
    dsimp only
    rw [c1]
  refine ⟨_, hbuild, ⟨rfl, b.qs, b.planes, b.slen, b.rlen, b.sum⟩, c2, ?_⟩
  intro mc hmc
  obtain ⟨d1, d2⟩ := c3 mc hmc
  refine ⟨d1, fun p hp => ?_⟩
  obtain ⟨x, hx⟩ := d2 p hp
  have eq : ∀ c, c < cs.length → (m.clusterQ.getD c []).getD (0 + mc) 0 = chargeOf bt cs c mc := by
    intro c hc
    have : m.clusterQ[c]? = some (bt.mcqList ((cs.getD c []).map (·.win))) := by
      rw [b.qs, List.getElem?_map, List.getElem?_eq_getElem hc]
      simp [List.getD, List.getElem?_eq_getElem hc]
    simp [List.getD, this, chargeOf]
  have ep : ∀ c, c < cs.length → m.clusterPlane.getD c 0 = planeOfCl cs c := by
    intro c hc
    have : m.clusterPlane[c]? = some (planeOfCl cs c) := by
      rw [b.planes, List.getElem?_map, List.getElem?_eq_getElem hc]
      simp [List.getD, List.getElem?_eq_getElem hc, planeOfCl]
    simp [List.getD, this]
  have hl : m.clusterQ.length = cs.length := by simp [b.qs]
  show IsBest bt cs mc p ((bs.getD mc []).getD p 0)
  rw [hl] at hx
  rcases hx with ⟨e1, e2, e3⟩ | ⟨c, e1, e2, e3, e4, e5, e6⟩
  · left
    refine ⟨e1, fun c hc hcp => ?_⟩
    rw [← eq c hc]
    exact e3 c hc (by rw [← ep c hc] at hcp; exact hcp)
  · right
    refine ⟨c, e1, e2, by rw [← ep c e2]; exact e3, by rw [← eq c e2]; exact e5, fun c' hc' hcp => ?_⟩
    have := e6 c' hc' (by rw [← ep c' hc'] at hcp; exact hcp)
    dsimp only at this
    rw [eq c' hc', eq c e2] at this
    exact this

theorem LoopInv.planeAt {g : Geo} {bt : BT} {n : Nat} {cs : List (List CHit)} {m : Match} (b : LoopInv g bt n cs m) {c : Nat}
    (hc : c < cs.length) : m.clusterPlane[c]? = some (planeOfCl cs c) := by
  rw [b.planes, List.getElem?_map, List.getElem?_eq_getElem hc]
  simp [List.getD, List.getElem?_eq_getElem hc, planeOfCl]

theorem LoopInv.qAt {g : Geo} {bt : BT} {n : Nat} {cs : List (List CHit)} {m : Match} (b : LoopInv g bt n cs m) {c : Nat}
    (hc : c < cs.length) : m.clusterQ[c]? = some (bt.mcqList ((cs.getD c []).map (·.win))) := by
  rw [b.qs, List.getElem?_map, List.getElem?_eq_getElem hc]
  simp [List.getD, List.getElem?_eq_getElem hc]

theorem planeOfCl_lt {g : Geo} {cs : List (List CHit)} (hok : ClOk g cs) {c : Nat} (hc : c < cs.length) :
    planeOfCl cs c < g.nplanes := by
  obtain ⟨hne, hpl⟩ := hok cs[c] (List.getElem_mem hc)
  obtain ⟨h, hs, e⟩ := List.exists_cons_of_ne_nil hne
  unfold planeOfCl
  simp only [List.getD, List.getElem?_eq_getElem hc, Option.getD_some]
  rw [e] at hpl ⊢
  simpa using hpl h (by simp)

/-! ## C33 -/

/-- **C33.** After back tracking and `BuildMap` on non-empty clusters, `BestClusters(mc)[plane]` is the first cluster of the
plane with the largest positive charge of `mc`, or -1; `ClusterCorrectness` of a cluster is its charge divided by that of
the best cluster of its plane (-1 without one): 1 for the best one and at most 1 for all. -/
theorem best_clusters (g : Geo) (ids : List Nat) (sim : List SimCh) (hids : ∀ id ∈ ids, id + 1 < U32) (hsim : SimOk g sim)
    (hg : g.nplanes ≤ 256) (cs : List (List CHit)) (hok : ClOk g cs) :
    ∃ s m, reset g ids sim = .ok s ∧ buildMap g s cs = .ok m ∧
      (∀ mc, mc < s.numParts → ∃ b, m.bestClusters mc = .ok b ∧ b.length = g.nplanes ∧
        (∀ p, p < g.nplanes → IsBest s cs mc p (b.getD p 0)) ∧
        ∀ c, c < cs.length → ∃ x, m.correctness c mc = .ok x ∧ x ≤ 1 ∧ (b.getD (planeOfCl cs c) 0 = c → x = 1) ∧
          (b.getD (planeOfCl cs c) 0 = -1 → x = -1) ∧
          ∀ c' : Nat, b.getD (planeOfCl cs c) 0 = c' → x = chargeOf s cs c mc / chargeOf s cs c' mc) ∧
      (∀ mc, s.numParts ≤ mc → m.bestClusters mc = .throw) := by
  obtain ⟨s, a1, a2, a3, a4⟩ := reset_full g ids sim hids hsim
  generalize hn : (distinct ids).length = n at *
  obtain ⟨m, b1, b2, b3, b4⟩ := buildMap_full g s n a3 a4 hg cs hok
  refine ⟨s, m, a1, b1, ?_, ?_⟩
  · intro mc hmc
    rw [a2.parts] at hmc
    obtain ⟨c1, c2⟩ := b4 mc hmc
    have hbest : m.best[mc]? = some (m.best.getD mc []) := by
      simp [List.getD, List.getElem?_eq_getElem (show mc < m.best.length by omega)]
    have hne : ¬ m.best.length = 0 := by omega
    refine ⟨m.best.getD mc [], by unfold Match.bestClusters; rw [if_neg hne, hbest], c1, c2, ?_⟩
    intro c hc
    have hp := planeOfCl_lt hok hc
    have e1 : m.clusterPlane[c]? = some (planeOfCl cs c) := b2.planeAt hc
    have e2 : m.clusterQ[c]? = some (s.mcqList ((cs.getD c []).map (·.win))) := b2.qAt hc
    have e3 : (m.best.getD mc [])[planeOfCl cs c]? = some ((m.best.getD mc []).getD (planeOfCl cs c) 0) := by
      have : planeOfCl cs c < (m.best.getD mc []).length := by omega
      rw [List.getD_eq_getElem?_getD (l := m.best.getD mc []), List.getElem?_eq_getElem this, Option.getD_some]
    have hqlen : ∀ c', (s.mcqList ((cs.getD c' []).map (·.win)))[mc]? = some (chargeOf s cs c' mc) := by
      intro c'
      have : mc < (s.mcqList ((cs.getD c' []).map (·.win))).length := by rw [(mcqList_spec a3 _).1]; omega
      unfold chargeOf
      rw [List.getD_eq_getElem?_getD (l := s.mcqList _), List.getElem?_eq_getElem this, Option.getD_some]
    have hB := c2 _ hp
    unfold Match.correctness
    rw [if_neg hne, e2, hbest, e1]
    dsimp only
    rw [e3]
    dsimp only
    generalize (m.best.getD mc []).getD (planeOfCl cs c) 0 = bi at *
    rcases hB with ⟨d1, d2⟩ | ⟨cb, d1, d2, d3, d4, d5⟩
    · subst d1
      refine ⟨-1, by rfl, by norm_num, ?_, fun _ => rfl, ?_⟩
      · intro h; omega
      · intro c' h; omega
    · subst d1
      rw [if_neg (by omega)]
      have e4 : m.clusterQ[cb]? = some (s.mcqList ((cs.getD cb []).map (·.win))) := b2.qAt d2
      rw [Int.toNat_natCast, e4, Option.bind_some, hqlen, hqlen]
      refine ⟨_, rfl, ?_, ?_, ?_, ?_⟩
      · rw [div_le_one d4]; exact (d5 c hc rfl).1
      · intro h
        have : cb = c := by omega
        subst this
        exact div_self (ne_of_gt d4)
      · intro h; omega
      · intro c' h
        have : cb = c' := by omega
        rw [this]
  · intro mc hmc
    rw [a2.parts] at hmc
    unfold Match.bestClusters
    split
    · rfl
    · rw [List.getElem?_eq_none (by omega)]

/-- hits for the examples: cluster 0 on plane 1, clusters 1 and 2 on plane 1, with charges of track 7: 3, 13, 13 -/
def exClusters : List (List CHit) :=
  [[⟨⟨3, 6, 6⟩, 1⟩], [⟨⟨3, 5, 5⟩, 1⟩], [⟨⟨3, 4, 6⟩, 1⟩], [⟨⟨4, 5, 5⟩, 0⟩]]

theorem exClusters_ok : ClOk exGeo exClusters := by
  intro cl hcl
  simp only [exClusters, List.mem_cons, List.not_mem_nil, or_false] at hcl
  rcases hcl with rfl | rfl | rfl | rfl <;> simp [exGeo]

def exMatch : Res Match := match reset exGeo [7, 8] exSim with
  | .ok s => buildMap exGeo s exClusters
  | _ => .ub

example : (match exMatch with
    | .ok m => decide (m.best = [[-1, 1], [-1, 1]]) && (match m.correctness 0 0 with | .ok x => decide (x = 3 / 13) | _ => false)
    | _ => false) = true := by decide +kernel
example : ∃ s m, reset exGeo [7, 8] exSim = .ok s ∧ buildMap exGeo s exClusters = .ok m ∧ s.numParts = 2 := by
  obtain ⟨s, m, h1, h2, _⟩ := best_clusters exGeo [7, 8] exSim (by simp [U32]) exSim_ok (by decide) exClusters exClusters_ok
  refine ⟨s, m, h1, h2, ?_⟩
  obtain ⟨s', a, b⟩ := reset_conserves_charge exGeo [7, 8] exSim (by simp [U32]) exSim_ok
  rw [h1] at a; cases a
  exact b.parts

/-! ## C61 -/

theorem sum_filter_range (cs : List (List CHit)) (P : Nat) (f : List CHit → ℚ) :
    ((cs.filter (fun cl => decide ((cl.head?.map (·.plane)).getD 0 = P))).map f).sum =
      ∑ c ∈ Finset.range cs.length, if planeOfCl cs c = P then f (cs.getD c []) else 0 := by
  induction cs with
  | nil => simp
  | cons x l ih =>
    rw [List.length_cons, Finset.sum_range_succ']
    have h0 : planeOfCl (x :: l) 0 = (x.head?.map (·.plane)).getD 0 := rfl
    have hs : ∀ c, planeOfCl (x :: l) (c + 1) = planeOfCl l c := fun c => rfl
    simp only [hs, h0, List.getD_cons_succ, List.getD_cons_zero]
    rw [← ih]
    by_cases h : (x.head?.map (·.plane)).getD 0 = P
    · rw [List.filter_cons_of_pos (by simpa using h), if_pos h, List.map_cons, List.sum_cons]; ring
    · rw [List.filter_cons_of_neg (by simpa using h), if_neg h]; ring

/-- **C61.** `ClusterEP`: the efficiency is the cluster's charge of `mc` divided by the charge of `mc` in all clusters of the
same plane, so over the clusters of a plane the efficiencies add up to 1 if that total is not zero; the purity is the share
of `mc` in the cluster's charge, so over all objects and the unregistered rest the purities add up to 1. -/
theorem cluster_ep (g : Geo) (ids : List Nat) (sim : List SimCh) (hids : ∀ id ∈ ids, id + 1 < U32) (hsim : SimOk g sim)
    (hg : g.nplanes ≤ 256) (cs : List (List CHit)) (hok : ClOk g cs) :
    ∃ s m, reset g ids sim = .ok s ∧ buildMap g s cs = .ok m ∧
      ∀ mc, mc < s.numParts → ∀ c, c < cs.length →
        m.clusterEP c mc = .ok
          (chargeOf s cs c mc / (∑ c' ∈ (Finset.range cs.length).filter (fun c' => planeOfCl cs c' = planeOfCl cs c), chargeOf s cs c' mc),
           chargeOf s cs c mc / (∑ k ∈ Finset.range (s.numParts + 1), chargeOf s cs c k)) := by
  obtain ⟨s, a1, a2, a3, a4⟩ := reset_full g ids sim hids hsim
  generalize hn : (distinct ids).length = n at *
  obtain ⟨m, b1, b2, b3, b4⟩ := buildMap_full g s n a3 a4 hg cs hok
  refine ⟨s, m, a1, b1, ?_⟩
  intro mc hmc c hc
  rw [a2.parts] at hmc
  have hp := planeOfCl_lt hok hc
  have e1 : m.clusterPlane[c]? = some (planeOfCl cs c) := b2.planeAt hc
  have e2 : m.clusterQ[c]? = some (s.mcqList ((cs.getD c []).map (·.win))) := b2.qAt hc
  have hql := (mcqList_spec a3 ((cs.getD c []).map (·.win))).1
  have e3 : (s.mcqList ((cs.getD c []).map (·.win)))[mc]? = some (chargeOf s cs c mc) := by
    have : mc < (s.mcqList ((cs.getD c []).map (·.win))).length := by rw [hql]; omega
    unfold chargeOf
    rw [List.getD_eq_getElem?_getD (l := s.mcqList _), List.getElem?_eq_getElem this, Option.getD_some]
  have hsl : m.summed.length = n + 1 := b2.slen
  have hmcs : mc < m.summed.length := by omega
  have e4 : m.summed[mc]? = some (m.summed.getD mc []) := by
    rw [List.getD_eq_getElem?_getD, List.getElem?_eq_getElem hmcs, Option.getD_some]
  have hrl : (m.summed.getD mc []).length = g.nplanes := b2.rlen _ (List.mem_of_getElem? e4)
  have e5 : (m.summed.getD mc [])[planeOfCl cs c]? = some ((m.summed.getD mc []).getD (planeOfCl cs c) 0) := by
    have : planeOfCl cs c < (m.summed.getD mc []).length := by omega
    rw [List.getD_eq_getElem?_getD (l := m.summed.getD mc []), List.getElem?_eq_getElem this, Option.getD_some]
  have hsum : (m.summed.getD mc []).getD (planeOfCl cs c) 0 =
      ∑ c' ∈ (Finset.range cs.length).filter (fun c' => planeOfCl cs c' = planeOfCl cs c), chargeOf s cs c' mc := by
    have := b2.sum mc (planeOfCl cs c) (by omega)
    dsimp only at this
    rw [this, Finset.sum_filter]
    exact sum_filter_range cs (planeOfCl cs c) (fun cl => (s.mcqList (cl.map (·.win))).getD mc 0)
  have htot : (s.mcqList ((cs.getD c []).map (·.win))).sum = ∑ k ∈ Finset.range (s.numParts + 1), chargeOf s cs c k := by
    rw [sum_eq_of_entries hql, a4, a2.parts]
    unfold wt chargeOf
    simp
  unfold Match.clusterEP
  rw [if_neg (by omega), e2]
  dsimp only
  rw [if_neg (by omega), e1, e3, e4]
  dsimp only
  rw [e5]
  dsimp only
  rw [hsum, htot]

example : (match exMatch with
    | .ok m => (match m.clusterEP 0 0 with | .ok (e, p) => decide (e = 3 / 29 ∧ p = 1) | _ => false)
    | _ => false) = true := by decide +kernel

/-! ## C32, clusters -/

/-- **C32 refuted (3).** For every prepared back tracker, a list of clusters that begins with an empty cluster makes `BuildMap`
write outside its table (the cluster's plane stays "number of planes"). -/
theorem empty_cluster_ub (g : Geo) (ids : List Nat) (sim : List SimCh) (hids : ∀ id ∈ ids, id + 1 < U32) (hsim : SimOk g sim)
    (cs : List (List CHit)) : ∃ s, reset g ids sim = .ok s ∧ buildMap g s ([] :: cs) = .ub := by
  obtain ⟨s, a1, a2, a3, a4⟩ := reset_full g ids sim hids hsim
  refine ⟨s, a1, ?_⟩
  have hq := (mcqList_spec a3 []).1
  rw [a4] at hq
  unfold buildMap clusterLoop
  dsimp only
  rw [List.map_nil]
  obtain ⟨q, qs, e⟩ := List.exists_cons_of_length_eq_add_one hq
  rw [e, List.replicate_succ]
  simp [addSummed, addAt]

/-! ## C63 -/

/-- the efficiency of an MC object for a list of clusters: the product of those correctness values that are not negative -/
def effSpec (corr : Nat → ℚ) (cls : List Nat) : ℚ := ((cls.map corr).filter (fun x => decide (0 ≤ x))).prod

theorem showerEff_spec (m : Match) (mc : Nat) (corr : Nat → ℚ) (cls : List Nat) (h : ∀ c ∈ cls, m.correctness c mc = .ok (corr c))
    (e : ℚ) : m.showerEff mc cls e = .ok (e * effSpec corr cls) := by
  induction cls generalizing e with
  | nil => simp [Match.showerEff, effSpec]
  | cons c cs ih =>
    unfold Match.showerEff
    rw [h c (by simp)]
    dsimp only
    rw [ih (fun c' hc' => h c' (by simp [hc']))]
    unfold effSpec
    rw [List.map_cons]
    by_cases hx : 0 ≤ corr c
    · rw [if_pos hx, List.filter_cons_of_pos (by simpa using hx), List.prod_cons, mul_assoc]
    · rw [if_neg hx, List.filter_cons_of_neg (by simpa using hx)]

theorem effSpec_nonneg (corr : Nat → ℚ) (cls : List Nat) : 0 ≤ effSpec corr cls := by
  unfold effSpec
  induction cls with
  | nil => simp
  | cons c cs ih =>
    rw [List.map_cons]
    by_cases hx : 0 ≤ corr c
    · rw [List.filter_cons_of_pos (by simpa using hx), List.prod_cons]; exact mul_nonneg hx ih
    · rw [List.filter_cons_of_neg (by simpa using hx)]; exact ih

theorem showerEffs_spec (m : Match) (corr : Nat → Nat → ℚ) (cls : List Nat) (n mc : Nat)
    (h : ∀ k, k < n → ∀ c ∈ cls, m.correctness c (mc + k) = .ok (corr (mc + k) c)) :
    m.showerEffs cls n mc = .ok ((List.range n).map (fun k => effSpec (corr (mc + k)) cls)) := by
  induction n generalizing mc with
  | zero => rfl
  | succ n ih =>
    unfold Match.showerEffs
    rw [showerEff_spec m mc (corr mc) cls (by intro c hc; simpa using h 0 (by omega) c hc),
      ih (mc + 1) (by
        intro k hk c hc
        have := h (k + 1) (by omega) c hc
        rwa [show mc + (k + 1) = mc + 1 + k by omega] at this)]
    dsimp only
    rw [one_mul, List.range_succ_eq_map, List.map_cons, List.map_map]
    congr 2
    apply List.map_congr_left
    intro k _
    simp only [Function.comp_apply]
    rw [show mc + 1 + k = mc + k.succ by omega]

theorem pickBest_spec (es : List ℚ) (i : Nat) (r : Nat × ℚ) :
    let x := pickBest es i r
    (x = r ∨ ∃ k, k < es.length ∧ x = (i + k, es.getD k 0)) ∧ r.2 ≤ x.2 ∧ (∀ k, k < es.length → es.getD k 0 ≤ x.2) ∧
      (∀ k, k < es.length → x.1 < i + k → es.getD k 0 < x.2) := by
  induction es generalizing i r with
  | nil => simp [pickBest]
  | cons e es ih =>
    dsimp only
    unfold pickBest
    by_cases h : e < r.2
    · rw [if_pos h]
      obtain ⟨h1, h2, h3, h4⟩ := ih (i + 1) r
      refine ⟨?_, h2, ?_, ?_⟩
      · rcases h1 with h1 | ⟨k, hk, h1⟩
        · exact Or.inl h1
        · refine Or.inr ⟨k + 1, by simpa using hk, ?_⟩
          rw [h1, show i + 1 + k = i + (k + 1) by omega]; rfl
      · intro k hk
        cases k with
        | zero => exact le_trans (le_of_lt h) h2
        | succ k => exact h3 k (by simpa using hk)
      · intro k hk hlt
        cases k with
        | zero => exact lt_of_lt_of_le h h2
        | succ k => exact h4 k (by simpa using hk) (by omega)
    · rw [if_neg h]
      obtain ⟨h1, h2, h3, h4⟩ := ih (i + 1) (i, e)
      have hr := not_lt.1 h
      refine ⟨?_, le_trans hr h2, ?_, ?_⟩
      · rcases h1 with h1 | ⟨k, hk, h1⟩
        · exact Or.inr ⟨0, by simp, by rw [h1]; rfl⟩
        · refine Or.inr ⟨k + 1, by simpa using hk, ?_⟩
          rw [h1, show i + 1 + k = i + (k + 1) by omega]; rfl
      · intro k hk
        cases k with
        | zero => exact h2
        | succ k => exact h3 k (by simpa using hk)
      · intro k hk hlt
        cases k with
        | zero =>
          exfalso
          rcases h1 with h1 | ⟨k, hk, h1⟩ <;> rw [h1] at hlt <;> simp at hlt
          omega
        | succ k => exact h4 k (by simpa using hk) (by omega)

/-- **C63 (proved part).** `ShowerCorrectness(clusters)` on valid cluster indices returns an MC object with the largest
product of the non-negative correctness values of the clusters, and that product; of several such objects, the last one.
(Missing, and refuted below: that this object contributes charge to the clusters.) -/
theorem shower_correctness_partial (g : Geo) (ids : List Nat) (sim : List SimCh) (hids : ∀ id ∈ ids, id + 1 < U32)
    (hsim : SimOk g sim) (hg : g.nplanes ≤ 256) (cs : List (List CHit)) (hok : ClOk g cs) (hne : ids ≠ [])
    (cls : List Nat) (h0 : cls ≠ []) (hlen : cls.length ≤ cs.length) (hcl : ∀ c ∈ cls, c < cs.length) :
    ∃ s m, reset g ids sim = .ok s ∧ buildMap g s cs = .ok m ∧ ∃ corr : Nat → Nat → ℚ,
      (∀ mc c, mc < s.numParts → c < cs.length → m.correctness c mc = .ok (corr mc c)) ∧
      ∃ i, i < s.numParts ∧ m.showerCorrectness cls = .ok (i, effSpec (corr i) cls) ∧
        (∀ j, j < s.numParts → effSpec (corr j) cls ≤ effSpec (corr i) cls) ∧
        (∀ j, i < j → j < s.numParts → effSpec (corr j) cls < effSpec (corr i) cls) := by
  obtain ⟨s, m, a1, a2, a3, _⟩ := best_clusters g ids sim hids hsim hg cs hok
  obtain ⟨s', b1, b2, b3, b4⟩ := reset_full g ids sim hids hsim
  rw [a1] at b1; cases b1
  obtain ⟨m', c1, c2, c3, _⟩ := buildMap_full g s _ b3 b4 hg cs hok
  rw [a2] at c1; cases c1
  have hcorr : ∀ mc c, mc < s.numParts → c < cs.length → ∃ x, m.correctness c mc = .ok x := by
    intro mc c h1 h2
    obtain ⟨b, _, _, _, h⟩ := a3 mc h1
    obtain ⟨x, hx, _⟩ := h c h2
    exact ⟨x, hx⟩
  have hcorr' : ∀ mc c, ∃ x, mc < s.numParts → c < cs.length → m.correctness c mc = .ok x := by
    intro mc c
    by_cases h : mc < s.numParts ∧ c < cs.length
    · obtain ⟨x, hx⟩ := hcorr mc c h.1 h.2
      exact ⟨x, fun _ _ => hx⟩
    · exact ⟨0, fun h1 h2 => absurd ⟨h1, h2⟩ h⟩
  choose corr hc using hcorr'
  refine ⟨s, m, a1, a2, corr, hc, ?_⟩
  have hbl : m.best.length = s.numParts := by rw [c3, b2.parts]
  have hpos : 0 < s.numParts := by
    rw [b2.parts]
    obtain ⟨x, xs, rfl⟩ := List.exists_cons_of_ne_nil hne
    have : x ∈ distinct (x :: xs) := (mem_distinct _ _).2 (by simp)
    exact List.length_pos_of_mem this
  have heffs := showerEffs_spec m corr cls s.numParts 0 (by
    intro k hk c hcc
    rw [Nat.zero_add]
    exact hc k c hk (hcl c hcc))
  simp only [Nat.zero_add] at heffs
  have hql : m.clusterQ.length = cs.length := by
    have := c2.qs
    dsimp only at this
    rw [this]; simp
  have hsc : m.showerCorrectness cls = .ok (pickBest ((List.range s.numParts).map (fun k => effSpec (corr k) cls)) 0 (0, -1)) := by
    unfold Match.showerCorrectness
    rw [hbl, if_neg (by omega), if_neg (by omega), if_neg (by simpa using h0), heffs]
  rw [hsc]
  obtain ⟨N, hN⟩ : ∃ N, s.numParts = N + 1 := ⟨s.numParts - 1, by omega⟩
  rw [hN]
  have hget : ∀ k, k < N + 1 → ((List.range (N + 1)).map (fun k => effSpec (corr k) cls)).getD k 0 = effSpec (corr k) cls := by
    intro k hk
    simp [List.getD, hk]
  generalize hE : (List.range (N + 1)).map (fun k => effSpec (corr k) cls) = E at *
  have hEl : E.length = N + 1 := by rw [← hE]; simp
  obtain ⟨e0, es, rfl⟩ := List.exists_cons_of_length_eq_add_one hEl
  have he0 : e0 = effSpec (corr 0) cls := by simpa using hget 0 (by omega)
  have hstep : pickBest (e0 :: es) 0 (0, -1) = pickBest es 1 (0, e0) := by
    conv_lhs => unfold pickBest
    rw [if_neg]
    have := effSpec_nonneg (corr 0) cls
    rw [he0]
    dsimp only
    linarith
  rw [hstep]
  obtain ⟨p1, p2, p3, p4⟩ := pickBest_spec es 1 (0, e0)
  have hesl : es.length = N := by simpa using hEl
  have hges : ∀ k, k < N → es.getD k 0 = effSpec (corr (k + 1)) cls := fun k hk => by
    have := hget (k + 1) (by omega)
    simpa using this
  generalize hx : pickBest es 1 (0, e0) = x at *
  have hx' : ∃ i, i < N + 1 ∧ x = (i, effSpec (corr i) cls) := by
    rcases p1 with h | ⟨k, hk, h⟩
    · exact ⟨0, by omega, by rw [h, he0]⟩
    · refine ⟨k + 1, by omega, ?_⟩
      rw [h, hges k (by omega), Nat.add_comm]
  obtain ⟨i, hi, rfl⟩ := hx'
  refine ⟨i, hi, rfl, ?_, ?_⟩
  · intro j hj
    cases j with
    | zero => rw [← he0]; exact p2
    | succ j => rw [← hges j (by omega)]; exact p3 j (by omega)
  · intro j hij hj
    cases j with
    | zero => omega
    | succ j =>
      rw [← hges j (by omega)]
      exact p4 j (by omega) (by show i < 1 + j; omega)

/-- **C63 refuted in full.** `ShowerCorrectness` can choose an MC object that left no charge in any cluster: its
correctness is -1 everywhere, these are skipped, and the empty product 1 beats the object that made the cluster. -/
theorem shower_correctness_chargeless :
    (match reset exGeo [7, 55] exSim with
      | .ok s => (match buildMap exGeo s exClusters with
        | .ok m => decide (∀ c ∈ List.range 4, chargeOf s exClusters c 1 = 0) &&
            decide (chargeOf s exClusters 0 0 = 3) &&
            (match m.showerCorrectness [0] with | .ok r => decide (r = (1, 1)) | _ => false)
        | _ => false)
      | _ => false) = true := by decide +kernel

example : ∃ s m, reset exGeo [7, 55] exSim = .ok s ∧ buildMap exGeo s exClusters = .ok m := by
  obtain ⟨s, m, h1, h2, _⟩ := shower_correctness_partial exGeo [7, 55] exSim (by simp [U32]) exSim_ok (by decide) exClusters
    exClusters_ok (by simp) [0, 2] (by simp) (by decide) (by decide)
  exact ⟨s, m, h1, h2⟩

end Verif.MCComp

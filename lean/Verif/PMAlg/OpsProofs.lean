import Verif.PMAlg.OpsModel
import Verif.PMAlg.TreeConn
/-! # Operations on track trees: the links between tracks, nodes and segments -/
namespace Verif.PMAlg.Tree
open Relation

/-- the links agree with the node lists of the tracks in `T` -/
structure Links (W : World) (T : List Nat) : Prop where
  joined : ∀ t ∈ T, ∀ i v w, (W.g.nodes t)[i]? = some v → (W.g.nodes t)[i + 1]? = some w →
    ∃ s ∈ W.g.next v, W.g.trk s = t ∧ W.g.snext s = some w ∧ W.g.prev w = some s
  seg : ∀ v, ∀ s ∈ W.g.next v, W.g.trk s ∈ T ∧ ∃ i w, (W.g.nodes (W.g.trk s))[i]? = some v ∧
    (W.g.nodes (W.g.trk s))[i + 1]? = some w ∧ W.g.snext s = some w ∧ W.g.prev w = some s
  entered : ∀ w s, W.g.prev w = some s → ∃ v, s ∈ W.g.next v ∧ W.g.snext s = some w
  once : ∀ v, (W.g.next v).Nodup
  old : ∀ v, ∀ s ∈ W.g.next v, s < W.fresh
  segs : ∀ t ∈ T, ∀ s, s ∈ W.segs t ↔ ∃ v, s ∈ W.g.next v ∧ W.g.trk s = t

/-- a rank grows along the node lists -/
def Acyclic (N : Nat → List Nat) (T : List Nat) : Prop :=
  ∃ rank : Nat → Nat, ∀ t ∈ T, ∀ i v w, (N t)[i]? = some v → (N t)[i + 1]? = some w → rank v < rank w

theorem Links.forest {W : World} {T : List Nat} (h : Links W T) (h2 : ∀ t ∈ T, 2 ≤ (W.g.nodes t).length)
    (ha : Acyclic W.g.nodes T) : Forest W.g T where
  two := h2
  joined := h.joined
  seg := h.seg
  entered := h.entered
  once := h.once
  acyclic := by
    obtain ⟨rank, hr⟩ := ha
    refine ⟨rank, ?_⟩
    intro v s hs w hw
    obtain ⟨hT, i, w', h1, h3, h4, _⟩ := h.seg v s hs
    rw [hw] at h4
    cases h4
    exact hr _ hT i v w h1 h3

theorem Forest.acy {g : Graph} {T : List Nat} (hF : Forest g T) : Acyclic g.nodes T := by
  obtain ⟨rank, hr⟩ := hF.acyclic
  refine ⟨rank, ?_⟩
  intro t ht i v w hv hw
  obtain ⟨s, hs, _, h2, _⟩ := hF.joined t ht i v w hv hw
  exact hr v s hs w h2

theorem Links.congr {W : World} {T T' : List Nat} (h : Links W T) (hT : ∀ t, t ∈ T ↔ t ∈ T') : Links W T' where
  joined := fun t ht => h.joined t ((hT t).2 ht)
  seg := fun v s hs => ⟨(hT _).1 (h.seg v s hs).1, (h.seg v s hs).2⟩
  entered := h.entered
  once := h.once
  old := h.old
  segs := fun t ht => h.segs t ((hT t).2 ht)

/-! ### deleting the segments of a track -/

theorem delAll_eq (l : List Nat) (W : World) :
    (l.foldl delSeg W).g.nodes = W.g.nodes ∧ (l.foldl delSeg W).g.trk = W.g.trk ∧
    (l.foldl delSeg W).segs = W.segs ∧ (l.foldl delSeg W).hits = W.hits ∧ (l.foldl delSeg W).fresh = W.fresh ∧
    (∀ v, (l.foldl delSeg W).g.next v = (W.g.next v).filter (fun s => s ∉ l)) ∧
    (∀ w s, (l.foldl delSeg W).g.prev w = some s ↔ W.g.prev w = some s ∧ s ∉ l) ∧
    (∀ x, x ∉ l → (l.foldl delSeg W).g.snext x = W.g.snext x) := by
  induction l generalizing W with
  | nil => refine ⟨rfl, rfl, rfl, rfl, rfl, fun v => ?_, fun w s => ?_, fun x _ => rfl⟩ <;> simp
  | cons a l ih =>
    obtain ⟨h1, h2, h3, h4, h5, h6, h7, h8⟩ := ih (delSeg W a)
    rw [List.foldl_cons]
    refine ⟨h1, h2, h3, h4, h5, ?_, ?_, ?_⟩
    · intro v
      rw [h6]
      simp only [delSeg, List.filter_filter]
      apply List.filter_congr
      intro s _
      by_cases h : s = a <;> simp [h]
    · intro w s
      rw [h7]
      simp only [delSeg, List.mem_cons, not_or]
      by_cases h : W.g.prev w = some a
      · rw [if_pos h, h]
        constructor
        · rintro ⟨h', _⟩; cases h'
        · rintro ⟨h', hn, _⟩; cases h'; exact absurd rfl hn
      · rw [if_neg h]
        constructor
        · rintro ⟨h', hn⟩
          exact ⟨h', by rintro rfl; exact h h', hn⟩
        · rintro ⟨h', _, hn⟩; exact ⟨h', hn⟩
    · intro x hx
      rw [List.mem_cons, not_or] at hx
      rw [h8 x hx.2]
      simp [delSeg, hx.1]

theorem deleteSegments_eq (W : World) (t : Nat) :
    (deleteSegments W t).g.nodes = W.g.nodes ∧ (deleteSegments W t).g.trk = W.g.trk ∧
    (deleteSegments W t).hits = W.hits ∧ (deleteSegments W t).fresh = W.fresh ∧
    (∀ u, (deleteSegments W t).segs u = if u = t then [] else W.segs u) ∧
    (∀ v, (deleteSegments W t).g.next v = (W.g.next v).filter (fun s => s ∉ W.segs t)) ∧
    (∀ w s, (deleteSegments W t).g.prev w = some s ↔ W.g.prev w = some s ∧ s ∉ W.segs t) ∧
    (∀ x, x ∉ W.segs t → (deleteSegments W t).g.snext x = W.g.snext x) := by
  obtain ⟨h1, h2, h3, h4, h5, h6, h7, h8⟩ := delAll_eq (W.segs t) W
  refine ⟨h1, h2, h4, h5, ?_, h6, h7, h8⟩
  intro u
  simp only [deleteSegments]
  rw [h3]

theorem Links.delete {W : World} {T : List Nat} (h : Links W T) {t : Nat} (ht : t ∈ T) :
    Links (deleteSegments W t) (T.filter (· ≠ t)) := by
  obtain ⟨h1, h2, _, h4, h5, h6, h7, h8⟩ := deleteSegments_eq W t
  have hin : ∀ v, ∀ s ∈ W.g.next v, (s ∈ W.segs t ↔ W.g.trk s = t) := by
    intro v s hs
    rw [h.segs t ht s]
    exact ⟨fun ⟨_, _, h⟩ => h, fun h => ⟨v, hs, h⟩⟩
  have hnext : ∀ v s, s ∈ (deleteSegments W t).g.next v ↔ s ∈ W.g.next v ∧ W.g.trk s ≠ t := by
    intro v s
    rw [h6, List.mem_filter]
    simp only [decide_eq_true_eq]
    constructor
    · rintro ⟨a, b⟩; exact ⟨a, fun hc => b ((hin v s a).2 hc)⟩
    · rintro ⟨a, b⟩; exact ⟨a, fun hc => b ((hin v s a).1 hc)⟩
  refine ⟨?_, ?_, ?_, ?_, ?_, ?_⟩
  · intro u hu i v w hv hw
    simp only [List.mem_filter, ne_eq, decide_eq_true_eq] at hu
    rw [h1] at hv hw
    obtain ⟨s, hs, ha, hb, hc⟩ := h.joined u hu.1 i v w hv hw
    have hst : W.g.trk s ≠ t := by rw [ha]; exact hu.2
    have hns : s ∉ W.segs t := fun hx => hst ((hin v s hs).1 hx)
    exact ⟨s, (hnext v s).2 ⟨hs, hst⟩, by rw [h2]; exact ha, by rw [h8 s hns]; exact hb, (h7 w s).2 ⟨hc, hns⟩⟩
  · intro v s hs
    obtain ⟨hs1, hst⟩ := (hnext v s).1 hs
    have hns : s ∉ W.segs t := fun hx => hst ((hin v s hs1).1 hx)
    obtain ⟨hT, i, w, ha, hb, hc, hd⟩ := h.seg v s hs1
    rw [h2, h1]
    refine ⟨by simp [hT, hst], i, w, ha, hb, by rw [h8 s hns]; exact hc, (h7 w s).2 ⟨hd, hns⟩⟩
  · intro w s hp
    obtain ⟨ha, hb⟩ := (h7 w s).1 hp
    obtain ⟨v, hv, hw⟩ := h.entered w s ha
    exact ⟨v, (hnext v s).2 ⟨hv, fun hc => hb ((hin v s hv).2 hc)⟩, by rw [h8 s hb]; exact hw⟩
  · intro v
    rw [h6]
    exact (h.once v).filter _
  · intro v s hs
    rw [h4]
    exact h.old v s ((hnext v s).1 hs).1
  · intro u hu s
    simp only [List.mem_filter, ne_eq, decide_eq_true_eq] at hu
    rw [h5, if_neg hu.2, h.segs u hu.1 s, h2]
    constructor
    · rintro ⟨v, hv, he⟩; exact ⟨v, (hnext v s).2 ⟨hv, by rw [he]; exact hu.2⟩, he⟩
    · rintro ⟨v, hv, he⟩; exact ⟨v, ((hnext v s).1 hv).1, he⟩

/-- after the deletion the only nodes entered are those of other tracks -/
theorem Links.delete_prev {W : World} {T : List Nat} (h : Links W T) {t : Nat} (ht : t ∈ T) {w : Nat}
    (hw : w ∈ (W.g.nodes t).drop 1 ∨ W.g.prev w = none) : (deleteSegments W t).g.prev w = none := by
  obtain ⟨_, _, _, _, _, _, h7, _⟩ := deleteSegments_eq W t
  cases hp : (deleteSegments W t).g.prev w with
  | none => rfl
  | some s =>
    obtain ⟨ha, hb⟩ := (h7 w s).1 hp
    exfalso
    rcases hw with hw | hw
    · obtain ⟨i, hi⟩ := mem_drop_one.1 hw
      have hlt : i < (W.g.nodes t).length := by
        by_contra hc
        rw [List.getElem?_eq_none (by omega)] at hi
        cases hi
      obtain ⟨s', hs', h1, _, h3⟩ := h.joined t ht i _ w (List.getElem?_eq_getElem hlt) hi
      rw [ha] at h3
      cases h3
      exact hb ((h.segs t ht s).2 ⟨_, hs', h1⟩)
    · rw [ha] at hw
      cases hw

/-! ### adding segments -/

theorem withNodes_withNodes (W : World) (t : Nat) (l l' : List Nat) :
    withNodes (withNodes W t l) t l' = withNodes W t l' := by
  simp only [withNodes]
  congr 2
  funext u
  by_cases h : u = t <;> simp [h]

theorem withNodes_self (W : World) (t : Nat) : withNodes W t (W.g.nodes t) = W := by
  simp only [withNodes]
  have : (fun u => if u = t then W.g.nodes t else W.g.nodes u) = W.g.nodes := by
    funext u
    by_cases h : u = t <;> simp [h]
  rw [this]

theorem newSeg_withNodes (W : World) (t u a b : Nat) (l : List Nat) :
    newSeg (withNodes W u l) t a b = withNodes (newSeg W t a b) u l := rfl

theorem segsFor_withNodes (t u : Nat) (l L : List Nat) (W : World) :
    segsFor (withNodes W u l) t L = withNodes (segsFor W t L) u l := by
  induction L generalizing W with
  | nil => rfl
  | cons a L ih =>
    cases L with
    | nil => rfl
    | cons b L =>
      simp only [segsFor]
      rw [newSeg_withNodes, ih]

/-- one more node at the end of a track -/
theorem Links.extend {W : World} {T : List Nat} (h : Links W T) {t : Nat} (ht : t ∈ T) {P : List Nat} {a b : Nat}
    (hN : W.g.nodes t = P ++ [a]) (hnew : b ∉ P ++ [a]) (hp : W.g.prev b = none) (hnd : (P ++ [a]).Nodup) :
    Links (withNodes (newSeg W t a b) t (P ++ [a] ++ [b])) T := by
  have hlen : (W.g.nodes t).length = P.length + 1 := by rw [hN]; simp
  have hnotold : ∀ v, W.fresh ∉ W.g.next v := fun v hv => absurd (h.old v _ hv) (lt_irrefl _)
  have hnp : ∀ w, W.g.prev w ≠ some W.fresh := by
    intro w hw
    obtain ⟨v, hv, _⟩ := h.entered w _ hw
    exact hnotold v hv
  have hnb : ∀ s, ¬ (W.g.prev b = some s ∧ W.g.snext s = some b) := by
    rintro s ⟨h1, _⟩
    rw [hp] at h1
    cases h1
  have hab : a ≠ b := by rintro rfl; exact hnew (by simp)
  -- the new fields
  have enext : ∀ v, (withNodes (newSeg W t a b) t (P ++ [a] ++ [b])).g.next v =
      if v = a then W.g.next v ++ [W.fresh] else W.g.next v := fun v => rfl
  have eprev : ∀ w, (withNodes (newSeg W t a b) t (P ++ [a] ++ [b])).g.prev w =
      if w = b then some W.fresh else W.g.prev w := fun w => rfl
  have etrk : ∀ s, (withNodes (newSeg W t a b) t (P ++ [a] ++ [b])).g.trk s =
      if s = W.fresh then t else W.g.trk s := fun s => rfl
  have esnext : ∀ s, (withNodes (newSeg W t a b) t (P ++ [a] ++ [b])).g.snext s =
      if s = W.fresh then some b else W.g.snext s := by
    intro s
    show (if s = W.fresh then some b else if W.g.prev b = some s ∧ W.g.snext s = some b then none else W.g.snext s) = _
    rw [if_neg (hnb s)]
  have enodes : ∀ u, (withNodes (newSeg W t a b) t (P ++ [a] ++ [b])).g.nodes u =
      if u = t then P ++ [a] ++ [b] else W.g.nodes u := fun u => rfl
  have efresh : (withNodes (newSeg W t a b) t (P ++ [a] ++ [b])).fresh = W.fresh + 1 := rfl
  have esegs : ∀ u, (withNodes (newSeg W t a b) t (P ++ [a] ++ [b])).segs u =
      if u = t then W.segs u ++ [W.fresh] else W.segs u := fun u => rfl
  generalize withNodes (newSeg W t a b) t (P ++ [a] ++ [b]) = W' at enext eprev etrk esnext enodes efresh esegs
  have memnext : ∀ v s, s ∈ W'.g.next v ↔ s ∈ W.g.next v ∨ (v = a ∧ s = W.fresh) := by
    intro v s
    rw [enext]
    by_cases hv : v = a
    · rw [if_pos hv]; simp [hv]
    · rw [if_neg hv]; simp [hv]
  -- positions
  have hpos : ∀ (i v : Nat), (W.g.nodes t)[i]? = some v → (P ++ [a] ++ [b])[i]? = some v := by
    intro i v hv
    rw [List.getElem?_append_left]
    · rw [← hN]; exact hv
    · by_contra hc
      rw [List.getElem?_eq_none (by rw [hN]; omega)] at hv
      cases hv
  have hneb : ∀ (i v : Nat), (W.g.nodes t)[i]? = some v → v ≠ b := by
    rintro i v hv rfl
    rw [hN] at hv
    exact hnew (List.mem_of_getElem? hv)
  have hlast : (P ++ [a] ++ [b])[P.length]? = some a := by
    rw [List.append_assoc, List.getElem?_append_right (le_refl _)]
    simp
  have hlast2 : (P ++ [a] ++ [b])[P.length + 1]? = some b := by
    rw [List.getElem?_append_right (by simp)]
    simp
  refine ⟨?_, ?_, ?_, ?_, ?_, ?_⟩
  · intro u hu i v w hv hw
    rw [enodes] at hv hw
    have keep : (W.g.nodes u)[i]? = some v → (W.g.nodes u)[i + 1]? = some w → w ≠ b →
        ∃ s ∈ W'.g.next v, W'.g.trk s = u ∧ W'.g.snext s = some w ∧ W'.g.prev w = some s := by
      intro hv hw hwb
      obtain ⟨s, h1, h2, h3, h4⟩ := h.joined u hu i v w hv hw
      have hsf : s ≠ W.fresh := by rintro rfl; exact hnotold v h1
      refine ⟨s, (memnext v s).2 (Or.inl h1), ?_, ?_, ?_⟩
      · rw [etrk, if_neg hsf]; exact h2
      · rw [esnext, if_neg hsf]; exact h3
      · rw [eprev, if_neg hwb]; exact h4
    by_cases hut : u = t
    · rw [if_pos hut] at hv hw
      subst hut
      rcases Nat.lt_trichotomy i P.length with hi | hi | hi
      · have e1 : (W.g.nodes u)[i]? = some v := by
          rw [List.getElem?_append_left (by simp; omega)] at hv
          rw [hN]; exact hv
        have e2 : (W.g.nodes u)[i + 1]? = some w := by
          rw [List.getElem?_append_left (by simp; omega)] at hw
          rw [hN]; exact hw
        exact keep e1 e2 (hneb _ _ e2)
      · subst hi
        rw [hlast] at hv
        rw [hlast2] at hw
        cases hv
        cases hw
        refine ⟨W.fresh, (memnext a _).2 (Or.inr ⟨rfl, rfl⟩), ?_, ?_, ?_⟩
        · rw [etrk, if_pos rfl]
        · rw [esnext, if_pos rfl]
        · rw [eprev, if_pos rfl]
      · rw [List.getElem?_eq_none (by simp; omega)] at hw
        cases hw
    · rw [if_neg hut] at hv hw
      refine keep hv hw ?_
      rintro rfl
      obtain ⟨s, _, _, _, h4⟩ := h.joined u hu i v w hv hw
      rw [hp] at h4
      cases h4
  · intro v s hs
    rcases (memnext v s).1 hs with hs | ⟨rfl, rfl⟩
    · have hsf : s ≠ W.fresh := by rintro rfl; exact hnotold v hs
      obtain ⟨hT, i, w, h1, h2, h3, h4⟩ := h.seg v s hs
      rw [etrk, if_neg hsf]
      have hwb : w ≠ b := by
        rintro rfl
        rw [hp] at h4
        cases h4
      refine ⟨hT, i, w, ?_, ?_, by rw [esnext, if_neg hsf]; exact h3, by rw [eprev, if_neg hwb]; exact h4⟩
      · rw [enodes]
        by_cases hut : W.g.trk s = t
        · rw [if_pos hut]; rw [hut] at h1; exact hpos i v h1
        · rw [if_neg hut]; exact h1
      · rw [enodes]
        by_cases hut : W.g.trk s = t
        · rw [if_pos hut]; rw [hut] at h2; exact hpos _ w h2
        · rw [if_neg hut]; exact h2
    · rw [etrk, if_pos rfl]
      refine ⟨ht, P.length, b, ?_, ?_, by rw [esnext, if_pos rfl], by rw [eprev, if_pos rfl]⟩
      · rw [enodes, if_pos rfl]; exact hlast
      · rw [enodes, if_pos rfl]; exact hlast2
  · intro w s hw
    rw [eprev] at hw
    by_cases hwb : w = b
    · rw [if_pos hwb] at hw
      cases hw
      subst hwb
      exact ⟨a, (memnext a _).2 (Or.inr ⟨rfl, rfl⟩), by rw [esnext, if_pos rfl]⟩
    · rw [if_neg hwb] at hw
      obtain ⟨v, h1, h2⟩ := h.entered w s hw
      have hsf : s ≠ W.fresh := by rintro rfl; exact hnotold v h1
      exact ⟨v, (memnext v s).2 (Or.inl h1), by rw [esnext, if_neg hsf]; exact h2⟩
  · intro v
    rw [enext]
    by_cases hv : v = a
    · rw [if_pos hv, List.nodup_append']
      refine ⟨h.once v, by simp, ?_⟩
      rw [List.disjoint_left]
      intro s hs hs'
      rw [List.mem_singleton] at hs'
      subst hs'
      exact hnotold v hs
    · rw [if_neg hv]; exact h.once v
  · intro v s hs
    rw [efresh]
    rcases (memnext v s).1 hs with hs | ⟨_, rfl⟩
    · have := h.old v s hs; omega
    · omega
  · intro u hu s
    rw [esegs]
    constructor
    · intro hs
      by_cases hsf : s = W.fresh
      · subst hsf
        by_cases hut : u = t
        · exact ⟨a, (memnext a _).2 (Or.inr ⟨rfl, rfl⟩), by rw [etrk, if_pos rfl, hut]⟩
        · rw [if_neg hut] at hs
          obtain ⟨v, hv, _⟩ := (h.segs u hu _).1 hs
          exact absurd hv (hnotold v)
      · have hs' : s ∈ W.segs u := by
          by_cases hut : u = t
          · rw [if_pos hut] at hs
            rcases List.mem_append.1 hs with hs | hs
            · exact hs
            · rw [List.mem_singleton] at hs; exact absurd hs hsf
          · rw [if_neg hut] at hs; exact hs
        obtain ⟨v, hv, he⟩ := (h.segs u hu s).1 hs'
        exact ⟨v, (memnext v s).2 (Or.inl hv), by rw [etrk, if_neg hsf]; exact he⟩
    · rintro ⟨v, hv, he⟩
      rcases (memnext v s).1 hv with hv | ⟨_, rfl⟩
      · have hsf : s ≠ W.fresh := by rintro rfl; exact hnotold v hv
        rw [etrk, if_neg hsf] at he
        have := (h.segs u hu s).2 ⟨v, hv, he⟩
        by_cases hut : u = t
        · rw [if_pos hut]; exact List.mem_append_left _ this
        · rw [if_neg hut]; exact this
      · rw [etrk, if_pos rfl] at he
        rw [if_pos he.symm]
        simp

/-- segments for a whole list of nodes -/
theorem Links.extendAll {T : List Nat} {t : Nat} (ht : t ∈ T) (l : List Nat) : ∀ (W : World) (P : List Nat) (a : Nat),
    Links (withNodes W t (P ++ [a])) T → (P ++ [a] ++ l).Nodup → (∀ b ∈ l, W.g.prev b = none) →
    Links (withNodes (segsFor W t (a :: l)) t (P ++ [a] ++ l)) T := by
  induction l with
  | nil =>
    intro W P a h _ _
    rw [List.append_nil]
    exact h
  | cons b l ih =>
    intro W P a h hnd hp
    simp only [segsFor]
    have hnd1 : (P ++ [a]).Nodup := (List.nodup_append'.1 hnd).1
    have hb : b ∉ P ++ [a] := by
      intro hc
      exact (List.disjoint_left.1 (List.nodup_append'.1 hnd).2.2) hc (List.mem_cons_self ..)
    have hN : (withNodes W t (P ++ [a])).g.nodes t = P ++ [a] := by simp [withNodes]
    have h1 := h.extend ht hN hb (hp b (List.mem_cons_self ..)) hnd1
    rw [newSeg_withNodes, withNodes_withNodes] at h1
    have h2 := ih (newSeg W t a b) (P ++ [a]) b h1 (by simpa using hnd) (by
      intro x hx
      have hxb : x ≠ b := by
        rintro rfl
        have h3 := (List.nodup_append'.1 hnd).2.1
        exact (List.nodup_cons.1 h3).1 hx
      show (if x = b then some W.fresh else W.g.prev x) = none
      rw [if_neg hxb]
      exact hp x (List.mem_cons_of_mem _ hx))
    simpa using h2

/-- a track with one node and no segment -/
theorem Links.single {W : World} {T : List Nat} {t : Nat} (h : Links W (T.filter (· ≠ t))) (hs : W.segs t = [])
    (a : Nat) : Links (withNodes W t [a]) (t :: T.filter (· ≠ t)) := by
  have hne : ∀ v, ∀ s ∈ W.g.next v, W.g.trk s ≠ t := by
    intro v s hs hc
    have := (h.seg v s hs).1
    simp only [List.mem_filter, ne_eq, decide_eq_true_eq] at this
    exact this.2 hc
  have enodes : ∀ u, (withNodes W t [a]).g.nodes u = if u = t then [a] else W.g.nodes u := fun u => rfl
  refine ⟨?_, ?_, h.entered, h.once, h.old, ?_⟩
  · intro u hu i v w hv hw
    rw [enodes] at hv hw
    by_cases hut : u = t
    · rw [if_pos hut, List.getElem?_eq_none (by simp)] at hw
      cases hw
    · rw [if_neg hut] at hv hw
      rcases List.mem_cons.1 hu with hu | hu
      · exact absurd hu hut
      · exact h.joined u hu i v w hv hw
  · intro v s hs
    obtain ⟨hT, i, w, h1, h2, h3, h4⟩ := h.seg v s hs
    refine ⟨List.mem_cons_of_mem _ hT, i, w, ?_, ?_, h3, h4⟩
    · rw [enodes]
      show (if W.g.trk s = t then [a] else W.g.nodes (W.g.trk s))[i]? = some v
      rw [if_neg (hne v s hs)]
      exact h1
    · rw [enodes]
      show (if W.g.trk s = t then [a] else W.g.nodes (W.g.trk s))[i + 1]? = some w
      rw [if_neg (hne v s hs)]
      exact h2
  · intro u hu s
    show s ∈ W.segs u ↔ ∃ v, s ∈ W.g.next v ∧ W.g.trk s = u
    by_cases hut : u = t
    · subst hut
      rw [hs]
      constructor
      · intro h; cases h
      · rintro ⟨v, hv, he⟩; exact absurd he (hne v s hv)
    · rcases List.mem_cons.1 hu with hu | hu
      · exact absurd hu hut
      · exact h.segs u hu s

theorem segsFor_nodes (t : Nat) (L : List Nat) (W : World) : (segsFor W t L).g.nodes = W.g.nodes ∧
    (segsFor W t L).hits = W.hits := by
  induction L generalizing W with
  | nil => exact ⟨rfl, rfl⟩
  | cons a L ih =>
    cases L with
    | nil => exact ⟨rfl, rfl⟩
    | cons b L => exact ih (newSeg W t a b)

theorem deleteSegments_withNodes (W : World) (t u : Nat) (l : List Nat) :
    deleteSegments (withNodes W u l) t = withNodes (deleteSegments W t) u l := by
  have : ∀ (k : List Nat) (W : World), k.foldl delSeg (withNodes W u l) = withNodes (k.foldl delSeg W) u l := by
    intro k
    induction k with
    | nil => intro W; rfl
    | cons a k ih => intro W; exact ih (delSeg W a)
  have h := this (W.segs t) W
  have e : (withNodes W u l).segs t = W.segs t := rfl
  simp only [deleteSegments]
  rw [e, h]
  rfl

/-- rebuilding the segments of a track after its node list has been changed: every node but the first one of the new
list must not be entered by another track -/
theorem Links.rebuild {W : World} {T : List Nat} (h : Links W T) {t : Nat} (ht : t ∈ T) {a : Nat} {l : List Nat}
    (hnd : (a :: l).Nodup) (hp : ∀ b ∈ l, (deleteSegments W t).g.prev b = none) :
    Links (rebuild (withNodes W t (a :: l)) t) T ∧
      (∀ u, (Tree.rebuild (withNodes W t (a :: l)) t).g.nodes u = if u = t then a :: l else W.g.nodes u) ∧
      (Tree.rebuild (withNodes W t (a :: l)) t).hits = W.hits := by
  have e1 : Tree.rebuild (withNodes W t (a :: l)) t =
      withNodes (segsFor (deleteSegments W t) t (a :: l)) t (a :: l) := by
    simp only [Tree.rebuild]
    rw [deleteSegments_withNodes]
    have : (withNodes (deleteSegments W t) t (a :: l)).g.nodes t = a :: l := by simp [withNodes]
    rw [this, segsFor_withNodes]
  have hTm : ∀ u, u ∈ t :: T.filter (· ≠ t) ↔ u ∈ T := by
    intro u
    simp only [List.mem_cons, List.mem_filter, ne_eq, decide_eq_true_eq]
    constructor
    · rintro (rfl | ⟨h, _⟩)
      · exact ht
      · exact h
    · intro h
      by_cases hut : u = t
      · exact Or.inl hut
      · exact Or.inr ⟨h, hut⟩
  refine ⟨?_, ?_, ?_⟩
  · rw [e1]
    have h1 := (h.delete ht).single (by rw [(deleteSegments_eq W t).2.2.2.2.1, if_pos rfl]) a
    have h2 := Links.extendAll (T := t :: T.filter (· ≠ t)) (t := t) (by simp) l (deleteSegments W t) [] a h1
      (by simpa using hnd) hp
    exact h2.congr hTm
  · intro u
    rw [e1]
    show (if u = t then a :: l else (segsFor (deleteSegments W t) t (a :: l)).g.nodes u) = _
    rw [(segsFor_nodes t (a :: l) _).1, (deleteSegments_eq W t).1]
  · rw [e1]
    show (segsFor (deleteSegments W t) t (a :: l)).hits = _
    rw [(segsFor_nodes t (a :: l) _).2, (deleteSegments_eq W t).2.2.1]

end Verif.PMAlg.Tree

import Verif.Mst.Prim
import Mathlib.Logic.Relation
import Mathlib.Tactic.Linarith
import Mathlib.Tactic.Ring
import Mathlib.Algebra.BigOperators.Group.List.Basic
import Mathlib.Algebra.Order.BigOperators.Group.List

/-! C97-C99: the clusters are the connected components, and the edges of each form a minimum spanning tree. -/
namespace Verif.Mst

open Relation

/-! ## Specification -/

/-- hits joined by an edge of a list, in either direction -/
def Adj (T : List Edge) (a b : Nat) : Prop := ∃ w, (a, b, w) ∈ T ∨ (b, a, w) ∈ T

/-- joined by a chain of edges -/
def Conn (T : List Edge) : Nat → Nat → Prop := ReflTransGen (Adj T)

/-- the sum of the weights -/
def weightSum (T : List Edge) : ℚ := (T.map (fun e => e.2.2)).sum

/-- the neighbour search does not depend on the side: an edge is offered from one end exactly if it is offered, at the same weight, from the other -/
def Finder.Symm (F : Finder) : Prop := ∀ a b w, (a, b, w) ∈ F.offer a → (b, a, w) ∈ F.offer b

/-! ## Connectivity -/

theorem rtg_mono {r q : Nat → Nat → Prop} (h : ∀ a b, r a b → q a b) {x y : Nat} (hx : ReflTransGen r x y) : ReflTransGen q x y := by
  induction hx with
  | refl => exact .refl
  | tail _ h1 ih => exact .tail ih (h _ _ h1)

theorem Adj.symm {T : List Edge} {a b : Nat} (h : Adj T a b) : Adj T b a := by
  obtain ⟨w, h⟩ := h; exact ⟨w, h.symm⟩

theorem Conn.symm {T : List Edge} {a b : Nat} (h : Conn T a b) : Conn T b a := by
  induction h with
  | refl => exact .refl
  | tail _ h1 ih => exact .head (Adj.symm h1) ih

theorem Conn.mono {T T' : List Edge} (hs : ∀ e ∈ T, e ∈ T') {a b : Nat} (h : Conn T a b) : Conn T' a b :=
  rtg_mono (fun x y ⟨w, hw⟩ => ⟨w, hw.imp (hs _) (hs _)⟩) h

theorem Grown.conn {T : List Edge} {V : List Nat} (h : Grown T V) : ∀ a ∈ V, ∀ b ∈ V, Conn T a b := by
  induction h with
  | single h => intro a ha b hb; simp at ha hb; subst ha; subst hb; exact .refl
  | @grow T V u v w _ hu _ ih =>
    have m : ∀ {a b}, Conn T a b → Conn (T ++ [(u, v, w)]) a b := fun h => h.mono (fun e he => List.mem_append_left _ he)
    have hv : Conn (T ++ [(u, v, w)]) u v := .single ⟨w, Or.inl (by simp)⟩
    have key : ∀ a ∈ V ++ [v], Conn (T ++ [(u, v, w)]) a u := by
      intro a ha
      rcases List.mem_append.1 ha with ha | ha
      · exact m (ih a ha u hu)
      · simp at ha; subst ha; exact hv.symm
    intro a ha b hb
    exact ReflTransGen.trans (key a ha) (key b hb).symm

theorem Conn.nb {F : Finder} (hs : F.Symm) {T : List Edge} (hT : ∀ e ∈ T, e ∈ F.offer e.1) {a b : Nat} (h : Conn T a b) : ReflTransGen F.Nb a b := by
  refine rtg_mono ?_ h
  rintro x y ⟨w, h | h⟩
  · exact (offer_src (hT _ h)).2
  · exact (offer_src (hs _ _ _ (hT _ h))).2

theorem symm_nb {F : Finder} (hs : F.Symm) {a b : Nat} (h : F.Nb a b) : F.Nb b a := by
  obtain ⟨e, he, rfl⟩ := nb_offer h
  have h1 := (offer_src he).1
  have : (a, e.2.1, e.2.2) ∈ F.offer a := by rw [← h1] at he ⊢; exact he
  exact (offer_src (hs _ _ _ this)).2

/-! ## C97 -/

/-- **C97**: the loop ends within one round for each hit; every hit that was not marked before, and the first one, is in exactly one of the new clusters; no cluster is empty; each cluster is grown from its
first hit by going from hits of the cluster to neighbours; and all neighbours of a cluster's hits are in it, in a cluster made before it, or were marked from the start.  The clusters that were in the list stay. -/
theorem C97_partition (F : Finder) (att0 : Nat → Bool) (hits : List Nat) (before : List Clus) (hF : ∀ a ∈ hits, ∀ b, F.Nb a b → b ∈ hits) :
    ∃ cs, runPrim F att0 hits before = some (before ++ cs) ∧
      (cs.flatMap Clus.hits).Nodup ∧ (∀ x, x ∈ cs.flatMap Clus.hits ↔ x ∈ hits ∧ (att0 x = true → hits.head? = some x)) ∧
      (∀ c ∈ cs, ∃ h t, c.hits = h :: t ∧ ∀ x ∈ c.hits, ReflTransGen (fun a b => F.Nb a b ∧ b ∈ c.hits) h x) ∧
      (∀ p c q, cs = p ++ c :: q → ∀ a ∈ c.hits, ∀ b, F.Nb a b → att0 b = true ∨ b ∈ p.flatMap Clus.hits ∨ b ∈ c.hits) := by
  obtain ⟨cs, h1, h2, h3, h4⟩ := runPrim_inv (F := F) (att0 := att0) before hF
  refine ⟨cs, h1, h3, h4, ?_, h2.closed⟩
  intro c hc
  obtain ⟨p, q, hpq⟩ := List.append_of_mem hc
  obtain ⟨T, hT, -⟩ := h2.tree p c q hpq
  have key : ∀ {T V}, MinGrown F (fun x => att0 x = true ∨ x ∈ p.flatMap Clus.hits) T V → ∃ h t, V = h :: t ∧ ∀ x ∈ V, ReflTransGen (fun a b => F.Nb a b ∧ b ∈ V) h x := by
    intro T V hm
    induction hm with
    | single h => exact ⟨h, [], rfl, by intro x hx; simp at hx; subst hx; exact .refl⟩
    | @grow T V e _ e1 e2 e3 _ _ ih =>
      obtain ⟨h, t, rfl, hr⟩ := ih
      refine ⟨h, t ++ [e.2.1], rfl, ?_⟩
      have m : ∀ {x}, ReflTransGen (fun a b => F.Nb a b ∧ b ∈ h :: t) h x → ReflTransGen (fun a b => F.Nb a b ∧ b ∈ h :: (t ++ [e.2.1])) h x :=
        fun hx => rtg_mono (fun a b hab => ⟨hab.1, by have := hab.2; simp at this ⊢; tauto⟩) hx
      intro x hx
      rcases List.mem_append.1 hx with hx | hx
      · exact m (hr x hx)
      · simp at hx; subst hx
        exact .tail (m (hr e.1 e1)) ⟨(offer_src e3).2, by simp⟩
  exact key hT

/-- **C97**: when the neighbour search is symmetric and nothing is marked, two hits are in the same cluster exactly if a chain of neighbours joins them -/
theorem C97_components (F : Finder) (hits : List Nat) (hF : ∀ a ∈ hits, ∀ b, F.Nb a b → b ∈ hits) (hs : F.Symm) :
    ∃ cs, runPrim F (fun _ => false) hits [] = some cs ∧ ∀ x ∈ hits, ∀ y ∈ hits, ((∃ c ∈ cs, x ∈ c.hits ∧ y ∈ c.hits) ↔ ReflTransGen F.Nb x y) := by
  obtain ⟨cs, h1, h2, h3, h4⟩ := runPrim_inv (F := F) (att0 := fun _ => false) [] hF
  refine ⟨cs, by simpa using h1, ?_⟩
  intro x hx y hy
  constructor
  · rintro ⟨c, hc, hxc, hyc⟩
    obtain ⟨p, q, hpq⟩ := List.append_of_mem hc
    obtain ⟨T, hT, -⟩ := h2.tree p c q hpq
    exact (hT.grown.conn x hxc y hyc).nb hs hT.offered
  · intro hr
    have hxc : ∃ c ∈ cs, x ∈ c.hits := by
      have := (h4 x).2 ⟨hx, by simp⟩
      exact List.mem_flatMap.1 this
    obtain ⟨c, hc, hxc⟩ := hxc
    refine ⟨c, hc, hxc, ?_⟩
    obtain ⟨p, q, hpq⟩ := List.append_of_mem hc
    clear hy
    induction hr with
    | refl => exact hxc
    | @tail a b _ hab ih =>
      rcases h2.closed p c q hpq a ih b hab with h5 | h5 | h5
      · cases h5
      · exfalso
        obtain ⟨c', hc', hbc'⟩ := List.mem_flatMap.1 h5
        obtain ⟨p', q', hpq'⟩ := List.append_of_mem hc'
        have h6 := h2.closed p' c' (q' ++ c :: q) (by rw [hpq, hpq']; simp) b hbc' a (symm_nb hs hab)
        have hap : a ∈ p.flatMap Clus.hits := by
          rw [hpq', List.flatMap_append, List.flatMap_cons]
          rcases h6 with h6 | h6 | h6
          · cases h6
          · exact List.mem_append_left _ h6
          · exact List.mem_append_right _ (List.mem_append_left _ h6)
        rw [hpq, List.flatMap_append, List.flatMap_cons] at h3
        exact (List.nodup_append.1 h3).2.2 a hap a (List.mem_append_left _ ih) rfl
      · exact h5

/-! ## C98 -/

theorem mem_incident {T : List Edge} {h : Nat} {e : Edge} : e ∈ incident T h ↔ e.1 = h ∧ (e ∈ T ∨ (e.2.1, e.1, e.2.2) ∈ T) := by
  unfold incident
  rw [List.mem_flatMap]
  constructor
  · rintro ⟨f, hf, he⟩
    rcases List.mem_append.1 he with he | he
    · by_cases hc : f.1 = h
      · rw [if_pos hc] at he; simp at he; subst he; exact ⟨hc, Or.inl hf⟩
      · rw [if_neg hc] at he; simp at he
    · by_cases hc : f.2.1 = h
      · rw [if_pos hc] at he; simp at he; subst he; exact ⟨hc, Or.inr hf⟩
      · rw [if_neg hc] at he; simp at he
  · rintro ⟨rfl, h1 | h1⟩
    · exact ⟨e, h1, by simp⟩
    · exact ⟨_, h1, by simp⟩

theorem sum_if (V : List Nat) (hV : V.Nodup) (x : Nat) (hx : x ∈ V) (w : ℚ) : (V.map (fun h => if x = h then w else 0)).sum = w := by
  induction V with
  | nil => simp at hx
  | cons a V ih =>
    rw [List.map_cons, List.sum_cons]
    rw [List.nodup_cons] at hV
    by_cases ha : x = a
    · subst ha
      rw [if_pos rfl]
      have : V.map (fun h => if x = h then w else 0) = V.map (fun _ => 0) := by
        apply List.map_congr_left
        intro h hh
        rw [if_neg]; rintro rfl; exact hV.1 hh
      rw [this]; simp
    · rw [if_neg ha, zero_add]
      exact ih hV.2 ((List.mem_cons.1 hx).resolve_left ha)

/-- adding something up over the edge lists of all hits counts every edge twice -/
theorem incident_sum (f : Edge → ℚ) (hf : ∀ e : Edge, f (e.2.1, e.1, e.2.2) = f e) (V : List Nat) (hV : V.Nodup) (T : List Edge) (hT : ∀ e ∈ T, e.1 ∈ V ∧ e.2.1 ∈ V) :
    (V.map (fun h => ((incident T h).map f).sum)).sum = 2 * (T.map f).sum := by
  induction T with
  | nil => simp [incident]
  | cons e T ih =>
    have h1 : ∀ h, ((incident (e :: T) h).map f).sum = ((if e.1 = h then f e else 0) + (if e.2.1 = h then f e else 0)) + ((incident T h).map f).sum := by
      intro h
      simp only [incident, List.flatMap_cons, List.map_append, List.sum_append]
      congr 1
      congr 1
      · by_cases hc : e.1 = h <;> simp [hc]
      · by_cases hc : e.2.1 = h
        · rw [if_pos hc, if_pos hc]; simp [hf e]
        · simp [hc]
    simp only [h1]
    rw [List.sum_map_add, List.sum_map_add, sum_if V hV _ (hT e List.mem_cons_self).1, sum_if V hV _ (hT e List.mem_cons_self).2, ih (fun e he => hT e (List.mem_cons_of_mem _ he)),
      List.map_cons, List.sum_cons]
    ring

/-- the sum of the weights of the edges of a cluster; the map has every edge twice -/
def Clus.total (c : Clus) : ℚ := (c.hits.map (fun h => weightSum (c.emap h))).sum / 2

/-- the number of edges of a cluster -/
def Clus.count (c : Clus) : ℚ := (c.hits.map (fun h => ((c.emap h).length : ℚ))).sum / 2

/-- **C98**: the edge map of each new cluster is a spanning tree: it has every edge from both of its ends, with the same weight, all edges are between hits of the cluster and were offered by the neighbour search from one end,
there is one edge less than hits, and they connect all the hits -/
theorem C98_tree (F : Finder) (att0 : Nat → Bool) (hits : List Nat) (before : List Clus) (hF : ∀ a ∈ hits, ∀ b, F.Nb a b → b ∈ hits) :
    ∃ cs, runPrim F att0 hits before = some (before ++ cs) ∧ ∀ c ∈ cs,
      (∀ a, ∀ e ∈ c.emap a, e.1 = a ∧ a ∈ c.hits ∧ e.2.1 ∈ c.hits ∧ (e.2.1, a, e.2.2) ∈ c.emap e.2.1 ∧ (e ∈ F.offer a ∨ (e.2.1, a, e.2.2) ∈ F.offer e.2.1)) ∧
      c.count + 1 = c.hits.length ∧
      (∀ a ∈ c.hits, ∀ b ∈ c.hits, ReflTransGen (fun x y => ∃ e ∈ c.emap x, e.2.1 = y) a b) := by
  obtain ⟨cs, h1, h2, h3, h4⟩ := runPrim_inv (F := F) (att0 := att0) before hF
  refine ⟨cs, h1, ?_⟩
  intro c hc
  obtain ⟨p, q, hpq⟩ := List.append_of_mem hc
  obtain ⟨T, hT, hm⟩ := h2.tree p c q hpq
  refine ⟨?_, ?_, ?_⟩
  · intro a e he
    rw [hm, mem_incident] at he
    obtain ⟨rfl, he⟩ := he
    refine ⟨rfl, ?_, ?_, ?_, ?_⟩
    · rcases he with he | he
      · exact (hT.grown.mem e he).1
      · exact (hT.grown.mem _ he).2
    · rcases he with he | he
      · exact (hT.grown.mem e he).2
      · exact (hT.grown.mem _ he).1
    · rw [hm, mem_incident]; exact ⟨rfl, he.symm⟩
    · rcases he with he | he
      · exact Or.inl (hT.offered e he)
      · exact Or.inr (hT.offered _ he)
  · unfold Clus.count
    have := incident_sum (fun _ => 1) (fun _ => rfl) c.hits hT.grown.nodup T hT.grown.mem
    simp only [List.map_const', List.sum_replicate, nsmul_eq_mul, mul_one] at this
    simp only [hm]
    rw [this, mul_div_cancel_left₀ _ (by norm_num)]
    rw [← hT.grown.length]; push_cast; ring
  · intro a ha b hb
    refine rtg_mono ?_ (hT.grown.conn a ha b hb)
    rintro x y ⟨w, h⟩
    exact ⟨(x, y, w), by rw [hm, mem_incident]; exact ⟨rfl, h⟩, rfl⟩

/-! ## C99 -/

/-- taking an edge away splits a chain that needs it -/
theorem conn_remove {L : List Edge} {f : Edge} {u v : Nat} (h : Conn (f :: L) u v) :
    Conn L u v ∨ (Conn L u f.1 ∧ Conn L f.2.1 v) ∨ (Conn L u f.2.1 ∧ Conn L f.1 v) := by
  induction h with
  | refl => exact Or.inl .refl
  | @tail x y _ hxy ih =>
    obtain ⟨w, hxy⟩ := hxy
    have step : Adj L x y ∨ (x = f.1 ∧ y = f.2.1) ∨ (x = f.2.1 ∧ y = f.1) := by
      rcases hxy with h | h
      · rcases List.mem_cons.1 h with h | h
        · right; left; rw [← h]; exact ⟨rfl, rfl⟩
        · exact Or.inl ⟨w, Or.inl h⟩
      · rcases List.mem_cons.1 h with h | h
        · right; right; rw [← h]; exact ⟨rfl, rfl⟩
        · exact Or.inl ⟨w, Or.inr h⟩
    rcases step with h | ⟨rfl, rfl⟩ | ⟨rfl, rfl⟩
    · rcases ih with h1 | ⟨h1, h2⟩ | ⟨h1, h2⟩
      · exact Or.inl (.tail h1 h)
      · exact Or.inr (Or.inl ⟨h1, .tail h2 h⟩)
      · exact Or.inr (Or.inr ⟨h1, .tail h2 h⟩)
    · rcases ih with h1 | ⟨h1, h2⟩ | ⟨h1, h2⟩
      · exact Or.inr (Or.inl ⟨h1, .refl⟩)
      · exact Or.inr (Or.inl ⟨h1, .refl⟩)
      · exact Or.inl h1
    · rcases ih with h1 | ⟨h1, h2⟩ | ⟨h1, h2⟩
      · exact Or.inr (Or.inr ⟨h1, .refl⟩)
      · exact Or.inl h1
      · exact Or.inr (Or.inr ⟨h1, .refl⟩)

/-- an edge that crosses the border of a set of hits -/
def Crosses (A : List Nat) (f : Edge) : Prop := (f.1 ∈ A ∧ f.2.1 ∉ A) ∨ (f.1 ∉ A ∧ f.2.1 ∈ A)

theorem conn_inside {A : List Nat} {B : List Edge} (hB : ∀ e ∈ B, ¬ Crosses A e) {u v : Nat} (h : Conn B u v) : u ∈ A → v ∈ A := by
  induction h with
  | refl => exact id
  | tail _ hxy ih =>
    intro hu
    have hx := ih hu
    obtain ⟨w, h | h⟩ := hxy
    · by_contra hc; exact hB _ h (Or.inl ⟨hx, hc⟩)
    · by_contra hc; exact hB _ h (Or.inr ⟨hc, hx⟩)

/-- among the edges of a chain that leaves a set one can be found that crosses the border and whose ends are joined to those of the chain without it -/
theorem exchange {A : List Nat} {u v : Nat} (hu : u ∈ A) (hv : v ∉ A) : ∀ (R B : List Edge), (∀ e ∈ B, ¬ Crosses A e) → Conn (B ++ R) u v →
    ∃ R1 f R2, R = R1 ++ f :: R2 ∧ Crosses A f ∧
      ((Conn (B ++ (R1 ++ R2)) u f.1 ∧ Conn (B ++ (R1 ++ R2)) f.2.1 v) ∨ (Conn (B ++ (R1 ++ R2)) u f.2.1 ∧ Conn (B ++ (R1 ++ R2)) f.1 v))
  | [], B, hB, h => absurd (conn_inside hB (by simpa using h) hu) hv
  | r :: R, B, hB, h => by
    by_cases hr : Crosses A r
    · have h' : Conn (r :: (B ++ R)) u v := h.mono (fun e he => by simp at he ⊢; tauto)
      rcases conn_remove h' with h1 | h1
      · obtain ⟨R1, f, R2, rfl, h2, h3⟩ := exchange hu hv R B hB h1
        have m : ∀ {a b}, Conn (B ++ (R1 ++ R2)) a b → Conn (B ++ (r :: R1 ++ R2)) a b := fun h => h.mono (fun e he => by simp at he ⊢; tauto)
        exact ⟨r :: R1, f, R2, rfl, h2, h3.imp (fun h => ⟨m h.1, m h.2⟩) (fun h => ⟨m h.1, m h.2⟩)⟩
      · exact ⟨[], r, R, rfl, hr, h1⟩
    · obtain ⟨R1, f, R2, rfl, h2, h3⟩ := exchange hu hv R (B ++ [r]) (by
        intro e he
        rcases List.mem_append.1 he with he | he
        · exact hB e he
        · simp at he; subst he; exact hr) (h.mono (fun e he => by simp at he ⊢; tauto))
      have m : ∀ {a b}, Conn (B ++ [r] ++ (R1 ++ R2)) a b → Conn (B ++ (r :: R1 ++ R2)) a b := fun h => h.mono (fun e he => by simp at he ⊢; tauto)
      exact ⟨r :: R1, f, R2, rfl, h2, h3.imp (fun h => ⟨m h.1, m h.2⟩) (fun h => ⟨m h.1, m h.2⟩)⟩

/-- a competitor: edges between hits of `C` that were offered from one of their ends and connect all of `C` -/
structure Spans (F : Finder) (C : List Nat) (G : List Edge) : Prop where
  mem : ∀ e ∈ G, e.1 ∈ C ∧ e.2.1 ∈ C
  offered : ∀ e ∈ G, e ∈ F.offer e.1 ∨ (e.2.1, e.1, e.2.2) ∈ F.offer e.2.1
  conn : ∀ a ∈ C, ∀ b ∈ C, Conn G a b

theorem grown_exchange {F : Finder} (hs : F.Symm) {B : Nat → Prop} {T : List Edge} {V : List Nat} (hT : MinGrown F B T V) :
    ∀ (C : List Nat) (G : List Edge), (∀ x ∈ V, x ∈ C) → (∀ x ∈ C, x ∉ V → ¬ B x) → Spans F C G →
      ∃ R, Spans F C (T ++ R) ∧ (T ++ R).length = G.length ∧ weightSum (T ++ R) ≤ weightSum G := by
  induction hT with
  | single h => intro C G _ _ hG; exact ⟨G, by simpa using hG, by simp, by simp⟩
  | @grow T V e hTV e1 e2 e3 e4 emin ih =>
    intro C G hVC hCB hG
    obtain ⟨R, hR, hRl, hRw⟩ := ih C G (fun x hx => hVC x (List.mem_append_left _ hx)) (by
      intro x hx hxV
      by_cases hxe : x = e.2.1
      · rw [hxe]; exact e4
      · exact hCB x hx (by simp [hxV, hxe])) hG
    have heC : e.1 ∈ C ∧ e.2.1 ∈ C := ⟨hVC _ (List.mem_append_left _ e1), hVC _ (by simp)⟩
    have hTin : ∀ f ∈ T, ¬ Crosses V f := by
      intro f hf hc
      have := hTV.grown.mem f hf
      rcases hc with hc | hc
      · exact hc.2 this.2
      · exact hc.1 this.1
    obtain ⟨R1, f, R2, rfl, hcr, hcn⟩ := exchange e1 e2 R T hTin (hR.conn _ heC.1 _ heC.2)
    -- the new edge replaces `f`
    have hfT : f ∈ T ++ (R1 ++ f :: R2) := by simp
    have hfw : e.2.2 ≤ f.2.2 := by
      have hnot : ∀ x ∈ C, x ∉ V → ¬ B x := by
        intro x hx hxV
        by_cases hxe : x = e.2.1
        · rw [hxe]; exact e4
        · exact hCB x hx (by simp [hxV, hxe])
      have hoff : f ∈ F.offer f.1 ∧ (f.2.1, f.1, f.2.2) ∈ F.offer f.2.1 := by
        rcases hR.offered f hfT with h | h
        · exact ⟨h, hs _ _ _ h⟩
        · exact ⟨hs _ _ _ h, h⟩
      rcases hcr with ⟨h1, h2⟩ | ⟨h1, h2⟩
      · exact emin f.1 h1 f hoff.1 h2 (hnot _ (hR.mem f hfT).2 h2)
      · exact emin f.2.1 h2 (f.2.1, f.1, f.2.2) hoff.2 h1 (hnot _ (hR.mem f hfT).1 h1)
    have m : ∀ {a b}, Conn (T ++ (R1 ++ R2)) a b → Conn (T ++ [e] ++ (R1 ++ R2)) a b := fun h => h.mono (fun e he => by simp at he ⊢; tauto)
    have hef : Conn (T ++ [e] ++ (R1 ++ R2)) e.1 e.2.1 := .single ⟨e.2.2, Or.inl (by simp)⟩
    have hff : Conn (T ++ [e] ++ (R1 ++ R2)) f.1 f.2.1 := by
      rcases hcn with ⟨h1, h2⟩ | ⟨h1, h2⟩
      · exact ReflTransGen.trans (m h1).symm (ReflTransGen.trans hef (m h2).symm)
      · exact ReflTransGen.trans (m h2) (ReflTransGen.trans hef.symm (m h1))
    refine ⟨R1 ++ R2, ⟨?_, ?_, ?_⟩, ?_, ?_⟩
    · intro g hg
      by_cases hge : g = e
      · rw [hge]; exact heC
      · exact hR.mem g (by simp at hg ⊢; tauto)
    · intro g hg
      by_cases hge : g = e
      · rw [hge]; exact Or.inl e3
      · exact hR.offered g (by simp at hg ⊢; tauto)
    · intro a ha b hb
      have h1 : Conn (f :: (T ++ (R1 ++ R2))) a b := (hR.conn a ha b hb).mono (fun e he => by simp at he ⊢; tauto)
      rcases conn_remove h1 with h | ⟨h, h'⟩ | ⟨h, h'⟩
      · exact m h
      · exact ReflTransGen.trans (m h) (ReflTransGen.trans hff (m h'))
      · exact ReflTransGen.trans (m h) (ReflTransGen.trans hff.symm (m h'))
    · rw [← hRl]; simp; omega
    · refine le_trans ?_ hRw
      simp only [weightSum, List.map_append, List.map_cons, List.map_nil, List.sum_append, List.sum_cons, List.sum_nil]
      linarith

theorem total_eq {c : Clus} {T : List Edge} (hT : Grown T c.hits) (hm : ∀ h, c.emap h = incident T h) : c.total = weightSum T := by
  unfold Clus.total weightSum
  simp only [hm]
  rw [incident_sum (fun e => e.2.2) (fun _ => rfl) c.hits hT.nodup T hT.mem]
  ring

/-- **C99**: when the neighbour search is symmetric, the edges of each new cluster are a minimum spanning tree: no other set of offered edges that connects the hits of the cluster and has as many edges, or any number of
edges if no weight is negative, has a smaller sum of weights -/
theorem C99_minimum (F : Finder) (hs : F.Symm) (att0 : Nat → Bool) (hits : List Nat) (before : List Clus) (hF : ∀ a ∈ hits, ∀ b, F.Nb a b → b ∈ hits) :
    ∃ cs, runPrim F att0 hits before = some (before ++ cs) ∧ ∀ c ∈ cs, ∀ G, Spans F c.hits G → (G.length + 1 = c.hits.length ∨ ∀ a, ∀ e ∈ F.offer a, 0 ≤ e.2.2) → c.total ≤ weightSum G := by
  obtain ⟨cs, h1, h2, h3, h4⟩ := runPrim_inv (F := F) (att0 := att0) before hF
  refine ⟨cs, h1, ?_⟩
  intro c hc G hG hcase
  obtain ⟨p, q, hpq⟩ := List.append_of_mem hc
  obtain ⟨T, hT, hm⟩ := h2.tree p c q hpq
  rw [total_eq hT.grown hm]
  obtain ⟨R, hR, hl, hw⟩ := grown_exchange hs hT c.hits G (fun x hx => hx) (fun x hx hn => absurd hx hn) hG
  have hsum : weightSum (T ++ R) = weightSum T + weightSum R := by simp [weightSum]
  have hR0 : 0 ≤ weightSum R := by
    rcases hcase with h | h
    · have := hT.grown.length
      have hR : R = [] := List.length_eq_zero_iff.1 (by simp at hl; omega)
      rw [hR]; simp [weightSum]
    · refine List.sum_nonneg ?_
      intro w hw
      obtain ⟨e, he, rfl⟩ := List.mem_map.1 hw
      rcases hR.offered e (List.mem_append_right _ he) with h5 | h5
      · exact h _ _ h5
      · exact h _ (e.2.1, e.1, e.2.2) h5
  linarith

/-! ## Example -/

/-- five hits: a square 0 1 2 3 with one diagonal, and a hit 4 of its own -/
def sampleFinder : Finder where
  cand a := [[(1, 1), (2, 3), (5, 2)], [(1, 0), (3, 2)], [(3, 1), (1, 3), (5, 0)], [(1, 2), (2, 0)], []].getD a []
  weight d _ _ := d

example : sampleFinder.Symm := by
  intro a b w h
  have key : ∀ a < 5, ∀ e ∈ sampleFinder.offer a, (e.2.1, e.1, e.2.2) ∈ sampleFinder.offer e.2.1 := by decide +kernel
  by_cases ha : a < 5
  · exact key a ha _ h
  · exfalso
    have : sampleFinder.cand a = [] := by
      simp only [sampleFinder]
      rw [List.getD_eq_getElem?_getD, List.getElem?_eq_none (by simp; omega)]; rfl
    rw [Finder.offer, this] at h; simp at h

example : (∀ a ∈ [0, 1, 2, 3, 4], ∀ p ∈ sampleFinder.cand a, p.2 ∈ [0, 1, 2, 3, 4]) ∧
    (runPrim sampleFinder (fun _ => false) [0, 1, 2, 3, 4] []).map (List.map (fun c => (c.hits, c.total))) = some [([0, 1, 3, 2], 4), ([4], 0)] := by
  refine ⟨by decide +kernel, by decide +kernel⟩

end Verif.Mst

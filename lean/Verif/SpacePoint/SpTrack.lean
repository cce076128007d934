import Verif.SpacePoint.SpSel
/-!
# C158: space points along a track
-/
namespace Verif.SpAlg

/-! ## Specification -/

/-- the track's hits cut into consecutive pieces: each piece is a single hit or a compatible group, and no piece can take the first hit of the next one -/
structure Cut (g : Geo) (c : Cfg) (segs : List (List Hit)) (l : List Hit) : Prop where
  whole : segs.flatten = l
  piece : ∀ s ∈ segs, s.length = 1 ∨ compatible g c s = true
  maximal : ∀ a b pre post, segs = pre ++ a :: b :: post → ∀ h, b.head? = some h → compatible g c (a ++ [h]) = false

theorem compatible_len {g : Geo} {c : Cfg} {l : List Hit} (h : compatible g c l = true) : 2 ≤ l.length ∧ l.length ≤ 3 := by
  unfold compatible at h
  simp only [Bool.and_eq_true, decide_eq_true_eq] at h
  exact h.1.1

/-- one and two hits of a compatible group -/
theorem compatible_prefix {g : Geo} {c : Cfg} {l : List Hit} {h : Hit} (hc : compatible g c (l ++ [h]) = true) : l.length = 1 ∨ compatible g c l = true := by
  obtain ⟨h1, h2⟩ := compatible_len hc
  simp only [List.length_append, List.length_singleton] at h1 h2
  rcases l with _ | ⟨a, _ | ⟨b, _ | ⟨d, l⟩⟩⟩
  · simp at h1
  · left; rfl
  · right
    rw [compatible2]
    have := (allPairs_iff g c _).1 (compatible_pairs hc)
    simp at this
    exact this.1.1
  · simp at h2

theorem runs_cut (g : Geo) (c : Cfg) (l cur : List Hit) (hc : cur.length = 1 ∨ compatible g c cur = true) :
    ∃ segs, Cut g c segs (cur ++ l) ∧ runs g c cur l = segs.filter (fun s => decide (2 ≤ s.length)) ∧
      ∃ rest, segs.head? = some (cur ++ rest) := by
  induction l generalizing cur with
  | nil =>
    refine ⟨[cur], ⟨by simp, by simpa using hc, ?_⟩, ?_, [], by simp⟩
    · intro a b pre post he
      have := congrArg List.length he
      simp at this
      omega
    · simp only [runs]
      by_cases h : 2 ≤ cur.length <;> simp [h]
  | cons h l ih =>
    by_cases hok : compatible g c (cur ++ [h]) = true
    · obtain ⟨segs, h1, h2, rest, h3⟩ := ih (cur ++ [h]) (Or.inr hok)
      refine ⟨segs, by simpa using h1, by rw [runs, if_pos hok, h2], h :: rest, by simpa using h3⟩
    · obtain ⟨segs, h1, h2, rest, h3⟩ := ih [h] (Or.inl rfl)
      refine ⟨cur :: segs, ⟨by simpa using h1.whole, ?_, ?_⟩, ?_, [], by simp⟩
      · intro s hs
        rcases List.mem_cons.1 hs with rfl | hs
        · exact hc
        · exact h1.piece s hs
      · intro a b pre post he x hx
        rcases pre with _ | ⟨p, pre⟩
        · simp only [List.nil_append, List.cons.injEq] at he
          obtain ⟨rfl, he⟩ := he
          rw [he] at h3
          simp only [List.head?_cons, Option.some.injEq] at h3
          rw [h3] at hx
          simp only [List.singleton_append, List.head?_cons, Option.some.injEq] at hx
          rw [← hx]
          simpa using hok
        · simp only [List.cons_append, List.cons.injEq] at he
          exact h1.maximal a b pre post he.2 x hx
      · rw [runs, if_neg hok, h2, List.filter_cons]
        by_cases h : 2 ≤ cur.length <;> simp [h]

/-- **C158 (groups).** The hits of a track are cut into consecutive pieces; the groups of hits made into space points are the pieces of two or more hits. -/
theorem track_runs (g : Geo) (c : Cfg) (l : List Hit) :
    ∃ segs, Cut g c segs l ∧ runs g c [] l = segs.filter (fun s => decide (2 ≤ s.length)) := by
  cases l with
  | nil => exact ⟨[], ⟨rfl, by simp, by intro a b pre post he; simp at he⟩, rfl⟩
  | cons h l =>
    obtain ⟨segs, h1, h2, _⟩ := runs_cut g c l [h] (Or.inl rfl)
    refine ⟨segs, by simpa using h1, ?_⟩
    have : compatible g c ([] ++ [h]) = false := by simp [compatible]
    rw [runs, this]
    simpa using h2

/-- a compatible group grows from compatible groups -/
theorem compatible_take {g : Geo} {c : Cfg} {l : List Hit} (hc : compatible g c l = true) {k : Nat} (h0 : 0 < k) (hk : k ≤ l.length) :
    (l.take k).length = 1 ∨ compatible g c (l.take k) = true := by
  obtain ⟨h1, h2⟩ := compatible_len hc
  rcases l with _ | ⟨a, _ | ⟨b, _ | ⟨d, _ | ⟨e, l⟩⟩⟩⟩
  · simp at h1
  · simp at h1
  · simp at hk
    obtain rfl | rfl : k = 1 ∨ k = 2 := by omega
    · left; rfl
    · right; exact hc
  · simp at hk
    obtain rfl | rfl | rfl : k = 1 ∨ k = 2 ∨ k = 3 := by omega
    · left; rfl
    · right; simpa using (compatible_prefix (l := [a, b]) (h := d) hc).resolve_left (by simp)
    · right; exact hc
  · simp at h2

/-- **C158 (no choice).** There is only one way to cut a track. -/
theorem cut_unique (g : Geo) (c : Cfg) (l : List Hit) : ∀ segs segs', Cut g c segs l → Cut g c segs' l → segs = segs' := by
  intro segs
  induction segs generalizing l with
  | nil =>
    intro segs' h h'
    cases segs' with
    | nil => rfl
    | cons a segs' =>
      have := h'.whole.trans h.whole.symm
      simp only [List.flatten_cons, List.flatten_nil, List.append_eq_nil_iff] at this
      rcases h'.piece a (by simp) with h | h
      · simp [this.1] at h
      · have := compatible_len h; simp_all
  | cons a segs ih =>
    intro segs' h h'
    have nonnil : ∀ s, (s.length = 1 ∨ compatible g c s = true) → s ≠ [] := by
      rintro s (h | h) e
      · simp [e] at h
      · have := (compatible_len h).1; simp [e] at this
    have hne := nonnil a (h.piece a (by simp))
    cases segs' with
    | nil =>
      have := h.whole.trans h'.whole.symm
      simp only [List.flatten_cons, List.flatten_nil, List.append_eq_nil_iff] at this
      exact absurd this.1 hne
    | cons b segs' =>
      have hne' := nonnil b (h'.piece b (by simp))
      -- a piece cannot be a proper prefix of the other piece
      have key : ∀ (x y : List Hit) (xs ys : List (List Hit)), Cut g c (x :: xs) l → Cut g c (y :: ys) l → x.length < y.length → False := by
        intro x y xs ys hx hy hlt
        have hflat := hx.whole.trans hy.whole.symm
        simp only [List.flatten_cons] at hflat
        have hx1 : x = y.take x.length := by
          have := congrArg (List.take x.length) hflat
          rwa [List.take_left, List.take_append_of_le_length (by omega)] at this
        cases xs with
        | nil =>
          have := congrArg List.length hflat
          simp at this
          omega
        | cons z xs =>
          have hz := nonnil z (hx.piece z (by simp))
          obtain ⟨h0, z', rfl⟩ := List.exists_cons_of_ne_nil hz
          have hinc := hx.maximal x (h0 :: z') [] xs rfl h0 rfl
          have hnext : x ++ [h0] = y.take (x.length + 1) := by
            have := congrArg (List.take (x.length + 1)) hflat
            rw [List.take_append_of_le_length (l₁ := y) (by omega)] at this
            rw [← this]
            simp [List.take_append]
          rcases hy.piece y (by simp) with hl | hl
          · have := nonnil x (hx.piece x (by simp))
            have := List.length_pos_of_ne_nil this
            omega
          · have := compatible_take hl (k := x.length + 1) (by omega) (by omega)
            rw [← hnext] at this
            rcases this with h | h
            · have := List.length_pos_of_ne_nil (nonnil x (hx.piece x (by simp)))
              rw [List.length_append, List.length_singleton] at h
              omega
            · rw [hinc] at h; cases h
      have hlen : a.length = b.length := by
        rcases Nat.lt_trichotomy a.length b.length with hlt | heq | hgt
        · exact (key a b segs segs' h h' hlt).elim
        · exact heq
        · exact (key b a segs' segs h' h hgt).elim
      have hflat := h.whole.trans h'.whole.symm
      simp only [List.flatten_cons] at hflat
      obtain ⟨rfl, hrest⟩ := List.append_inj hflat hlen
      congr 1
      refine ih segs.flatten segs' ⟨rfl, fun s hs => h.piece s (by simp [hs]), ?_⟩ ⟨hrest.symm, fun s hs => h'.piece s (by simp [hs]), ?_⟩
      · intro x y pre post he
        exact h.maximal x y (a :: pre) post (by rw [he]; rfl)
      · intro x y pre post he
        exact h'.maximal x y (a :: pre) post (by rw [he]; rfl)

/-- the numbers of `fSptHitMap` when filled only along tracks -/
def Counted (s : St) : Prop := s.hitMap.map Prod.fst = (List.range s.hitMap.length).map (fun n : Nat => (n : Int))

/-- **C158 (points).** On an empty map, or after other tracks: no exception; one point for each group, in order, remembered with the hits of the group, numbered
on from the size of the map; earlier points keep their hits. -/
theorem track_points (g : Geo) (c : Cfg) (s : St) (l : List Hit) (hs : Counted s) :
    ∃ o new, fillTrack g c s l = some o ∧ Counted o ∧ o.spts = s.spts ++ new ∧ (∀ id x, assoc s.hitMap id = some x → assoc o.hitMap id = some x) ∧
      new.map SP.id = (List.range (runs g c [] l).length).map (fun n : Nat => ((s.hitMap.length + n : Nat) : Int)) ∧
      List.Forall₂ (fun r p => assoc o.hitMap p.id = some r ∧ p = point g false r p.id) (runs g c [] l) new := by
  unfold fillTrack
  generalize runs g c [] l = rs
  induction rs using List.reverseRecOn with
  | nil => exact ⟨s, [], rfl, hs, by simp, fun _ _ h => h, by simp, List.Forall₂.nil⟩
  | append_singleton rs r ih =>
    obtain ⟨o, new, h1, h2, h3, h4, h5, h6⟩ := ih
    have hnew : (o.hitMap.length : Int) ∉ o.hitMap.map Prod.fst := by
      rw [h2, List.mem_map]
      rintro ⟨n, hn, e⟩
      have := List.mem_range.1 hn
      omega
    have hstep : fillRuns g o r = some ⟨o.map, o.hitMap ++ [((o.hitMap.length : Int), r)], o.spts ++ [point g false r o.hitMap.length]⟩ := by
      unfold fillRuns remember
      rw [if_neg hnew]
      rfl
    have hsize : o.hitMap.length = s.hitMap.length + rs.length := by
      have key : ∀ (rs : List (List Hit)) (s o : St), rs.foldlM (fillRuns g) s = some o → o.hitMap.length = s.hitMap.length + rs.length := by
        intro rs
        induction rs with
        | nil =>
          intro s o h
          obtain rfl : s = o := Option.some.inj h
          simp
        | cons r rs ih =>
          intro s o h
          rw [List.foldlM_cons] at h
          cases hf : fillRuns g s r with
          | none => rw [hf] at h; cases h
          | some s' =>
            rw [hf] at h
            have := ih s' o h
            unfold fillRuns remember at hf
            split at hf
            · cases hf
            · have hf := Option.some.inj hf
              rw [this, ← hf]
              simp
              omega
      exact key rs s o h1
    refine ⟨_, new ++ [point g false r o.hitMap.length], by rw [List.foldlM_append, h1]; show ([r].foldlM (fillRuns g) o : Option St) = _; rw [List.foldlM_cons, hstep]; rfl, ?_, ?_, ?_, ?_, ?_⟩
    · show (o.hitMap ++ _).map Prod.fst = _
      unfold Counted at h2
      simp only [List.map_append, h2, List.length_append, List.length_singleton, List.range_succ, List.map_cons, List.map_nil]
    · show o.spts ++ _ = _
      rw [h3, List.append_assoc]
    · intro id x h
      exact assoc_append (h4 id x h)
    · rw [List.map_append, h5, List.length_append, List.length_singleton, List.range_succ, List.map_append]
      simp [point, hsize]
    · refine List.rel_append ?_ (List.Forall₂.cons ⟨assoc_new hnew, rfl⟩ List.Forall₂.nil)
      refine h6.imp ?_
      rintro r p ⟨a1, a2⟩
      exact ⟨assoc_append a1, a2⟩

/-- five hits along a track: a group of three, a single hit, a group of two -/
example : runs (exGeo3 1) exCfg [] [⟨0, 0, 0, 0, 4, 10, 1⟩, ⟨1, 0, 1, 1, 2, 11, 1⟩, ⟨2, 0, 2, 2, 4, 12, 1⟩, ⟨3, 0, 0, 0, 5, 30, 1⟩, ⟨4, 0, 0, 0, 6, 40, 1⟩,
    ⟨5, 0, 1, 1, 2, 41, 1⟩] = [exHits, [⟨4, 0, 0, 0, 6, 40, 1⟩, ⟨5, 0, 1, 1, 2, 41, 1⟩]] := by decide +kernel

example : Counted ⟨[], [], []⟩ := rfl

end Verif.SpAlg

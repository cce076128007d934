import Verif.TrkSep.Model
import Mathlib.Tactic.Linarith
import Mathlib.Tactic.Ring
import Mathlib.Tactic.FieldSimp
import Mathlib.Algebra.BigOperators.Group.List.Basic

namespace Verif.TrkSep

/-- A track, and nothing else. -/
def Marks.isT (m : Marks) : Prop := m = ⟨true, false, false, false⟩
/-- A shower, of one of two kinds. -/
def Marks.isS (m : Marks) : Prop := m = ⟨false, true, true, false⟩ ∨ m = ⟨false, true, false, true⟩

theorem typeTwo_keys (c : Cfg) : ∀ (r pre : List Trk), (typeTwo c pre r).map Trk.key = (pre ++ r).map Trk.key
  | [], pre => by simp [typeTwo]
  | t :: r, pre => by
    unfold typeTwo
    split
    · rw [typeTwo_keys c r]; simp
    · split
      · rw [typeTwo_keys c r]; simp
      · rw [typeTwo_keys c r]; simp

theorem typeOne_keys (c : Cfg) (sps : List SP) (ts : List Trk) : (typeOne c sps ts).map Trk.key = ts.map Trk.key := by
  unfold typeOne
  rw [List.map_map]
  apply List.map_congr_left
  intro t _
  simp only [Function.comp]
  split <;> rfl

theorem showers_keys (c : Cfg) (ssps : List SP) : ∀ (ts r : List Trk), showers c ssps ts = some r → r.map Trk.key = ts.map Trk.key
  | [], r, h => by simp [showers] at h; subst h; rfl
  | t :: ts, r, h => by
    unfold showers at h
    split at h
    · simp at h
    · rename_i co _
      rw [Option.map_eq_some_iff] at h
      obtain ⟨r', h1, rfl⟩ := h
      rw [List.map_cons, List.map_cons, showers_keys c ssps ts r' h1]
      congr 1
      unfold decideOne
      split
      · split <;> rfl
      · rfl

theorem coneOf_keys (c : Cfg) (s : Trk) (ts : List Trk) : (coneOf c s ts).map Trk.key = ts.map Trk.key := by
  unfold coneOf
  rw [List.map_map]
  apply List.map_congr_left
  intro t _
  simp only [Function.comp]
  split <;> rfl

theorem fold_inv {P : List Trk → Prop} (c : Cfg) (h : ∀ s ts, P ts → P (coneOf c s ts)) : ∀ (is : List Nat) (ts : List Trk), P ts →
    P (is.foldl (fun ts i => match ts[i]? with | none => ts | some s => if s.m.shower then coneOf c s ts else ts) ts)
  | [], ts, hp => hp
  | i :: is, ts, hp => by
    rw [List.foldl_cons]
    apply fold_inv c h is
    split
    · exact hp
    · split
      · exact h _ _ hp
      · exact hp

theorem rest_coneOf (c : Cfg) (s : Trk) (ts : List Trk) : rest (coneOf c s ts) = rest ts := by
  unfold rest coneOf
  rw [List.map_map]
  apply List.map_congr_left
  intro t _
  simp only [Function.comp]
  split
  · rename_i h
    have hu := h.2.1
    have ht : t.m.track = false := by
      unfold Marks.undetermined at hu
      simp at hu
      exact hu.1
    rw [if_pos hu]
    simp [Marks.makeShower, ht, Marks.makeShowerCone, Marks.undetermined]
  · rfl

/-- C418: the search for tracks in the cones of showers has no effect on the result: all tracks that are not determined become shower cones anyway. -/
theorem C418_noop (c : Cfg) (ts : List Trk) : rest (showersTwo c ts) = rest ts := by
  unfold showersTwo
  exact fold_inv (P := fun l => rest l = rest ts) c (fun s l h => (rest_coneOf c s l).trans h) _ ts rfl

/-- Marks as the code makes them. -/
def Marks.Ok (m : Marks) : Prop := m = Marks.new ∨ m.isT ∨ m.isS

theorem rest_marks (ts : List Trk) (h : ∀ t ∈ ts, t.m.Ok) : ∀ t ∈ rest ts, t.m.isT ∨ t.m.isS := by
  intro t ht
  unfold rest at ht
  obtain ⟨u, hu, rfl⟩ := List.mem_map.1 ht
  rcases h u hu with e | e | e
  · have : u.m.undetermined = true := by rw [e]; rfl
    rw [if_pos this]
    exact Or.inr (Or.inr (by show u.m.makeShower = _; rw [e]; rfl))
  · have : u.m.undetermined = false := by rw [e]; rfl
    rw [if_neg (by simp [this])]
    exact Or.inl e
  · have : u.m.undetermined = false := by rcases e with e | e <;> (rw [e]; rfl)
    rw [if_neg (by simp [this])]
    exact Or.inr e

theorem showers_ok (c : Cfg) (ssps : List SP) : ∀ (ts r : List Trk), showers c ssps ts = some r → (∀ t ∈ ts, t.m.Ok) → ∀ t ∈ r, t.m.Ok
  | [], r, h, _ => by simp [showers] at h; subst h; simp
  | t :: ts, r, h, ho => by
    unfold showers at h
    split at h
    · simp at h
    · rename_i co _
      rw [Option.map_eq_some_iff] at h
      obtain ⟨r', h1, rfl⟩ := h
      intro u hu
      rcases List.mem_cons.1 hu with rfl | hu
      · have hs : t.m.makeShower.isS := by
          unfold Marks.makeShower
          split
          · exact Or.inl rfl
          · exact Or.inr rfl
        unfold decideOne
        split
        · split
          · exact Or.inr (Or.inr hs)
          · exact Or.inr (Or.inr hs)
        · exact ho t (by simp)
      · exact showers_ok c ssps ts r' h1 (fun x hx => ho x (by simp [hx])) u hu

theorem typeTwo_ok (c : Cfg) : ∀ (r pre : List Trk), (∀ t ∈ pre ++ r, t.m.Ok) → ∀ t ∈ typeTwo c pre r, t.m.Ok
  | [], pre, h => by simpa [typeTwo] using h
  | t :: r, pre, h => by
    unfold typeTwo
    have h' : ∀ x ∈ (pre ++ [t]) ++ r, x.m.Ok := by simpa using h
    split
    · exact typeTwo_ok c r _ h'
    · split
      · apply typeTwo_ok c r
        intro x hx
        simp only [List.append_assoc, List.mem_append, List.mem_cons, List.not_mem_nil, or_false] at hx h
        rcases hx with hx | rfl | hx
        · exact h x (Or.inl hx)
        · exact Or.inr (Or.inl rfl)
        · exact h x (Or.inr (Or.inr hx))
      · exact typeTwo_ok c r _ h'

theorem typeOne_ok (c : Cfg) (sps : List SP) (ts : List Trk) : ∀ t ∈ typeOne c sps (ts.map fun t => { t with m := Marks.new }), t.m.Ok := by
  intro t ht
  unfold typeOne at ht
  obtain ⟨u, hu, rfl⟩ := List.mem_map.1 ht
  obtain ⟨w, _, rfl⟩ := List.mem_map.1 hu
  split
  · exact Or.inr (Or.inl rfl)
  · exact Or.inl rfl

theorem rest_keys (ts : List Trk) : (rest ts).map Trk.key = ts.map Trk.key := by
  unfold rest
  rw [List.map_map]
  apply List.map_congr_left
  intro t _
  simp only [Function.comp]
  split <;> rfl

/-- C414: at the end each track is a track or a shower of one of the two kinds, and only one of these, and the tracks are those given, in order. -/
theorem C414_final (c : Cfg) (ts : List Trk) (sps : List SP) (hits : List Hit) (r : List Trk) (out : List Hit) (h : select c ts sps hits = some (r, out)) :
    r.map Trk.key = ts.map Trk.key ∧ ∀ t ∈ r, t.m.isT ∨ t.m.isS := by
  unfold select at h
  dsimp only at h
  split at h
  · simp at h
  · rename_i ssps _
    split at h
    · simp at h
    · rename_i t3 e
      rw [Option.map_eq_some_iff] at h
      obtain ⟨o, _, he⟩ := h
      simp only [Prod.mk.injEq] at he
      obtain ⟨rfl, rfl⟩ := he
      rw [C418_noop]
      refine ⟨?_, ?_⟩
      · rw [rest_keys, showers_keys c _ _ _ e, typeTwo_keys, List.nil_append, typeOne_keys, List.map_map]
        rfl
      · exact rest_marks _ (showers_ok c _ _ _ e (typeTwo_ok c _ _ (by simpa using typeOne_ok c sps ts)))

/-- Two tracks, a space point of each, and hits. -/
def exC : Cfg := ⟨1, 1, 1 / 2, fun v d => decide (0 < v.dot d) && decide (v.mag2 * d.mag2 * 9 < v.dot d * v.dot d * 10)⟩
def exT : List Trk := [⟨0, ⟨0, 0, 0⟩, ⟨10, 0, 0⟩, ⟨1, 0, 0⟩, 10, Marks.new⟩, ⟨1, ⟨0, 50, 0⟩, ⟨0, 59, 0⟩, ⟨0, 1, 0⟩, 1, Marks.new⟩]
def exS : List SP := [⟨⟨1, 0, 0⟩, [0]⟩, ⟨⟨0, 51, 0⟩, [1]⟩, ⟨⟨0, 52, 0⟩, [0]⟩]

example : (select exC exT exS [⟨0, [0]⟩, ⟨1, [1]⟩, ⟨2, []⟩]).map (fun x => (x.1.map fun t => (t.m.track, t.m.shower), x.2.map Hit.id)) = some ([(true, false), (false, true)], [1, 2]) := by decide +kernel

/-! ## C415 -/

theorem average_fin (c : Cfg) (sps : List SP) (ts : List Trk) (h : ∀ t ∈ ts, 0 < t.nsp) (hne : ts ≠ []) :
    average c sps ts = .fin ((ts.map fun t => (cylinder c sps t : ℚ) / t.nsp).sum / ts.length) := by
  have key : ∀ (l : List Trk) (q : ℚ), (∀ t ∈ l, 0 < t.nsp) → l.foldl (fun s t => F.add s (ratio c sps t)) (.fin q) = .fin (q + (l.map fun t => (cylinder c sps t : ℚ) / t.nsp).sum) := by
    intro l
    induction l with
    | nil => intro q _; simp
    | cons t l ih =>
      intro q hl
      have h0 : t.nsp ≠ 0 := by have := hl t (by simp); omega
      rw [List.foldl_cons]
      have e : F.add (.fin q) (ratio c sps t) = .fin (q + (cylinder c sps t : ℚ) / t.nsp) := by
        unfold ratio F.ofCounts
        rw [if_neg h0]
        rfl
      rw [e, ih _ (fun x hx => hl x (by simp [hx])), List.map_cons, List.sum_cons, add_assoc]
  unfold average
  rw [key ts 0 h, zero_add]
  have : (ts.length : ℚ) ≠ 0 := by
    have := List.length_pos_iff.2 hne
    positivity
  unfold F.div
  simp [this, hne]

/-- C415: if each track has space points and the mean of the ratios is not 0, then a track is marked at first exactly if its ratio is below the cut times the mean. -/
theorem C415_first_partial (c : Cfg) (sps : List SP) (ts : List Trk) (h : ∀ t ∈ ts, 0 < t.nsp) (hpos : 0 < (ts.map fun t => (cylinder c sps t : ℚ) / t.nsp).sum / ts.length) :
    typeOne c sps ts = ts.map fun t => if (cylinder c sps t : ℚ) / t.nsp < c.cylCut * ((ts.map fun t => (cylinder c sps t : ℚ) / t.nsp).sum / ts.length) then { t with m := ⟨true, false, false, false⟩ } else t := by
  unfold typeOne
  apply List.map_congr_left
  intro t ht
  have hne : ts ≠ [] := List.ne_nil_of_mem ht
  rw [average_fin c sps ts h hne]
  have h0 : t.nsp ≠ 0 := by have := h t ht; omega
  have e : F.lt (F.div (ratio c sps t) (.fin ((ts.map fun t => (cylinder c sps t : ℚ) / t.nsp).sum / ts.length))) c.cylCut
      = decide ((cylinder c sps t : ℚ) / t.nsp < c.cylCut * ((ts.map fun t => (cylinder c sps t : ℚ) / t.nsp).sum / ts.length)) := by
    unfold ratio F.ofCounts F.div
    rw [if_neg h0]
    simp only
    rw [if_neg (ne_of_gt hpos)]
    unfold F.lt
    simp only [decide_eq_decide]
    rw [div_lt_iff₀ hpos]
  rw [e]
  simp only [decide_eq_true_eq]
  rfl

example : (∀ t ∈ exT, 0 < t.nsp) ∧ 0 < (exT.map fun t => (cylinder exC exS t : ℚ) / t.nsp).sum / exT.length := by decide +kernel

/-- C415: if no space point is near any track, no track is marked, however straight the tracks are. -/
theorem C415_refuted (c : Cfg) (sps : List SP) (ts : List Trk) (h : ∀ t ∈ ts, 0 < t.nsp) (h0 : ∀ t ∈ ts, cylinder c sps t = 0) : typeOne c sps ts = ts := by
  unfold typeOne
  conv_rhs => rw [← List.map_id ts]
  apply List.map_congr_left
  intro t ht
  have hne : ts ≠ [] := List.ne_nil_of_mem ht
  have hs : (ts.map fun t => (cylinder c sps t : ℚ) / t.nsp).sum = 0 := by
    apply List.sum_eq_zero
    intro x hx
    obtain ⟨u, hu, rfl⟩ := List.mem_map.1 hx
    rw [h0 u hu]
    simp
  rw [average_fin c sps ts h hne, hs, zero_div]
  have hn : t.nsp ≠ 0 := by have := h t ht; omega
  unfold ratio F.ofCounts F.div
  rw [if_neg hn, h0 t ht]
  simp [F.lt]

example : (∀ t ∈ exT, 0 < t.nsp) ∧ ∀ t ∈ exT, cylinder exC [] t = 0 := by decide +kernel

theorem foldl_nan (c : Cfg) (sps : List SP) : ∀ l : List Trk, l.foldl (fun s t => F.add s (ratio c sps t)) .nan = .nan
  | [] => rfl
  | t :: l => by rw [List.foldl_cons]; exact foldl_nan c sps l

/-- C415: one track without space points and with nothing around it prevents that any track is marked. -/
theorem C415_refuted_nan (c : Cfg) (sps : List SP) (ts : List Trk) (t0 : Trk) (hm : t0 ∈ ts) (hn : t0.nsp = 0) (h0 : cylinder c sps t0 = 0) : typeOne c sps ts = ts := by
  have key : ∀ (l : List Trk) (s : F), t0 ∈ l → l.foldl (fun s t => F.add s (ratio c sps t)) s = .nan := by
    intro l
    induction l with
    | nil => intro s h; simp at h
    | cons t l ih =>
      intro s h
      rw [List.foldl_cons]
      rcases List.mem_cons.1 h with rfl | h
      · have : ratio c sps t0 = .nan := by unfold ratio F.ofCounts; simp [hn, h0]
        rw [this]
        have : F.add s .nan = .nan := by cases s <;> rfl
        rw [this]
        exact foldl_nan c sps l
      · exact ih _ h
  have ha : average c sps ts = .nan := by unfold average; rw [key ts _ hm]; rfl
  unfold typeOne
  conv_rhs => rw [← List.map_id ts]
  apply List.map_congr_left
  intro t _
  rw [ha]
  have : F.div (ratio c sps t) .nan = .nan := by cases ratio c sps t <;> rfl
  rw [this]
  rfl

example : (⟨5, ⟨0, 0, 0⟩, ⟨0, 0, 0⟩, ⟨1, 0, 0⟩, 0, Marks.new⟩ : Trk) ∈ exT ++ [⟨5, ⟨0, 0, 0⟩, ⟨0, 0, 0⟩, ⟨1, 0, 0⟩, 0, Marks.new⟩] ∧ cylinder exC [] ⟨5, ⟨0, 0, 0⟩, ⟨0, 0, 0⟩, ⟨1, 0, 0⟩, 0, Marks.new⟩ = 0 := by decide +kernel

/-- C415: what the cylinder counts: the space points not of the track nearer than the radius to the line (for a direction of length 1 the square of the distance is that of the difference less that of
its part along the direction). -/
theorem C415_cylinder (c : Cfg) (hr : 0 < c.radius) (sps : List SP) (t : Trk) (hd : t.dir.dot t.dir = 1) :
    cylinder c sps t = (sps.filter fun s => decide (t.key ∉ s.trks) && decide ((s.pos.sub t.vtx).dot (s.pos.sub t.vtx) - ((s.pos.sub t.vtx).dot t.dir) ^ 2 < c.radius ^ 2)).length := by
  unfold cylinder
  congr 1
  apply List.filter_congr
  intro s _
  have e : (s.pos.sub (proj s.pos t.dir t.vtx)).mag2 = (s.pos.sub t.vtx).dot (s.pos.sub t.vtx) - ((s.pos.sub t.vtx).dot t.dir) ^ 2 := by
    have : (s.pos.sub (proj s.pos t.dir t.vtx)).mag2 = (s.pos.sub t.vtx).dot (s.pos.sub t.vtx) - 2 * ((s.pos.sub t.vtx).dot t.dir) ^ 2 + ((s.pos.sub t.vtx).dot t.dir) ^ 2 * (t.dir.dot t.dir) := by
      simp only [proj, V3.mag2, V3.dot, V3.sub, V3.add, V3.smul]
      ring
    rw [this, hd]
    ring
  unfold shorter
  rw [e, pow_two c.radius]
  simp [hr]

example : (⟨0, ⟨0, 0, 0⟩, ⟨10, 0, 0⟩, ⟨1, 0, 0⟩, 10, Marks.new⟩ : Trk).dir.dot ⟨1, 0, 0⟩ = 1 := by decide +kernel

end Verif.TrkSep

import Verif.GFPlane.Thm

/-! # Planes of the Genfit fitter: conversions, lines, equality and histories -/

namespace Verif.GFPlane

/-- Specification: the points of the plane are those whose difference from the origin is orthogonal to the normal. -/
def OnPlane (p : Plane) (x : V3) : Prop := dot (sub x p.o) (cross p.u p.v) = 0

/-- Specification: square of the distance of two points. -/
def dist2 (a b : V3) : ℝ := (a.x - b.x) ^ 2 + (a.y - b.y) ^ 2 + (a.z - b.z) ^ 2

theorem dot_smul_add (p : Plane) (h : Frame p) (a b : ℝ) : dot p.u (add (smul a p.u) (smul b p.v)) = a ∧ dot p.v (add (smul a p.u) (smul b p.v)) = b := by
  have h1 := h.uu; have h2 := h.vv; have h3 := h.uv
  unfold dot at *
  unfold add smul
  dsimp only
  constructor
  · linear_combination a * h1 + b * h3
  · linear_combination a * h3 + b * h2

/-- A vector is the sum of its parts along the axes and the normal. -/
theorem decompose (p : Plane) (h : Frame p) (d : V3) : d = add (add (smul (dot p.u d) p.u) (smul (dot p.v d) p.v)) (smul (dot d (cross p.u p.v)) (cross p.u p.v)) := by
  have h1 := h.uu; have h2 := h.vv; have h3 := h.uv
  have hl : ∀ e : V3, dot e p.u = 0 → dot e p.v = 0 → dot e (cross p.u p.v) = 0 → e = zero := by
    intro e e1 e2 e3
    by_contra hne
    have hpos := dot_pos e hne
    -- |e|² |u×v|² = (e·(u×v))² + ... for e orthogonal to u and v: e × (u × v) = u (e·v) − v (e·u) = 0
    have hc : dot (cross p.u p.v) (cross p.u p.v) = 1 := by
      have : dot (cross p.u p.v) (cross p.u p.v) = dot p.u p.u * dot p.v p.v - dot p.u p.v * dot p.u p.v := by unfold dot cross; ring
      rw [this, h1, h2, h3]; ring
    have hx : cross e (cross p.u p.v) = sub (smul (dot e p.v) p.u) (smul (dot e p.u) p.v) := by unfold cross dot sub smul; ext <;> dsimp only <;> ring
    rw [e1, e2] at hx
    have hlag : dot (cross e (cross p.u p.v)) (cross e (cross p.u p.v)) = dot e e * dot (cross p.u p.v) (cross p.u p.v) - dot e (cross p.u p.v) * dot e (cross p.u p.v) := by
      unfold dot cross; ring
    rw [hc, e3, hx] at hlag
    have : dot (sub (smul 0 p.u) (smul 0 p.v)) (sub (smul 0 p.u) (smul 0 p.v)) = 0 := by unfold dot sub smul; ring
    rw [this] at hlag
    linarith
  have hc : dot (cross p.u p.v) (cross p.u p.v) = 1 := by
    have : dot (cross p.u p.v) (cross p.u p.v) = dot p.u p.u * dot p.v p.v - dot p.u p.v * dot p.u p.v := by unfold dot cross; ring
    rw [this, h1, h2, h3]; ring
  have hz := hl (sub d (add (add (smul (dot p.u d) p.u) (smul (dot p.v d) p.v)) (smul (dot d (cross p.u p.v)) (cross p.u p.v)))) (by
      have hcu := (dot_self_cross p.u p.v).1
      generalize cross p.u p.v = n at *
      unfold dot sub add smul at *
      dsimp only at *
      linear_combination (-(p.u.x * d.x + p.u.y * d.y + p.u.z * d.z)) * h1 - (p.v.x * d.x + p.v.y * d.y + p.v.z * d.z) * h3 - (d.x * n.x + d.y * n.y + d.z * n.z) * hcu) (by
      have hcv := (dot_self_cross p.u p.v).2
      generalize cross p.u p.v = n at *
      unfold dot sub add smul at *
      dsimp only at *
      linear_combination (-(p.u.x * d.x + p.u.y * d.y + p.u.z * d.z)) * h3 - (p.v.x * d.x + p.v.y * d.y + p.v.z * d.z) * h2 - (d.x * n.x + d.y * n.y + d.z * n.z) * hcv) (by
      have hcu := (dot_self_cross p.u p.v).1
      have hcv := (dot_self_cross p.u p.v).2
      generalize cross p.u p.v = n at *
      unfold dot sub add smul at *
      dsimp only at *
      linear_combination (-(p.u.x * d.x + p.u.y * d.y + p.u.z * d.z)) * hcu - (p.v.x * d.x + p.v.y * d.y + p.v.z * d.z) * hcv - (d.x * n.x + d.y * n.y + d.z * n.z) * hc)
  have hx := congrArg V3.x hz
  have hy := congrArg V3.y hz
  have hzz := congrArg V3.z hz
  simp only [sub, zero] at hx hy hzz
  ext
  · exact sub_eq_zero.mp hx
  · exact sub_eq_zero.mp hy
  · exact sub_eq_zero.mp hzz

/-- C399: plane coordinates of the lab point of plane coordinates are the same; the lab point is on the plane, and every point of the plane is the lab point of its plane coordinates. -/
theorem C399_inverse (p : Plane) (h : Frame p) : (∀ x : ℝ × ℝ, toPlane p (toLab p x) = x ∧ OnPlane p (toLab p x)) ∧ ∀ y, OnPlane p y → toLab p (toPlane p y) = y := by
  constructor
  · intro x
    have hd : sub (toLab p x) p.o = add (smul x.1 p.u) (smul x.2 p.v) := by
      unfold toLab sub add smul
      ext <;> dsimp only <;> ring
    constructor
    · unfold toPlane project
      rw [hd, (dot_smul_add p h _ _).1, (dot_smul_add p h _ _).2]
    · unfold OnPlane
      rw [hd]
      unfold dot add smul cross
      dsimp only
      ring
  · intro y hy
    have hdec := decompose p h (sub y p.o)
    unfold OnPlane at hy
    rw [hy] at hdec
    unfold toLab toPlane project
    have hx := congrArg V3.x hdec
    have hyy := congrArg V3.y hdec
    have hz := congrArg V3.z hdec
    simp only [sub, add, smul] at hx hyy hz ⊢
    ext
    · dsimp only; linarith
    · dsimp only; linarith
    · dsimp only; linarith

/-- C403: the vector to the plane is along the normal and leads to the plane; its length is the distance, which is the smallest to any point of the plane and zero exactly on it. -/
theorem C403_distance (p : Plane) (h : Frame p) (x : V3) :
    OnPlane p (add x (dist p x)) ∧ (∃ k, dist p x = smul k (cross p.u p.v)) ∧ distance p x = mag (dist p x) ∧ 0 ≤ distance p x ∧
    (∀ y, OnPlane p y → distance p x ^ 2 ≤ dist2 x y) ∧ (distance p x = 0 ↔ OnPlane p x) := by
  have hadd : add x (dist p x) = toLab p (toPlane p x) := by unfold dist add sub; ext <;> dsimp only <;> ring
  have hc : dot (cross p.u p.v) (cross p.u p.v) = 1 := by
    have : dot (cross p.u p.v) (cross p.u p.v) = dot p.u p.u * dot p.v p.v - dot p.u p.v * dot p.u p.v := by unfold dot cross; ring
    rw [this, h.uu, h.vv, h.uv]; ring
  have hk : dist p x = smul (-(dot (sub x p.o) (cross p.u p.v))) (cross p.u p.v) := by
    have hdec := decompose p h (sub x p.o)
    have hx := congrArg V3.x hdec
    have hyy := congrArg V3.y hdec
    have hz := congrArg V3.z hdec
    unfold dist toLab toPlane project
    generalize cross p.u p.v = n at *
    simp only [sub, add, smul] at hx hyy hz ⊢
    ext
    · dsimp only; linarith
    · dsimp only; linarith
    · dsimp only; linarith
  have hdm : distance p x = mag (dist p x) := by
    unfold distance
    have : sub (sub (sub x p.o) (smul (dot (sub x p.o) p.u) p.u)) (smul (dot (sub x p.o) p.v) p.v) = smul (-1) (dist p x) := by
      unfold dist toLab toPlane project sub add smul dot
      ext <;> dsimp only <;> ring
    dsimp only
    rw [this]
    unfold mag
    rw [show dot (smul (-1) (dist p x)) (smul (-1) (dist p x)) = dot (dist p x) (dist p x) by unfold dot smul; ring]
  have hsq : distance p x ^ 2 = dot (sub x p.o) (cross p.u p.v) ^ 2 := by
    rw [hdm, sq, mag_sq, hk]
    rw [show ∀ (k : ℝ) (a : V3), dot (smul k a) (smul k a) = k ^ 2 * dot a a from fun k a => by unfold dot smul; ring, hc]
    ring
  refine ⟨?_, ⟨_, hk⟩, hdm, by rw [hdm]; exact Real.sqrt_nonneg _, fun y hy => ?_, ?_⟩
  · rw [hadd]; exact ((C399_inverse p h).1 _).2
  · rw [hsq]
    have e : dot (sub x p.o) (cross p.u p.v) = dot (sub x y) (cross p.u p.v) := by
      unfold OnPlane at hy
      generalize cross p.u p.v = n at *
      unfold dot sub at *
      dsimp only at *
      linear_combination hy
    rw [e]
    generalize hn : cross p.u p.v = n at *
    have hcs : dot (sub x y) n ^ 2 ≤ dot (sub x y) (sub x y) * dot n n := by
      have : dot (sub x y) (sub x y) * dot n n - dot (sub x y) n ^ 2 = dot (cross (sub x y) n) (cross (sub x y) n) := by unfold dot cross; ring
      have := dot_nonneg (cross (sub x y) n)
      linarith
    rw [hc, mul_one] at hcs
    have : dot (sub x y) (sub x y) = dist2 x y := by unfold dot sub dist2; ring
    rw [← this]; exact hcs
  · unfold OnPlane
    constructor
    · intro h0
      rw [h0] at hsq
      exact pow_eq_zero_iff (n := 2) (by norm_num) |>.mp (by rw [← hsq]; ring)
    · intro h0
      rw [h0] at hsq
      exact pow_eq_zero_iff (n := 2) (by norm_num) |>.mp (by rw [hsq]; ring)

/-! ### C400: lines -/

theorem normal_eq (p : Plane) (h : Frame p) : p.normal = cross p.u p.v ∧ dot (cross p.u p.v) (cross p.u p.v) = 1 := by
  have hc : dot (cross p.u p.v) (cross p.u p.v) = 1 := by
    have : dot (cross p.u p.v) (cross p.u p.v) = dot p.u p.u * dot p.v p.v - dot p.u p.v * dot p.u p.v := by unfold dot cross; ring
    rw [this, h.uu, h.vv, h.uv]; ring
  exact ⟨unit_of_unit _ hc, hc⟩

/-- C400: for a line that is not nearly parallel to the plane, the coordinates given are those of the one point of the line that is on the plane. -/
theorem C400_line_partial (p : Plane) (h : Frame p) (point dir : V3) (hd : 1 / 1000000 ≤ |dot (unit dir) p.normal|) :
    ∃ t, OnPlane p (add point (smul t dir)) ∧ toLab p (lineToPlane p point dir) = add point (smul t dir) ∧ ∀ t', OnPlane p (add point (smul t' dir)) → t' = t := by
  obtain ⟨hn, hc⟩ := normal_eq p h
  have hdir : dir ≠ zero := by
    rintro rfl
    rw [unit_zero] at hd
    have : dot zero p.normal = 0 := by unfold dot zero; ring
    rw [this] at hd
    norm_num at hd
  obtain ⟨k, hk, hkd, _⟩ := unit_spec dir hdir
  have hl : lineToPlane p point dir = toPlane p (add point (smul (1 / dot (unit dir) p.normal * dot (sub p.o point) p.normal) (unit dir))) := by
    unfold lineToPlane
    dsimp only
    rw [if_neg (not_lt.mpr hd)]
    unfold toPlane
    congr 1
    unfold add sub smul
    ext <;> dsimp only <;> ring
  have hne : dot (unit dir) p.normal ≠ 0 := by intro e; rw [e] at hd; norm_num at hd
  have hkt : dot (unit dir) p.normal = k * dot dir p.normal := by rw [hkd]; unfold dot smul; ring
  have hne' : dot dir p.normal ≠ 0 := by intro e; rw [hkt, e, mul_zero] at hne; exact hne rfl
  have hpt : ∀ t, dot (sub (add point (smul t dir)) p.o) (cross p.u p.v) = t * dot dir p.normal - dot (sub p.o point) p.normal := by
    intro t
    rw [hn]
    generalize cross p.u p.v = n
    unfold dot sub add smul
    ring
  have heq : smul (1 / dot (unit dir) p.normal * dot (sub p.o point) p.normal) (unit dir) = smul (dot (sub p.o point) p.normal / dot dir p.normal) dir := by
    rw [hkt, hkd]
    unfold smul
    ext <;> dsimp only <;> field_simp
  have hon : OnPlane p (add point (smul (dot (sub p.o point) p.normal / dot dir p.normal) dir)) := by
    unfold OnPlane
    rw [hpt]
    field_simp
    ring
  refine ⟨_, hon, ?_, fun t' ht => ?_⟩
  · rw [hl, heq]
    exact (C399_inverse p h).2 _ hon
  · unfold OnPlane at ht
    rw [hpt] at ht
    rw [eq_div_iff hne']
    linarith

/-- The plane x = y = 0 with origin, for examples. -/
def exP : Plane := ⟨⟨0, 0, 0⟩, ⟨1, 0, 0⟩, ⟨0, 1, 0⟩⟩

theorem exP_frame : Frame exP := by constructor <;> (unfold exP dot; norm_num)

example : 1 / 1000000 ≤ |dot (unit ⟨0, 0, 1⟩) exP.normal| := by
  rw [(normal_eq exP exP_frame).1, unit_of_unit ⟨0, 0, 1⟩ (by unfold dot; norm_num)]
  unfold exP dot cross
  norm_num

/-- C400: a line parallel to the plane has the coordinates 10^100 even if it is in the plane, and so have lines that cross the plane at a very small angle. -/
theorem C400_refuted (p : Plane) (point dir : V3) (hd : |dot (unit dir) p.normal| < 1 / 1000000) : lineToPlane p point dir = (10 ^ 100, 10 ^ 100) := by
  unfold lineToPlane
  dsimp only
  rw [if_pos hd]

/-! ### C401: equality -/

/-- Specification: two vectors are equal within 0.00001 in each coordinate. -/
def Near (a b : V3) : Prop := |a.x - b.x| ≤ 1 / 100000 ∧ |a.y - b.y| ≤ 1 / 100000 ∧ |a.z - b.z| ≤ 1 / 100000

theorem same_iff (a b : Plane) : same a b = true ↔ Near a.o b.o ∧ Near a.u b.u ∧ Near a.v b.v := by
  have e : ∀ x y : V3, ¬ differ x y ↔ Near x y := by
    intro x y
    unfold differ Near
    push Not
    rfl
  unfold same
  rw [← e, ← e, ← e]
  split
  · next h => simp [h]
  · split
    · next h => simp [h]
    · split
      · next h => simp [h]
      · next h1 h2 h3 => simp [h1, h2, h3]

/-- C401: planes are equal exactly if origins and axes agree within 0.00001 in each coordinate; equality is reflexive and symmetric. -/
theorem C401_equal_partial (a b : Plane) : (same a b = true ↔ Near a.o b.o ∧ Near a.u b.u ∧ Near a.v b.v) ∧ same a a = true ∧ same a b = same b a := by
  refine ⟨same_iff a b, ?_, ?_⟩
  · rw [same_iff]
    have : ∀ x : V3, Near x x := by intro x; unfold Near; simp
    exact ⟨this _, this _, this _⟩
  · have hs : ∀ x y : V3, Near x y → Near y x := by
      intro x y h
      unfold Near at *
      rw [abs_sub_comm y.x, abs_sub_comm y.y, abs_sub_comm y.z]
      exact h
    rw [Bool.eq_iff_iff, same_iff, same_iff]
    exact ⟨fun h => ⟨hs _ _ h.1, hs _ _ h.2.1, hs _ _ h.2.2⟩, fun h => ⟨hs _ _ h.1, hs _ _ h.2.1, hs _ _ h.2.2⟩⟩

/-- C401: equality is not transitive, and two descriptions of the same plane are different planes. -/
theorem C401_refuted : (¬ ∀ a b c : Plane, same a b = true → same b c = true → same a c = true) ∧
    ¬ ∀ a b : Plane, Frame a → Frame b → (∀ x, OnPlane a x ↔ OnPlane b x) → same a b = true := by
  constructor
  · intro h
    have := h exP ⟨⟨1 / 100000, 0, 0⟩, ⟨1, 0, 0⟩, ⟨0, 1, 0⟩⟩ ⟨⟨2 / 100000, 0, 0⟩, ⟨1, 0, 0⟩, ⟨0, 1, 0⟩⟩
      (by rw [same_iff]; unfold exP Near; norm_num) (by rw [same_iff]; unfold Near; norm_num)
    rw [same_iff] at this
    have := this.1.1
    unfold exP at this
    norm_num at this
  · intro h
    have := h exP ⟨⟨1, 0, 0⟩, ⟨1, 0, 0⟩, ⟨0, 1, 0⟩⟩ exP_frame (by constructor <;> (unfold dot; norm_num)) (by
      intro x
      unfold OnPlane exP dot sub cross
      norm_num)
    rw [same_iff] at this
    have := this.1.1
    unfold exP at this
    norm_num at this

/-! ### C402: histories -/

/-- Specification: no zero vectors for the first axis or the normal. -/
def Op.Good : Op → Prop
  | .set _ u _ => u ≠ zero
  | .setO _ => True
  | .setU u => u ≠ zero
  | .setV _ => True
  | .setUV u _ => u ≠ zero
  | .setON _ n => n ≠ zero
  | .setN n => n ≠ zero

/-- The plane after calls; `none` once an exception is thrown. -/
noncomputable def run : Plane → List Op → Option Plane
  | p, [] => some p
  | p, o :: rest => if (apply p o).2 = true then none else run (apply p o).1 rest

theorem sane_frame (o u v : V3) (hu : u ≠ zero) (h : ¬ (sane ⟨o, u, v⟩).2 = true) : Frame (sane ⟨o, u, v⟩).1 := by
  rw [C397_throws] at h
  push Not at h
  obtain ⟨p, hs, hf, _⟩ := C397_axes o u v (h.2 hu)
  rw [hs]; exact hf

theorem frame_ne (p : Plane) (h : Frame p) : p.u ≠ zero := by
  intro e
  have := h.uu
  rw [e] at this
  simp [dot, zero] at this

/-- C402: after any calls of the setters without zero vectors and exceptions the axes are of length 1 and orthogonal; setting the origin does not change the axes and never throws. -/
theorem C402_history_partial (p q : Plane) (h : Frame p) (ops : List Op) (hg : ∀ o ∈ ops, o.Good) (hr : run p ops = some q) :
    Frame q ∧ ∀ o, apply q (.setO o) = (⟨o, q.u, q.v⟩, false) := by
  have hf : Frame q := by
    induction ops generalizing p with
    | nil => simp only [run, Option.some.injEq] at hr; rw [← hr]; exact h
    | cons o rest ih =>
      unfold run at hr
      split at hr
      · exact absurd hr (by simp)
      · next hn =>
        refine ih _ ?_ (fun o' ho => hg o' (List.mem_cons_of_mem _ ho)) hr
        have hgo := hg o List.mem_cons_self
        cases o with
        | set o u v => exact sane_frame o u v hgo hn
        | setO o => exact sane_frame o p.u p.v (frame_ne p h) hn
        | setU u => exact sane_frame p.o u p.v hgo hn
        | setV v => exact sane_frame p.o p.u v (frame_ne p h) hn
        | setUV u v => exact sane_frame p.o u v hgo hn
        | setON o n => exact (C398_normal ⟨o, p.u, p.v⟩ n hgo).1
        | setN n => exact (C398_normal p n hgo).1
  refine ⟨hf, fun o => ?_⟩
  obtain ⟨hn, hc⟩ := normal_eq q hf
  have hne : cross q.u q.v ≠ zero := by intro e; rw [e] at hc; simp [dot, zero] at hc
  obtain ⟨c, hcp, hs, hcc⟩ := sane_ok o q.u q.v hne
  show sane ⟨o, q.u, q.v⟩ = _
  rw [hs, unit_of_unit _ hf.uu]
  have hc1 : c = 1 := by
    have : dot (smul c (cross q.u q.v)) (smul c (cross q.u q.v)) = c ^ 2 * dot (cross q.u q.v) (cross q.u q.v) := by unfold dot smul; ring
    rw [this, hc, mul_one] at hcc
    nlinarith
  have : cross (smul c (cross q.u q.v)) q.u = q.v := by
    rw [hc1]
    have e : cross (smul 1 (cross q.u q.v)) q.u = sub (smul (dot q.u q.u) q.v) (smul (dot q.u q.v) q.u) := by unfold cross smul dot sub; ext <;> dsimp only <;> ring
    rw [e, hf.uu, hf.uv]
    simp [sub, smul]
  rw [this]

example : Frame exP ∧ (∀ o ∈ [Op.setO ⟨1, 2, 3⟩], o.Good) ∧ run exP [Op.setO ⟨1, 2, 3⟩] = some ⟨⟨1, 2, 3⟩, exP.u, exP.v⟩ := by
  refine ⟨exP_frame, by simp [Op.Good], ?_⟩
  have := (C402_history_partial exP exP exP_frame [] (by simp) rfl).2 ⟨1, 2, 3⟩
  unfold run
  rw [this]
  simp [run]

/-- C402: setting the first axis to zero is accepted and spoils the plane. -/
theorem C402_refuted : ¬ ∀ (p q : Plane) (ops : List Op), Frame p → run p ops = some q → Frame q := by
  intro h
  have hv : exP.v ≠ zero := by intro e; have := congrArg V3.y e; simp [exP, zero] at this
  obtain ⟨h1, h2⟩ := C397_refuted exP.o exP.v hv
  refine h2 (h exP _ [.setU zero] exP_frame ?_)
  show (if (sane ⟨exP.o, zero, exP.v⟩).2 = true then none else run (sane ⟨exP.o, zero, exP.v⟩).1 []) = _
  rw [h1]
  simp [run]

end Verif.GFPlane

import Verif.PMAlg.TagModel
import Mathlib.Tactic.Ring
import Mathlib.Tactic.Linarith
import Mathlib.Tactic.FieldSimp
import Mathlib.Tactic.Positivity
import Mathlib.Data.Nat.Bitwise

/-! Claims C203-C209: the cosmic-ray tags of `pma::PMAlgCosmicTagger`. -/

namespace Verif.Tag

/-! ### Specification -/

/-- the track has a node below its drift window by more than the margin -/
def Below (c : Cfg) (t : Trk) : Prop :=
  ∃ n ∈ t.nodes, n.pos.get (c.axis n.tpc) < c.lo n.tpc - c.outMargin
/-- the track has a node above its drift window by more than the margin -/
def Above (c : Cfg) (t : Trk) : Prop :=
  ∃ n ∈ t.nodes, n.pos.get (c.axis n.tpc) > c.hi n.tpc + c.outMargin

/-- the end points differ by the size of the detector along the axis `i`, within the margin -/
def Spans (c : Cfg) (i : Nat) (t : Trk) : Prop :=
  (c.dmax i - c.dmin i) - |t.n0.pos.get i - t.n1.pos.get i| < c.fullMargin

/-- the axis `i` is one of the directions to be tested -/
def Tested (c : Cfg) (i : Nat) : Prop :=
  (c.fullHeight = true ∧ dirIdx c.hDir = some i) ∨ (c.fullWidth = true ∧ dirIdx c.wDir = some i) ∨
    (c.fullLength = true ∧ dirIdx c.lDir = some i)

/-- two points are closer than `r` -/
def Close (a b : V) (r : ℚ) : Prop := 0 < r ∧ (a.1 - b.1) ^ 2 + (a.2.1 - b.2.1) ^ 2 + (a.2.2 - b.2.2) ^ 2 < r ^ 2

theorem near_false (a b : V) (r : ℚ) : near a b r = false ↔ ¬ Close a b r := by
  unfold near dist2 Close
  rw [decide_eq_false_iff_not]
  simp only [pow_two]

/-- The criteria a track meets, `others` being the other tracks. -/
def Fires (c : Cfg) (others : List Trk) (t : Trk) : Id → Prop
  | .unknown => False
  | .outPartial => c.outOfDrift = true ∧ (Below c t ∨ Above c t) ∧ ¬ (Below c t ∧ Above c t)
  | .outComplete => c.outOfDrift = true ∧ Below c t ∧ Above c t
  | .beam => c.nonBeam = true ∧ t.t0 ≠ 0 ∧ |t.t0 - c.trigger| > c.beamMargin
  | .XX => Tested c 0 ∧ Spans c 0 t
  | .YY => Tested c 1 ∧ Spans c 1 t
  | .ZZ => Tested c 2 ∧ Spans c 2 t
  | .YZ => c.topFrontBack = true ∧ ∃ h l, dirIdx c.hDir = some h ∧ dirIdx c.lDir = some l ∧
      |(upper h t).get h - c.dmax h| < c.tfbMargin ∧
      (|(lower h t).get l - c.dmin l| < c.tfbMargin ∨ |(lower h t).get l - c.dmax l| < c.tfbMargin)
  | .Y => c.stopper = true ∧ ∃ h, dirIdx c.hDir = some h ∧
      |(upper h t).get h - c.dmax h| < c.stopMargin ∧ 5 * c.stopMargin < |(lower h t).get h - c.dmin h| ∧
      (∀ o ∈ others, ¬ Close (lower h t) o.n0.pos c.buffer ∧ ¬ Close (lower h t) o.n1.pos c.buffer) ∧
      (c.veto = true → notStopper t.dedx = true)

/-- the flag of a criterion in the tag word -/
def flagOf : Id → Nat
  | .unknown => 0 | .outPartial => kPartial | .outComplete => kComplete | .beam => kBeam
  | .XX => kXX | .YY => kYY | .ZZ => kZZ | .YZ => kYZ | .Y => kY

/-! ### The passes -/

/-- the flags set by the enabled criteria, in the order of the passes -/
def fired (c : Cfg) (others : List Trk) (t : Trk) : List (Option Nat) :=
  [if c.outOfDrift then outOfDrift c t else none,
   if c.fullHeight then fullCrossing c (dirIdx c.hDir) t else none,
   if c.fullWidth then fullCrossing c (dirIdx c.wDir) t else none,
   if c.fullLength then fullCrossing c (dirIdx c.lDir) t else none,
   if c.nonBeam then nonBeam c t else none,
   if c.topFrontBack then topFrontBack c t else none,
   if c.stopper then stopper c others t else none]

/-- one optional mark -/
def markO (t : Trk) (f : Option Nat) : Trk := match f with | some f => t.mark f | none => t

/-- the track without its tag -/
def Trk.bare (t : Trk) : Trk := { t with tag := 0 }

theorem markO_bare (t : Trk) (f : Option Nat) : (markO t f).bare = t.bare := by
  cases f <;> rfl

/-- a criterion that does not look at tags -/
def Blind (crit : List Trk → Trk → Option Nat) : Prop :=
  ∀ o t, crit o t = crit (o.map Trk.bare) t.bare

theorem pass_spec (on : Bool) (crit : List Trk → Trk → Option Nat) (hb : Blind crit) (ts : List Trk)
    (g : Nat → Trk → Trk) (hg : ∀ i t, (g i t).bare = t.bare) (n : Nat) :
    pass on crit (ts.mapIdx g, n) =
      (ts.mapIdx fun i t => markO (g i t) (if on then crit (ts.eraseIdx i) t else none),
        n + (ts.mapIdx fun i t => if on then crit (ts.eraseIdx i) t else none).countP Option.isSome) := by
  have hcrit : ∀ i t, crit ((ts.mapIdx g).eraseIdx i) (g i t) = crit (ts.eraseIdx i) t := by
    intro i t
    rw [hb, hb (ts.eraseIdx i) t, hg]
    congr 1
    apply List.ext_getElem?
    intro j
    simp only [List.getElem?_map, List.getElem?_eraseIdx, List.getElem?_mapIdx]
    split
    · cases ts[j]? with
      | none => rfl
      | some u => simp [hg]
    · cases ts[j + 1]? with
      | none => rfl
      | some u => simp [hg]
  unfold pass
  cases on with
  | false =>
    simp only [Bool.false_eq_true, if_false]
    have h0 : (ts.mapIdx fun (_ : Nat) (_ : Trk) => (none : Option Nat)).countP Option.isSome = 0 := by
      rw [List.countP_eq_zero]
      intro a ha
      rw [List.mem_mapIdx] at ha
      obtain ⟨i, hi, h⟩ := ha
      rw [← h]; simp
    rw [h0]
    rfl
  | true =>
    simp only [if_true]
    have hfl : ((ts.mapIdx g).mapIdx fun i t => crit ((ts.mapIdx g).eraseIdx i) t) =
        ts.mapIdx fun i t => crit (ts.eraseIdx i) t := by
      rw [List.mapIdx_mapIdx]
      congr 1
      funext i t
      exact hcrit i t
    rw [hfl]
    refine Prod.ext ?_ rfl
    apply List.ext_getElem?
    intro i
    rw [List.getElem?_zipWith, List.getElem?_mapIdx, List.getElem?_mapIdx, List.getElem?_mapIdx]
    cases ts[i]? <;> rfl

theorem nodes_bare (t : Trk) : t.bare.nodes = t.nodes := rfl

theorem blind_out (c : Cfg) : Blind fun _ t => outOfDrift c t := fun _ _ => rfl
theorem blind_beam (c : Cfg) : Blind fun _ t => nonBeam c t := fun _ _ => rfl
theorem blind_full (c : Cfg) (d : Option Nat) : Blind fun _ t => fullCrossing c d t := fun _ _ => rfl
theorem blind_tfb (c : Cfg) : Blind fun _ t => topFrontBack c t := fun _ _ => rfl
theorem blind_stop (c : Cfg) : Blind fun o t => stopper c o t := by
  intro o t
  have h : ∀ x : V, ((o.map Trk.bare).any fun o => near x o.n0.pos c.buffer || near x o.n1.pos c.buffer) =
      o.any fun o => near x o.n0.pos c.buffer || near x o.n1.pos c.buffer := by
    intro x; rw [List.any_map]; rfl
  unfold stopper
  cases dirIdx c.hDir with
  | none => rfl
  | some k =>
    dsimp only
    rw [h]
    rfl

theorem tag_eq (c : Cfg) (ts : List Trk) :
    (tag c ts).1 = ts.mapIdx (fun i t => (fired c (ts.eraseIdx i) t).foldl markO t) ∧
    (tag c ts).2 = (ts.mapIdx fun i t => (fired c (ts.eraseIdx i) t).countP Option.isSome).sum := by
  have h0 : ts = ts.mapIdx (fun _ t => t) := by
    apply List.ext_getElem?
    intro i
    rw [List.getElem?_mapIdx]
    cases ts[i]? <;> rfl
  have hfold : ∀ (l : List (Option Nat)) (t : Trk), (l.foldl markO t).bare = t.bare := by
    intro l
    induction l with
    | nil => intro t; rfl
    | cons a l ih => intro t; rw [List.foldl_cons, ih, markO_bare]
  have key : tag c ts = (ts.mapIdx (fun i t => (fired c (ts.eraseIdx i) t).foldl markO t),
      (((((((0 + (ts.mapIdx fun i t => if c.outOfDrift then outOfDrift c t else none).countP Option.isSome) +
      (ts.mapIdx fun i t => if c.fullHeight then fullCrossing c (dirIdx c.hDir) t else none).countP Option.isSome) +
      (ts.mapIdx fun i t => if c.fullWidth then fullCrossing c (dirIdx c.wDir) t else none).countP Option.isSome) +
      (ts.mapIdx fun i t => if c.fullLength then fullCrossing c (dirIdx c.lDir) t else none).countP Option.isSome) +
      (ts.mapIdx fun i t => if c.nonBeam then nonBeam c t else none).countP Option.isSome) +
      (ts.mapIdx fun i t => if c.topFrontBack then topFrontBack c t else none).countP Option.isSome) +
      (ts.mapIdx fun i t => if c.stopper then stopper c (ts.eraseIdx i) t else none).countP Option.isSome)) := by
    unfold tag
    conv_lhs => rw [show (ts, 0) = (ts.mapIdx (fun _ t => t), 0) by rw [← h0]]
    rw [pass_spec c.outOfDrift _ (blind_out c) ts _ (fun _ _ => rfl)]
    rw [pass_spec c.fullHeight _ (blind_full c _) ts _ (fun _ _ => by simp only [markO_bare])]
    rw [pass_spec c.fullWidth _ (blind_full c _) ts _ (fun _ _ => by simp only [markO_bare])]
    rw [pass_spec c.fullLength _ (blind_full c _) ts _ (fun _ _ => by simp only [markO_bare])]
    rw [pass_spec c.nonBeam _ (blind_beam c) ts _ (fun _ _ => by simp only [markO_bare])]
    rw [pass_spec c.topFrontBack _ (blind_tfb c) ts _ (fun _ _ => by simp only [markO_bare])]
    rw [pass_spec c.stopper _ (blind_stop c) ts _ (fun _ _ => by simp only [markO_bare])]
    rfl
  refine ⟨by rw [key], ?_⟩
  rw [key]
  dsimp only
  -- exchange the two sums
  have hsum : ∀ (l : List Trk) (fs : List (Nat → Trk → Option Nat)) (k : Nat),
      ((l.mapIdx fun i t => (fs.map fun f => f (i + k) t).countP Option.isSome)).sum =
        (fs.map fun f => (l.mapIdx fun i t => f (i + k) t).countP Option.isSome).sum := by
    intro l fs
    induction l with
    | nil => intro k; simp
    | cons a l ih =>
      intro k
      rw [List.mapIdx_cons, List.sum_cons]
      have := ih (k + 1)
      have e1 : (l.mapIdx fun i t => (fs.map fun f => f (i + 1 + k) t).countP Option.isSome) =
          l.mapIdx fun i t => (fs.map fun f => f (i + (k + 1)) t).countP Option.isSome := by
        congr 1; funext i t; congr 2; funext f; congr 1; omega
      rw [e1, this]
      clear e1 this ih
      induction fs with
      | nil => simp
      | cons f fs ihf =>
        simp only [List.map_cons, List.sum_cons, List.countP_cons, List.mapIdx_cons] at ihf ⊢
        have e2 : (l.mapIdx fun i t => f (i + 1 + k) t) = l.mapIdx fun i t => f (i + (k + 1)) t := by
          congr 1; funext i t; congr 1; omega
        rw [e2]
        omega
  have := hsum ts [fun _ t => if c.outOfDrift then outOfDrift c t else none,
    fun _ t => if c.fullHeight then fullCrossing c (dirIdx c.hDir) t else none,
    fun _ t => if c.fullWidth then fullCrossing c (dirIdx c.wDir) t else none,
    fun _ t => if c.fullLength then fullCrossing c (dirIdx c.lDir) t else none,
    fun _ t => if c.nonBeam then nonBeam c t else none,
    fun _ t => if c.topFrontBack then topFrontBack c t else none,
    fun i t => if c.stopper then stopper c (ts.eraseIdx i) t else none] 0
  simp only [List.map_cons, List.map_nil, List.sum_cons, List.sum_nil, Nat.add_zero] at this
  unfold fired
  rw [this]
  omega

/-! ### Bits -/

theorem has_or (a b v : Nat) : has (a ||| b) v = (has a v || has b v) := by
  unfold has
  rw [Nat.and_or_distrib_right]
  by_cases ha : a &&& v = 0
  · rw [ha, Nat.zero_or]; simp
  · have : (a &&& v ||| b &&& v) ≠ 0 := by
      intro h
      exact ha (Nat.or_eq_zero_iff.1 h).1
    simp [ha, this]

theorem foldl_mark (l : List (Option Nat)) (t : Trk) (v : Nat) :
    has (l.foldl markO t).tag v = (has t.tag v || l.any fun f => match f with | some f => has (kCosmic ||| f) v | none => false) := by
  induction l generalizing t with
  | nil => simp
  | cons a l ih =>
    rw [List.foldl_cons, ih, List.any_cons]
    cases a with
    | none => simp [markO]
    | some f =>
      show (has (t.tag ||| kCosmic ||| f) v || _) = _
      rw [Nat.or_assoc, has_or, Bool.or_assoc]

theorem foldl_mark_bare (l : List (Option Nat)) (t : Trk) : (l.foldl markO t).bare = t.bare := by
  induction l generalizing t with
  | nil => rfl
  | cons a l ih => rw [List.foldl_cons, ih, markO_bare]

/-! ### The criteria agree with the specification -/

theorem dirIdx_lt {d : V} {i : Nat} (h : dirIdx d = some i) : i = 0 ∨ i = 1 ∨ i = 2 := by
  unfold dirIdx at h
  split_ifs at h <;> simp_all

theorem any_below (c : Cfg) (t : Trk) :
    (t.nodes.any fun n => decide (n.pos.get (c.axis n.tpc) < c.lo n.tpc - c.outMargin)) = true ↔ Below c t := by
  simp [Below, List.any_eq_true]
theorem any_above (c : Cfg) (t : Trk) :
    (t.nodes.any fun n => decide (n.pos.get (c.axis n.tpc) > c.hi n.tpc + c.outMargin)) = true ↔ Above c t := by
  simp [Above, List.any_eq_true]

theorem out_iff (c : Cfg) (t : Trk) (f : Nat) :
    outOfDrift c t = some f ↔ (f = kComplete ∧ Below c t ∧ Above c t) ∨
      (f = kPartial ∧ (Below c t ∨ Above c t) ∧ ¬ (Below c t ∧ Above c t)) := by
  have hb := any_below c t
  have ha := any_above c t
  unfold outOfDrift
  dsimp only
  generalize (t.nodes.any fun n => decide (n.pos.get (c.axis n.tpc) < c.lo n.tpc - c.outMargin)) = b at *
  generalize (t.nodes.any fun n => decide (n.pos.get (c.axis n.tpc) > c.hi n.tpc + c.outMargin)) = a at *
  rw [← hb, ← ha]
  cases a <;> cases b <;> simp [eq_comm]

theorem full_iff (c : Cfg) (d : V) (t : Trk) (f : Nat) :
    fullCrossing c (dirIdx d) t = some f ↔
      (f = kXX ∧ dirIdx d = some 0 ∧ Spans c 0 t) ∨ (f = kYY ∧ dirIdx d = some 1 ∧ Spans c 1 t) ∨
      (f = kZZ ∧ dirIdx d = some 2 ∧ Spans c 2 t) := by
  cases hd : dirIdx d with
  | none => simp [fullCrossing]
  | some i =>
    rcases dirIdx_lt hd with rfl | rfl | rfl <;> simp [fullCrossing, Spans, eq_comm, and_comm]

theorem beam_iff (c : Cfg) (t : Trk) (f : Nat) :
    nonBeam c t = some f ↔ f = kBeam ∧ t.t0 ≠ 0 ∧ |t.t0 - c.trigger| > c.beamMargin := by
  unfold nonBeam
  by_cases h : t.t0 ≠ 0
  · rw [if_pos h]
    by_cases h2 : |t.t0 - c.trigger| > c.beamMargin
    · rw [if_pos h2]; simp [h, h2, eq_comm]
    · rw [if_neg h2]; simp [h2]
  · rw [if_neg h]; simp [h]

theorem tfb_iff (c : Cfg) (t : Trk) (f : Nat) :
    topFrontBack c t = some f ↔ f = kYZ ∧ ∃ h l, dirIdx c.hDir = some h ∧ dirIdx c.lDir = some l ∧
      |(upper h t).get h - c.dmax h| < c.tfbMargin ∧
      (|(lower h t).get l - c.dmin l| < c.tfbMargin ∨ |(lower h t).get l - c.dmax l| < c.tfbMargin) := by
  unfold topFrontBack
  cases hh : dirIdx c.hDir with
  | none => simp
  | some h =>
    cases hl : dirIdx c.lDir with
    | none => simp
    | some l =>
      dsimp only
      unfold isTop isFrontBack
      constructor
      · intro hf
        split_ifs at hf with hc
        injection hf with hf
        rw [Bool.and_eq_true, Bool.or_eq_true, decide_eq_true_eq, decide_eq_true_eq, decide_eq_true_eq] at hc
        exact ⟨hf.symm, h, l, rfl, rfl, hc⟩
      · rintro ⟨hf, h', l', e1, e2, hc⟩
        injection e1 with e1; injection e2 with e2
        subst e1 e2
        rw [if_pos, hf]
        rw [Bool.and_eq_true, Bool.or_eq_true, decide_eq_true_eq, decide_eq_true_eq, decide_eq_true_eq]
        exact hc

theorem stop_iff (c : Cfg) (others : List Trk) (t : Trk) (f : Nat) :
    stopper c others t = some f ↔ f = kY ∧ ∃ h, dirIdx c.hDir = some h ∧
      |(upper h t).get h - c.dmax h| < c.stopMargin ∧ 5 * c.stopMargin < |(lower h t).get h - c.dmin h| ∧
      (∀ o ∈ others, ¬ Close (lower h t) o.n0.pos c.buffer ∧ ¬ Close (lower h t) o.n1.pos c.buffer) ∧
      (c.veto = true → notStopper t.dedx = true) := by
  simp only [← near_false]
  unfold stopper
  cases hh : dirIdx c.hDir with
  | none => simp
  | some h =>
    dsimp only
    have hany : (others.any fun o => near (lower h t) o.n0.pos c.buffer || near (lower h t) o.n1.pos c.buffer) = false ↔
        ∀ o ∈ others, near (lower h t) o.n0.pos c.buffer = false ∧ near (lower h t) o.n1.pos c.buffer = false := by
      rw [List.any_eq_false]
      simp
    generalize (others.any fun o => near (lower h t) o.n0.pos c.buffer || near (lower h t) o.n1.pos c.buffer) = b at hany
    constructor
    · intro hf
      split_ifs at hf with h1 h2 h3 h4 h5
      · injection hf with hf
        refine ⟨hf.symm, h, rfl, h1, h2, hany.1 (by simpa using h3), ?_⟩
        intro hv; simp [hv] at h4
      · injection hf with hf
        exact ⟨hf.symm, h, rfl, h1, h2, hany.1 (by simpa using h3), fun _ => h5⟩
    · rintro ⟨hf, h', e, h1, h2, h3, h4⟩
      injection e with e
      subst e
      rw [if_pos h1, if_pos h2, hany.2 h3, hf]
      simp only [Bool.false_eq_true, if_false]
      cases hv : c.veto with
      | false => simp
      | true => simp [h4 hv]

/-- every flag set belongs to a criterion that fires, and every criterion that fires sets its flag -/
theorem fired_iff (c : Cfg) (others : List Trk) (t : Trk) (f : Nat) :
    some f ∈ fired c others t ↔ ∃ id, Fires c others t id ∧ f = flagOf id := by
  unfold fired
  have hout := out_iff c t f
  have h1 := full_iff c c.hDir t f
  have h2 := full_iff c c.wDir t f
  have h3 := full_iff c c.lDir t f
  have h4 := beam_iff c t f
  have h5 := tfb_iff c t f
  have h6 := stop_iff c others t f
  have hif : ∀ (b : Bool) (o : Option Nat), some f = (if b then o else none) ↔ b = true ∧ o = some f := by
    intro b o; cases b <;> simp [eq_comm]
  simp only [List.mem_cons, List.not_mem_nil, or_false, hif]
  rw [hout, h1, h2, h3, h4, h5, h6]
  constructor
  · rintro (⟨he, ⟨hf, h⟩ | ⟨hf, h⟩⟩ | ⟨he, ⟨hf, hd, h⟩ | ⟨hf, hd, h⟩ | ⟨hf, hd, h⟩⟩ | ⟨he, ⟨hf, hd, h⟩ | ⟨hf, hd, h⟩ | ⟨hf, hd, h⟩⟩ |
      ⟨he, ⟨hf, hd, h⟩ | ⟨hf, hd, h⟩ | ⟨hf, hd, h⟩⟩ | ⟨he, hf, h⟩ | ⟨he, hf, h⟩ | ⟨he, hf, h⟩)
    · exact ⟨.outComplete, ⟨he, h⟩, hf⟩
    · exact ⟨.outPartial, ⟨he, h⟩, hf⟩
    · exact ⟨.XX, ⟨Or.inl ⟨he, hd⟩, h⟩, hf⟩
    · exact ⟨.YY, ⟨Or.inl ⟨he, hd⟩, h⟩, hf⟩
    · exact ⟨.ZZ, ⟨Or.inl ⟨he, hd⟩, h⟩, hf⟩
    · exact ⟨.XX, ⟨Or.inr (Or.inl ⟨he, hd⟩), h⟩, hf⟩
    · exact ⟨.YY, ⟨Or.inr (Or.inl ⟨he, hd⟩), h⟩, hf⟩
    · exact ⟨.ZZ, ⟨Or.inr (Or.inl ⟨he, hd⟩), h⟩, hf⟩
    · exact ⟨.XX, ⟨Or.inr (Or.inr ⟨he, hd⟩), h⟩, hf⟩
    · exact ⟨.YY, ⟨Or.inr (Or.inr ⟨he, hd⟩), h⟩, hf⟩
    · exact ⟨.ZZ, ⟨Or.inr (Or.inr ⟨he, hd⟩), h⟩, hf⟩
    · exact ⟨.beam, ⟨he, h⟩, hf⟩
    · exact ⟨.YZ, ⟨he, h⟩, hf⟩
    · exact ⟨.Y, ⟨he, h⟩, hf⟩
  · rintro ⟨id, h, hf⟩
    cases id with
    | unknown => exact absurd h id
    | outPartial => exact Or.inl ⟨h.1, Or.inr ⟨hf, h.2⟩⟩
    | outComplete => exact Or.inl ⟨h.1, Or.inl ⟨hf, h.2⟩⟩
    | beam => exact Or.inr (Or.inr (Or.inr (Or.inr (Or.inl ⟨h.1, hf, h.2⟩))))
    | XX =>
      obtain ⟨⟨he, hd⟩ | ⟨he, hd⟩ | ⟨he, hd⟩, h⟩ := h
      · exact Or.inr (Or.inl ⟨he, Or.inl ⟨hf, hd, h⟩⟩)
      · exact Or.inr (Or.inr (Or.inl ⟨he, Or.inl ⟨hf, hd, h⟩⟩))
      · exact Or.inr (Or.inr (Or.inr (Or.inl ⟨he, Or.inl ⟨hf, hd, h⟩⟩)))
    | YY =>
      obtain ⟨⟨he, hd⟩ | ⟨he, hd⟩ | ⟨he, hd⟩, h⟩ := h
      · exact Or.inr (Or.inl ⟨he, Or.inr (Or.inl ⟨hf, hd, h⟩)⟩)
      · exact Or.inr (Or.inr (Or.inl ⟨he, Or.inr (Or.inl ⟨hf, hd, h⟩)⟩))
      · exact Or.inr (Or.inr (Or.inr (Or.inl ⟨he, Or.inr (Or.inl ⟨hf, hd, h⟩)⟩)))
    | ZZ =>
      obtain ⟨⟨he, hd⟩ | ⟨he, hd⟩ | ⟨he, hd⟩, h⟩ := h
      · exact Or.inr (Or.inl ⟨he, Or.inr (Or.inr ⟨hf, hd, h⟩)⟩)
      · exact Or.inr (Or.inr (Or.inl ⟨he, Or.inr (Or.inr ⟨hf, hd, h⟩)⟩))
      · exact Or.inr (Or.inr (Or.inr (Or.inl ⟨he, Or.inr (Or.inr ⟨hf, hd, h⟩)⟩)))
    | YZ => exact Or.inr (Or.inr (Or.inr (Or.inr (Or.inr (Or.inl ⟨h.1, hf, h.2⟩)))))
    | Y => exact Or.inr (Or.inr (Or.inr (Or.inr (Or.inr (Or.inr ⟨h.1, hf, h.2⟩)))))

/-- the bits of the word of a track after tagging -/
theorem tag_has (c : Cfg) (ts : List Trk) (i : Nat) (t : Trk) (h : ts[i]? = some t) :
    ∃ t', (tag c ts).1[i]? = some t' ∧ t'.bare = t.bare ∧
      ∀ v, has t'.tag v = true ↔
        has t.tag v = true ∨ ∃ id, Fires c (ts.eraseIdx i) t id ∧ has (kCosmic ||| flagOf id) v = true := by
  refine ⟨(fired c (ts.eraseIdx i) t).foldl markO t, ?_, foldl_mark_bare _ _, ?_⟩
  · rw [(tag_eq c ts).1, List.getElem?_mapIdx, h]; rfl
  · intro v
    rw [foldl_mark, Bool.or_eq_true, List.any_eq_true]
    refine or_congr Iff.rfl ⟨?_, ?_⟩
    · rintro ⟨f, hf, hv⟩
      cases f with
      | none => simp at hv
      | some f =>
        obtain ⟨id, h1, h2⟩ := (fired_iff c _ t f).1 hf
        exact ⟨id, h1, by rw [← h2]; exact hv⟩
    · rintro ⟨id, h1, hv⟩
      exact ⟨some (flagOf id), (fired_iff c _ t _).2 ⟨id, h1, rfl⟩, hv⟩

/-! ### Claims -/

/-- C203: the tagger changes only tags; a track is a cosmic ray afterwards exactly if it was before or meets one of
the enabled criteria (against the other tracks of the collection). -/
theorem C203_cosmic_iff (c : Cfg) (ts : List Trk) (i : Nat) (t : Trk) (h : ts[i]? = some t) :
    ∃ t', (tag c ts).1[i]? = some t' ∧ t'.bare = t.bare ∧
      (has t'.tag kCosmic = true ↔ has t.tag kCosmic = true ∨ ∃ id, Fires c (ts.eraseIdx i) t id) := by
  obtain ⟨t', h1, h2, h3⟩ := tag_has c ts i t h
  refine ⟨t', h1, h2, ?_⟩
  rw [h3]
  refine or_congr Iff.rfl ⟨fun ⟨id, h, _⟩ => ⟨id, h⟩, fun ⟨id, h⟩ => ⟨id, h, ?_⟩⟩
  cases id <;> rfl

/-- C203: no track is lost or added, nothing but the tags changes. -/
theorem C203_same_tracks (c : Cfg) (ts : List Trk) :
    (tag c ts).1.map Trk.bare = ts.map Trk.bare := by
  rw [(tag_eq c ts).1]
  apply List.ext_getElem?
  intro i
  rw [List.getElem?_map, List.getElem?_mapIdx, List.getElem?_map]
  cases ts[i]? with
  | none => rfl
  | some t => simp only [Option.map_some, foldl_mark_bare]

/-- C203: with every criterion switched off nothing is done (the caller tests this with `tagAny`). -/
theorem C203_off (c : Cfg) (ts : List Trk) (h : tagAny c = false) : tag c ts = (ts, 0) := by
  unfold tagAny at h
  simp only [Bool.or_eq_false_iff] at h
  obtain ⟨⟨⟨⟨⟨⟨h1, h2⟩, h3⟩, h4⟩, h5⟩, h6⟩, h7⟩ := h
  unfold tag pass
  simp [h1, h2, h3, h4, h5, h6, h7]

/-- C203: tagging again (the second pass of the tracker on an unchanged collection) adds no flag. -/
theorem C203_again (c : Cfg) (ts : List Trk) (i v : Nat) :
    ((tag c (tag c ts).1).1[i]?.map fun t => has t.tag v) = ((tag c ts).1[i]?.map fun t => has t.tag v) := by
  have hl : (tag c ts).1.length = ts.length := by
    have := congrArg List.length (C203_same_tracks c ts); simpa using this
  cases hi : ts[i]? with
  | none =>
    have h1 : (tag c ts).1[i]? = none := by
      rw [List.getElem?_eq_none_iff] at hi ⊢; omega
    have h2 : (tag c (tag c ts).1).1[i]? = none := by
      have hl2 : (tag c (tag c ts).1).1.length = (tag c ts).1.length := by
        have := congrArg List.length (C203_same_tracks c (tag c ts).1); simpa using this
      rw [List.getElem?_eq_none_iff] at hi ⊢; omega
    rw [h1, h2]
  | some t =>
    obtain ⟨t1, h1, h2, h3⟩ := tag_has c ts i t hi
    obtain ⟨t2, k1, k2, k3⟩ := tag_has c (tag c ts).1 i t1 h1
    rw [k1, h1, Option.map_some, Option.map_some]
    congr 1
    rw [Bool.eq_iff_iff, k3]
    constructor
    · rintro (h | ⟨id, hid, hv⟩)
      · exact h
      · refine (h3 v).2 (Or.inr ⟨id, ?_, hv⟩)
        -- the criteria do not look at tags
        have e1 : ((tag c ts).1.eraseIdx i).map Trk.bare = (ts.eraseIdx i).map Trk.bare := by
          have := C203_same_tracks c ts
          apply List.ext_getElem?
          intro j
          have hj := fun j : Nat => congrArg (fun l : List Trk => l[j]?) this
          simp only [List.getElem?_map] at hj
          simp only [List.getElem?_map, List.getElem?_eraseIdx]
          split
          · exact hj j
          · exact hj (j + 1)
        have e2 : ∀ (f : Nat), some f ∈ fired c ((tag c ts).1.eraseIdx i) t1 ↔ some f ∈ fired c (ts.eraseIdx i) t := by
          intro f
          have : fired c ((tag c ts).1.eraseIdx i) t1 = fired c (ts.eraseIdx i) t := by
            have a1 : outOfDrift c t1 = outOfDrift c t := by
              have x := blind_out c [] t1; have y := blind_out c [] t; dsimp only at x y; rw [x, y, h2]
            have a2 : nonBeam c t1 = nonBeam c t := by
              have x := blind_beam c [] t1; have y := blind_beam c [] t; dsimp only at x y; rw [x, y, h2]
            have a3 : topFrontBack c t1 = topFrontBack c t := by
              have x := blind_tfb c [] t1; have y := blind_tfb c [] t; dsimp only at x y; rw [x, y, h2]
            have a4 : ∀ d, fullCrossing c d t1 = fullCrossing c d t := by
              intro d
              have x := blind_full c d [] t1; have y := blind_full c d [] t; dsimp only at x y; rw [x, y, h2]
            have a5 : stopper c ((tag c ts).1.eraseIdx i) t1 = stopper c (ts.eraseIdx i) t := by
              have x := blind_stop c ((tag c ts).1.eraseIdx i) t1; have y := blind_stop c (ts.eraseIdx i) t
              dsimp only at x y; rw [x, y, h2, e1]
            unfold fired
            rw [a1, a2, a3, a4, a4, a4, a5]
          rw [this]
        obtain ⟨id', hid', hf⟩ := (fired_iff c _ t _).1 ((e2 (flagOf id)).1 ((fired_iff c _ t1 _).2 ⟨id, hid, rfl⟩))
        have : id' = id := by
          revert hf; cases id <;> cases id' <;> decide
        rw [← this]; exact hid'
    · exact Or.inl

/-! #### Examples -/

/-- one TPC of 2 m x 6 m x 7 m, all criteria on, margins of 10 cm -/
def exCfg : Cfg where
  outOfDrift := true
  outMargin := 10
  fullHeight := true
  fullWidth := true
  fullLength := true
  fullMargin := 10
  nonBeam := true
  beamMargin := 100
  topFrontBack := true
  tfbMargin := 10
  stopper := true
  stopMargin := 10
  veto := true
  buffer := 10
  tpcs := [⟨200, (100, 0, 350), (100, 300, 350)⟩, ⟨13, (210, 0, 350), (10, 400, 350)⟩]
  hDir := (0, 1, 0)
  wDir := (1, 0, 0)
  lDir := (0, 0, 1)
  axis := fun _ => 0
  lo := fun _ => 0
  hi := fun _ => 200
  trigger := 5

/-- everything switched off -/
def exOff : Cfg := { exCfg with
  outOfDrift := false
  fullHeight := false
  fullWidth := false
  fullLength := false
  nonBeam := false
  topFrontBack := false
  stopper := false }

/-- a track from the top to the bottom -/
def exDown : Trk := ⟨⟨(50, 299, 100), 0⟩, [], ⟨(60, -299, 120), 0⟩, false, 0, [], 0⟩
/-- a track partly outside of the drift window -/
def exOut : Trk := ⟨⟨(150, 0, 100), 0⟩, [], ⟨(250, 0, 120), 0⟩, false, 0, [], 0⟩
/-- a track inside -/
def exIn : Trk := ⟨⟨(50, 0, 100), 0⟩, [], ⟨(60, 0, 120), 0⟩, false, 0, [], 0⟩

example : (tag exCfg [exDown, exOut, exIn]).2 = 2 ∧
    ((tag exCfg [exDown, exOut, exIn]).1.map fun t => has t.tag kCosmic) = [true, true, false] ∧
    tagAny exCfg = true ∧ tagAny exOff = false := by decide +kernel

/-! #### Saved tags -/

theorem mem_decode (w : Nat) (id : Id) : id ∈ decode w ↔
    (id = .outPartial ∧ has w kPartial = true) ∨ (id = .outComplete ∧ has w kComplete = true) ∨
    (id = .beam ∧ has w kBeam = true) ∨ (id = .XX ∧ has w kXX = true) ∨
    (id = .YY ∧ has w kYY = true) ∨ (id = .ZZ ∧ has w kZZ = true) ∨
    (id = .YZ ∧ has w kYZ = true) ∨ (id = .Y ∧ has w kY = true) ∨
    (id = .unknown ∧ ¬ (has w kPartial = true ∨ has w kComplete = true ∨ has w kBeam = true ∨
      has w kXX = true ∨ has w kYY = true ∨ has w kZZ = true ∨ has w kYZ = true ∨
      has w kY = true)) := by
  have hor : ∀ l : List Id, id ∈ (if l = [] then [Id.unknown] else l) ↔ id ∈ l ∨ (id = .unknown ∧ l = []) := by
    intro l
    split_ifs with h
    · simp [h]
    · simp [h]
  have hif : ∀ (b : Bool) (x : Id), id ∈ (if b then [x] else []) ↔ id = x ∧ b = true := by
    intro b x; cases b <;> simp
  have hnil : ∀ (b : Bool) (x : Id), (if b then [x] else []) = [] ↔ ¬ b = true := by
    intro b x; cases b <;> simp
  unfold decode
  dsimp only
  rw [hor]
  simp only [List.mem_append, hif, List.append_eq_nil_iff, hnil, not_or, or_assoc, and_assoc]

/-- C204: every criterion a track meets is among the tags saved for it. -/
theorem C204_saved_partial (c : Cfg) (ts : List Trk) (i : Nat) (t : Trk) (h : ts[i]? = some t) (id : Id)
    (hf : Fires c (ts.eraseIdx i) t id) : ∃ t', (tag c ts).1[i]? = some t' ∧ id ∈ decode t'.tag := by
  obtain ⟨t', h1, _, h3⟩ := tag_has c ts i t h
  refine ⟨t', h1, ?_⟩
  have hid : has t'.tag (flagOf id) = true ∨ id = .unknown := by
    by_cases hu : id = .unknown
    · exact Or.inr hu
    · refine Or.inl ((h3 _).2 (Or.inr ⟨id, hf, ?_⟩))
      cases id <;> first | rfl | exact absurd rfl hu
  rcases hid with hid | hid
  · rw [mem_decode]
    cases id <;> simp_all [flagOf, Fires]
  · rw [hid] at hf; exact absurd hf _root_.id

/-- C204: what is saved for a track without earlier tags, exactly.  The flags of the word overlap: the beam flag is
the union of the two drift flags, the ZZ flag that of YY and YZ. -/
theorem C204_saved_exactly (c : Cfg) (ts : List Trk) (i : Nat) (t : Trk) (h : ts[i]? = some t) (h0 : t.tag = 0) :
    ∃ t', (tag c ts).1[i]? = some t' ∧
      (Id.outPartial ∈ decode t'.tag ↔ Fires c (ts.eraseIdx i) t .outPartial ∨ Fires c (ts.eraseIdx i) t .beam) ∧
      (Id.outComplete ∈ decode t'.tag ↔ Fires c (ts.eraseIdx i) t .outComplete ∨ Fires c (ts.eraseIdx i) t .beam) ∧
      (Id.beam ∈ decode t'.tag ↔ Fires c (ts.eraseIdx i) t .beam ∨ Fires c (ts.eraseIdx i) t .outPartial ∨
        Fires c (ts.eraseIdx i) t .outComplete) ∧
      (Id.XX ∈ decode t'.tag ↔ Fires c (ts.eraseIdx i) t .XX) ∧
      (Id.YY ∈ decode t'.tag ↔ Fires c (ts.eraseIdx i) t .YY ∨ Fires c (ts.eraseIdx i) t .ZZ) ∧
      (Id.ZZ ∈ decode t'.tag ↔ Fires c (ts.eraseIdx i) t .ZZ ∨ Fires c (ts.eraseIdx i) t .YY ∨
        Fires c (ts.eraseIdx i) t .YZ) ∧
      (Id.YZ ∈ decode t'.tag ↔ Fires c (ts.eraseIdx i) t .YZ ∨ Fires c (ts.eraseIdx i) t .ZZ) ∧
      (Id.Y ∈ decode t'.tag ↔ Fires c (ts.eraseIdx i) t .Y) ∧
      (Id.unknown ∈ decode t'.tag ↔ ∀ id, ¬ Fires c (ts.eraseIdx i) t id) := by
  obtain ⟨t', h1, _, h3⟩ := tag_has c ts i t h
  refine ⟨t', h1, ?_⟩
  generalize hF : Fires c (ts.eraseIdx i) t = F at *
  have hF0 : ¬ F .unknown := by rw [← hF]; exact _root_.id
  have hz : ∀ v, has t.tag v = false := by intro v; rw [h0]; unfold has; rw [Nat.zero_and]; rfl
  have hsplit : ∀ (P : Id → Prop), (∃ id, P id) ↔ P .unknown ∨ P .outPartial ∨ P .outComplete ∨ P .beam ∨ P .XX ∨ P .YY ∨
      P .ZZ ∨ P .YZ ∨ P .Y := by
    intro P
    constructor
    · rintro ⟨id, h⟩
      cases id <;> simp [h]
    · rintro (h | h | h | h | h | h | h | h | h) <;> exact ⟨_, h⟩
  have hv : ∀ v, has t'.tag v = true ↔ (F .outPartial ∧ has (kCosmic ||| kPartial) v = true) ∨
      (F .outComplete ∧ has (kCosmic ||| kComplete) v = true) ∨ (F .beam ∧ has (kCosmic ||| kBeam) v = true) ∨
      (F .XX ∧ has (kCosmic ||| kXX) v = true) ∨ (F .YY ∧ has (kCosmic ||| kYY) v = true) ∨
      (F .ZZ ∧ has (kCosmic ||| kZZ) v = true) ∨ (F .YZ ∧ has (kCosmic ||| kYZ) v = true) ∨
      (F .Y ∧ has (kCosmic ||| kY) v = true) := by
    intro v
    rw [h3, hz, hsplit]
    simp only [Bool.false_eq_true, false_or, hF0, false_and, flagOf]
  have hm := mem_decode t'.tag
  generalize decode t'.tag = D at *
  generalize has t'.tag = H at *
  have e1 := hv kPartial
  have e2 := hv kComplete
  have e3 := hv kBeam
  have e4 := hv kXX
  have e5 := hv kYY
  have e6 := hv kZZ
  have e7 := hv kYZ
  have e8 := hv kY
  simp [has, kCosmic, kPartial, kComplete, kBeam, kXX, kYY, kZZ, kYZ, kY] at e1 e2 e3 e4 e5 e6 e7 e8
  have hall : (∀ id, ¬ F id) ↔ ¬ (F .outPartial ∨ F .outComplete ∨ F .beam ∨ F .XX ∨ F .YY ∨ F .ZZ ∨ F .YZ ∨ F .Y) := by
    rw [← not_exists, hsplit]
    simp only [hF0, false_or]
  rw [hall]
  simp only [hm, reduceCtorEq, false_and, false_or, or_false, true_and]
  simp only [kPartial, kComplete, kBeam, kXX, kYY, kZZ, kYZ, kY]
  rw [e1, e2, e3, e4, e5, e6, e7, e8]
  generalize F .outPartial = p1
  generalize F .outComplete = p2
  generalize F .beam = p3
  generalize F .XX = p4
  generalize F .YY = p5
  generalize F .ZZ = p6
  generalize F .YZ = p7
  generalize F .Y = p8
  refine ⟨?_, ?_, ?_, ?_, ?_, ?_, ?_, ?_, ?_⟩ <;> (clear e1 e2 e3 e4 e5 e6 e7 e8 hm hv hsplit hall h3 hz hF hF0; tauto)

/-- C204 is false of the code as "only the criteria it meets": the track partly outside of the drift window, without any
T0, is also saved as incompatible with the beam, and the track from top to bottom also as crossing the length. -/
theorem C204_only_met_refuted :
    ((tag exCfg [exDown, exOut, exIn]).1.map fun t => decode t.tag) =
      [[.YY, .ZZ], [.outPartial, .beam], [.unknown]] ∧
    ¬ Fires exCfg ([exDown, exOut, exIn].eraseIdx 1) exOut .beam ∧
    ¬ Fires exCfg ([exDown, exOut, exIn].eraseIdx 0) exDown .ZZ := by
  refine ⟨by decide +kernel, ?_, ?_⟩
  · rintro ⟨_, h, _⟩; exact h rfl
  · rintro ⟨_, h⟩
    have : ¬ (exCfg.dmax 2 - exCfg.dmin 2 - |exDown.n0.pos.get 2 - exDown.n1.pos.get 2| < exCfg.fullMargin) := by
      decide +kernel
    exact this h

/-! #### T0 -/

/-- C209: a track with a reconstructed T0 different from zero is tagged if the T0 is farther from the trigger than the
margin, and not for its T0 otherwise. -/
theorem C209_t0_partial (c : Cfg) (ts : List Trk) (i : Nat) (t : Trk) (h : ts[i]? = some t) (hc : c.nonBeam = true)
    (h0 : t.t0 ≠ 0) :
    (Fires c (ts.eraseIdx i) t .beam ↔ |t.t0 - c.trigger| > c.beamMargin) ∧
    (|t.t0 - c.trigger| > c.beamMargin → ∃ t', (tag c ts).1[i]? = some t' ∧ has t'.tag kCosmic = true ∧
      Id.beam ∈ decode t'.tag) := by
  have hf : Fires c (ts.eraseIdx i) t .beam ↔ |t.t0 - c.trigger| > c.beamMargin :=
    ⟨fun h => h.2.2, fun h => ⟨hc, h0, h⟩⟩
  refine ⟨hf, fun hm => ?_⟩
  obtain ⟨t', h1, _, h3⟩ := C203_cosmic_iff c ts i t h
  obtain ⟨t'', h4, h5⟩ := C204_saved_partial c ts i t h .beam (hf.2 hm)
  have : t'' = t' := Option.some.inj (h4.symm.trans h1)
  exact ⟨t', h1, h3.2 (Or.inr ⟨_, hf.2 hm⟩), by rw [← this]; exact h5⟩

example : ((tag exCfg [{ exIn with t0 := 300 }, { exIn with t0 := 50 }]).1.map fun t => decode t.tag) =
    [[.outPartial, .outComplete, .beam], [.unknown]] := by decide +kernel

/-- C209 is false of the code for a zero T0: a track whose reconstructed T0 is exactly zero is never incompatible with the beam, however far the trigger is:
the code takes a zero T0 for a missing one although the track has a flag for it. -/
theorem C209_zero_t0_refuted (c : Cfg) (others : List Trk) (t : Trk) (h : t.t0 = 0) :
    ¬ Fires c others t .beam := by
  rintro ⟨_, h', _⟩; exact h' h

example : ∃ t : Trk, t.hasT0 = true ∧ t.t0 = 0 ∧ |t.t0 - 500| > exCfg.beamMargin :=
  ⟨{ exIn with hasT0 := true }, rfl, rfl, by decide +kernel⟩

/-! #### The count -/

theorem fired_count_pos (c : Cfg) (others : List Trk) (t : Trk) :
    0 < (fired c others t).countP Option.isSome ↔ ∃ id, Fires c others t id := by
  rw [List.countP_pos_iff]
  constructor
  · rintro ⟨f, hf, hs⟩
    cases f with
    | none => simp at hs
    | some f => exact ((fired_iff c others t f).1 hf).imp fun _ h => h.1
  · rintro ⟨id, h⟩
    exact ⟨_, (fired_iff c others t _).2 ⟨id, h, rfl⟩, rfl⟩

/-- C205: the number reported is at least the number of tracks newly recognised as cosmic rays, and at most seven
times the number of tracks that meet a criterion. -/
theorem C205_count_partial (c : Cfg) (ts : List Trk) (h0 : ∀ t ∈ ts, has t.tag kCosmic = false) :
    ((tag c ts).1.countP fun t => has t.tag kCosmic) ≤ (tag c ts).2 ∧
    (tag c ts).2 ≤ 7 * ((tag c ts).1.countP fun t => has t.tag kCosmic) := by
  have hmark : ∀ i t, ts[i]? = some t → has ((fired c (ts.eraseIdx i) t).foldl markO t).tag kCosmic =
      decide (0 < (fired c (ts.eraseIdx i) t).countP Option.isSome) := by
    intro i t h
    obtain ⟨t', h1, _, h3⟩ := C203_cosmic_iff c ts i t h
    have e : t' = (fired c (ts.eraseIdx i) t).foldl markO t := by
      rw [(tag_eq c ts).1, List.getElem?_mapIdx, h] at h1
      exact (Option.some.inj h1).symm
    rw [← e, Bool.eq_iff_iff, h3, h0 t (List.mem_of_getElem? h), decide_eq_true_eq, fired_count_pos]
    simp
  have h7 : ∀ o t, (fired c o t).countP Option.isSome ≤ 7 := fun o t => List.countP_le_length
  rw [(tag_eq c ts).1, (tag_eq c ts).2]
  -- as sums over positions
  have key : ∀ (l : List Trk) (k : Nat) (n : Nat → Trk → Nat) (g : Nat → Trk → Trk)
      (hg : ∀ i t, l[i]? = some t → has (g (i + k) t).tag kCosmic = decide (0 < n (i + k) t)) (hn : ∀ i t, n i t ≤ 7),
      ((l.mapIdx fun i t => g (i + k) t).countP fun t => has t.tag kCosmic) ≤ (l.mapIdx fun i t => n (i + k) t).sum ∧
      (l.mapIdx fun i t => n (i + k) t).sum ≤ 7 * ((l.mapIdx fun i t => g (i + k) t).countP fun t => has t.tag kCosmic) := by
    intro l
    induction l with
    | nil => intro k n g _ _; simp
    | cons a l ih =>
      intro k n g hg hn
      have h := ih (k + 1) n g (fun i t h => by
        have := hg (i + 1) t (by simpa using h)
        rw [show i + (k + 1) = i + 1 + k by omega]; exact this) hn
      have ha := hg 0 a rfl
      have e1 : (l.mapIdx fun i t => g (i + 1 + k) t) = l.mapIdx fun i t => g (i + (k + 1)) t := by
        congr 1; funext i t; congr 1; omega
      have e2 : (l.mapIdx fun i t => n (i + 1 + k) t) = l.mapIdx fun i t => n (i + (k + 1)) t := by
        congr 1; funext i t; congr 1; omega
      rw [List.mapIdx_cons, List.mapIdx_cons, List.countP_cons, List.sum_cons, e1, e2, ha]
      have hn0 := hn (0 + k) a
      by_cases hp : 0 < n (0 + k) a
      · simp only [hp, decide_true, if_true]
        omega
      · simp only [hp, decide_false, Bool.false_eq_true, if_false]
        omega
  have := key ts 0 (fun i t => (fired c (ts.eraseIdx i) t).countP Option.isSome)
    (fun i t => (fired c (ts.eraseIdx i) t).foldl markO t) hmark (fun i t => h7 _ _)
  simpa using this

/-- C205 is false of the code as "the number of tracks tagged": one track is counted once for each criterion. -/
theorem C205_count_refuted :
    (tag exCfg [⟨⟨(-50, 299, 100), 0⟩, [], ⟨(60, -299, 120), 0⟩, false, 0, [], 0⟩]).2 = 2 := by decide +kernel

/-! #### Orientation -/

/-- the same track from the other end -/
def Trk.rev (t : Trk) : Trk := { t with n0 := t.n1, mid := t.mid.reverse, n1 := t.n0, dedx := t.dedx.map List.reverse }

theorem rev_nodes (t : Trk) : t.rev.nodes = t.nodes.reverse := by simp [Trk.rev, Trk.nodes]

theorem upper_rev (h : Nat) (t : Trk) (hh : t.n0.pos.get h ≠ t.n1.pos.get h) : upper h t.rev = upper h t := by
  unfold upper Trk.rev
  dsimp only
  rcases lt_trichotomy (t.n0.pos.get h) (t.n1.pos.get h) with h' | h' | h'
  · rw [if_pos h', if_neg (not_lt.2 h'.le)]
  · exact absurd h' hh
  · rw [if_neg (not_lt.2 h'.le), if_pos h']

theorem lower_rev (h : Nat) (t : Trk) (hh : t.n0.pos.get h ≠ t.n1.pos.get h) : lower h t.rev = lower h t := by
  unfold lower Trk.rev
  dsimp only
  rcases lt_trichotomy (t.n0.pos.get h) (t.n1.pos.get h) with h' | h' | h'
  · rw [if_neg (not_le.2 h'), if_pos h'.le]
  · exact absurd h' hh
  · rw [if_pos h'.le, if_neg (not_le.2 h')]

theorem below_rev (c : Cfg) (t : Trk) : Below c t.rev ↔ Below c t := by
  unfold Below; rw [rev_nodes]; simp only [List.mem_reverse]
theorem above_rev (c : Cfg) (t : Trk) : Above c t.rev ↔ Above c t := by
  unfold Above; rw [rev_nodes]; simp only [List.mem_reverse]
theorem spans_rev (c : Cfg) (i : Nat) (t : Trk) : Spans c i t.rev ↔ Spans c i t := by
  unfold Spans Trk.rev; dsimp only; rw [abs_sub_comm]

/-- C206: the criteria do not depend on which end of a track comes first, for a track whose ends are at different
heights, except the one for stopping tracks when it looks at the dE/dx; the direction of the other tracks never
matters. -/
theorem C206_orientation_partial (c : Cfg) (others : List Trk) (t : Trk) (id : Id)
    (hh : ∀ h, dirIdx c.hDir = some h → t.n0.pos.get h ≠ t.n1.pos.get h) (hv : id = .Y → c.veto = false) :
    (Fires c others t.rev id ↔ Fires c others t id) ∧
      (Fires c (others.map Trk.rev) t id ↔ Fires c others t id) := by
  constructor
  · cases id with
    | unknown => exact Iff.rfl
    | outPartial => unfold Fires; rw [below_rev, above_rev]
    | outComplete => unfold Fires; rw [below_rev, above_rev]
    | beam => exact Iff.rfl
    | XX => simp only [Fires, spans_rev]
    | YY => simp only [Fires, spans_rev]
    | ZZ => simp only [Fires, spans_rev]
    | YZ =>
      unfold Fires
      refine and_congr Iff.rfl (exists_congr fun h => exists_congr fun l => and_congr_right fun e => ?_)
      rw [upper_rev h t (hh h e), lower_rev h t (hh h e)]
    | Y =>
      unfold Fires
      refine and_congr Iff.rfl (exists_congr fun h => and_congr_right fun e => ?_)
      rw [upper_rev h t (hh h e), lower_rev h t (hh h e), hv rfl]
      simp only [Bool.false_eq_true, false_implies]
  · cases id with
    | Y =>
      unfold Fires
      refine and_congr Iff.rfl (exists_congr fun h => and_congr_right fun e => ?_)
      refine and_congr Iff.rfl (and_congr Iff.rfl (and_congr ?_ Iff.rfl))
      rw [List.forall_mem_map]
      exact forall_congr' fun o => imp_congr Iff.rfl And.comm
    | _ => exact Iff.rfl

/-- a track that enters at the top and stops, stored from the top: the charge rises at its last hit -/
def exStop : Trk := ⟨⟨(50, 299, 100), 0⟩, [], ⟨(60, 0, 120), 0⟩, false, 0, [[2, 2, 2, 2, 2, 2, 2, 2, 2, 2, 2, 2, 9]], 0⟩

/-- C206 is false of the code with the dE/dx: the last value of the list is taken, whichever end of the track it
belongs to.  The same stopping track is kept if it is stored from the top and tagged as a cosmic ray if it is stored
from its end. -/
theorem C206_orientation_refuted :
    ((tag exCfg [exStop]).1.map fun t => has t.tag kCosmic) = [false] ∧
    ((tag exCfg [exStop.rev]).1.map fun t => has t.tag kCosmic) = [true] := by decide +kernel

/-! #### The dimensions of the detector -/

theorem dimMin_fold (i : Nat) (ts : List Tpc) (m : ℚ) :
    let r := ts.foldl (fun m t => if t.drift < 25 then m
      else if t.center.get i - t.half.get i < m then t.center.get i - t.half.get i else m) m
    r ≤ m ∧ (∀ t ∈ ts, 25 ≤ t.drift → r ≤ t.center.get i - t.half.get i) ∧
      (r = m ∨ ∃ t ∈ ts, 25 ≤ t.drift ∧ r = t.center.get i - t.half.get i) := by
  induction ts generalizing m with
  | nil => exact ⟨le_refl _, by simp, Or.inl rfl⟩
  | cons a ts ih =>
    rw [List.foldl_cons]
    by_cases hd : a.drift < 25
    · rw [if_pos hd]
      obtain ⟨h1, h2, h3⟩ := ih m
      refine ⟨h1, ?_, ?_⟩
      · intro t ht h25
        rcases List.mem_cons.1 ht with rfl | ht
        · exact absurd h25 (not_le.2 hd)
        · exact h2 t ht h25
      · exact h3.imp id fun ⟨t, ht, h⟩ => ⟨t, List.mem_cons_of_mem _ ht, h⟩
    · rw [if_neg hd]
      by_cases hl : a.center.get i - a.half.get i < m
      · rw [if_pos hl]
        obtain ⟨h1, h2, h3⟩ := ih (a.center.get i - a.half.get i)
        refine ⟨le_trans h1 hl.le, ?_, ?_⟩
        · intro t ht h25
          rcases List.mem_cons.1 ht with rfl | ht
          · exact h1
          · exact h2 t ht h25
        · rcases h3 with h3 | ⟨t, ht, h⟩
          · exact Or.inr ⟨a, List.mem_cons_self, not_lt.1 hd, h3⟩
          · exact Or.inr ⟨t, List.mem_cons_of_mem _ ht, h⟩
      · rw [if_neg hl]
        obtain ⟨h1, h2, h3⟩ := ih m
        refine ⟨h1, ?_, ?_⟩
        · intro t ht h25
          rcases List.mem_cons.1 ht with rfl | ht
          · exact le_trans h1 (not_lt.1 hl)
          · exact h2 t ht h25
        · exact h3.imp id fun ⟨t, ht, h⟩ => ⟨t, List.mem_cons_of_mem _ ht, h⟩

theorem dimMax_eq (ts : List Tpc) (i : Nat) :
    dimMax ts i = - dimMin (ts.map fun t => ⟨t.drift, (-t.center.1, -t.center.2.1, -t.center.2.2), t.half⟩) i := by
  have key : ∀ m : ℚ, ts.foldl (fun m t => if t.drift < 25 then m
      else if t.center.get i + t.half.get i > m then t.center.get i + t.half.get i else m) m =
    - (ts.map fun t : Tpc => (⟨t.drift, (-t.center.1, -t.center.2.1, -t.center.2.2), t.half⟩ : Tpc)).foldl
      (fun m t => if t.drift < 25 then m
        else if t.center.get i - t.half.get i < m then t.center.get i - t.half.get i else m) (-m) := by
    induction ts with
    | nil => intro m; simp
    | cons a ts ih =>
      intro m
      rw [List.map_cons, List.foldl_cons, List.foldl_cons]
      have hneg : V.get (-a.center.1, -a.center.2.1, -a.center.2.2) i = - a.center.get i := by
        rcases i with _ | _ | _ | i <;> simp [V.get]
      dsimp only
      rw [hneg]
      split_ifs with h1 h2 h3 h3
      · exact ih m
      · rw [ih]; congr 2; ring
      · exfalso; linarith
      · exfalso; linarith
      · exact ih m
  unfold dimMax dimMin
  have := key (-1000000)
  rw [this, neg_neg]

/-- C207: the limits used are those of the box around the TPCs with a drift of 25 cm or more, provided the box is within
10 km: each limit bounds every such TPC and is reached by one. -/
theorem C207_dimensions (ts : List Tpc) (i : Nat) (a : Tpc) (ha : a ∈ ts) (h25 : 25 ≤ a.drift)
    (hlo : a.center.get i - a.half.get i < 1000000) (hhi : -1000000 < a.center.get i + a.half.get i) :
    (∀ t ∈ ts, 25 ≤ t.drift → dimMin ts i ≤ t.center.get i - t.half.get i ∧ t.center.get i + t.half.get i ≤ dimMax ts i) ∧
    (∃ t ∈ ts, 25 ≤ t.drift ∧ dimMin ts i = t.center.get i - t.half.get i) ∧
    (∃ t ∈ ts, 25 ≤ t.drift ∧ dimMax ts i = t.center.get i + t.half.get i) := by
  have h := dimMin_fold i ts 1000000
  dsimp only at h
  change dimMin ts i ≤ _ ∧ (∀ t ∈ ts, 25 ≤ t.drift → dimMin ts i ≤ _) ∧ (dimMin ts i = _ ∨ ∃ t ∈ ts, 25 ≤ t.drift ∧ dimMin ts i = _) at h
  have hneg : ∀ t : Tpc, V.get (-t.center.1, -t.center.2.1, -t.center.2.2) i = - t.center.get i := by
    intro t; rcases i with _ | _ | _ | i <;> simp [V.get]
  have h' := dimMin_fold i (ts.map fun t => ⟨t.drift, (-t.center.1, -t.center.2.1, -t.center.2.2), t.half⟩) 1000000
  dsimp only at h'
  have he := dimMax_eq ts i
  unfold dimMin at he
  generalize ((ts.map fun t : Tpc => (⟨t.drift, (-t.center.1, -t.center.2.1, -t.center.2.2), t.half⟩ : Tpc)).foldl
      (fun m t => if t.drift < 25 then m
        else if t.center.get i - t.half.get i < m then t.center.get i - t.half.get i else m) 1000000) = r at he h'
  obtain ⟨g1, g2, g3⟩ := h
  obtain ⟨k1, k2, k3⟩ := h'
  rw [List.forall_mem_map] at k2
  refine ⟨fun t ht hd => ⟨g2 t ht hd, ?_⟩, ?_, ?_⟩
  · have := k2 t ht hd
    dsimp only at this
    rw [hneg] at this
    rw [he]; linarith
  · rcases g3 with g3 | g3
    · exfalso
      have := g2 a ha h25
      linarith
    · exact g3
  · rcases k3 with k3 | ⟨t, ht, hd, k3⟩
    · exfalso
      have := k2 a ha h25
      dsimp only at this
      rw [hneg] at this
      linarith
    · rw [List.mem_map] at ht
      obtain ⟨u, hu, rfl⟩ := ht
      refine ⟨u, hu, hd, ?_⟩
      dsimp only at k3
      rw [hneg] at k3
      rw [he, k3]; ring

example : exCfg.dmin 0 = 0 ∧ exCfg.dmax 0 = 200 ∧ exCfg.dmin 1 = -300 ∧ exCfg.dmax 1 = 300 ∧ exCfg.dmax 2 = 700 := by
  decide +kernel

/-! #### The dE/dx of stopping tracks -/

theorem sum_sq_dev (y : ℚ) (l : List ℚ) :
    (l.map fun x => (x - y) * (x - y)).sum = (l.map fun x => x * x).sum - 2 * y * l.sum + (l.length : ℚ) * (y * y) := by
  induction l with
  | nil => simp
  | cons a l ih =>
    simp only [List.map_cons, List.sum_cons, List.length_cons]
    rw [ih]
    push_cast
    ring

theorem sum_sq_nonneg (f : ℚ → ℚ) (l : List ℚ) : 0 ≤ (l.map fun x => f x * f x).sum := by
  induction l with
  | nil => simp
  | cons a l ih =>
    simp only [List.map_cons, List.sum_cons]
    have := mul_self_nonneg (f a)
    linarith

theorem cauchy (l : List ℚ) : l.sum * l.sum ≤ (l.length : ℚ) * (l.map fun x => x * x).sum := by
  induction l with
  | nil => simp
  | cons a l ih =>
    simp only [List.map_cons, List.sum_cons, List.length_cons]
    have h := sum_sq_nonneg (fun x => x - a) l
    rw [sum_sq_dev] at h
    push_cast
    nlinarith

/-- the last of `n` values is at most `(n-1)/sqrt(n)` standard deviations from the mean -/
theorem samuelson (d : List ℚ) (x : ℚ) (hx : d.getLast? = some x) (h2 : 2 ≤ d.length) :
    (d.length : ℚ) * ((x - mean d) * (x - mean d)) ≤ ((d.length : ℚ) - 1) * ((d.length : ℚ) - 1) * var d := by
  obtain ⟨l, rfl⟩ : ∃ l, d = l ++ [x] := by
    have hne : d ≠ [] := by rintro rfl; simp at h2
    refine ⟨d.dropLast, ?_⟩
    rw [List.getLast?_eq_some_getLast hne] at hx
    rw [← Option.some.inj hx, List.dropLast_append_getLast]
  have hlen : ((l ++ [x]).length : ℚ) = (l.length : ℚ) + 1 := by simp
  have hl1 : (1 : ℚ) ≤ (l.length : ℚ) := by
    have : 1 ≤ l.length := by simpa using h2
    exact_mod_cast this
  have hm : ((l.length : ℚ) + 1) * mean (l ++ [x]) = l.sum + x := by
    unfold mean
    rw [hlen, List.sum_append, List.sum_singleton]
    field_simp
  unfold var
  rw [hlen]
  generalize mean (l ++ [x]) = m at *
  have hc := cauchy (l.map fun y => y - m)
  have hs : (l.map fun y => y - m).sum = l.sum - (l.length : ℚ) * m := by
    clear hm hc hl1 hlen h2 hx
    induction l with
    | nil => simp
    | cons a l ih => simp only [List.map_cons, List.sum_cons, List.length_cons, ih]; push_cast; ring
  rw [hs, List.length_map, List.map_map] at hc
  have hcomp : ((fun x => x * x) ∘ fun y => y - m) = fun y : ℚ => (y - m) * (y - m) := rfl
  rw [hcomp] at hc
  rw [List.map_append, List.sum_append, List.map_singleton, List.sum_singleton]
  have e : l.sum - (l.length : ℚ) * m = -(x - m) := by linarith
  rw [e] at hc
  have e2 : (l.length : ℚ) + 1 - 1 = (l.length : ℚ) := by ring
  rw [e2]
  generalize (l.map fun y => (y - m) * (y - m)).sum = S at *
  have hpos : (0 : ℚ) < (l.length : ℚ) := by linarith
  rw [mul_assoc, mul_div_assoc', mul_comm ((l.length : ℚ)) (S + _), mul_div_assoc, div_self hpos.ne', mul_one]
  nlinarith

/-- C208: a view with at most five values never reaches two sigma and one with at most ten never three, whatever the
values are: the end of the track cannot veto the tag there. -/
theorem C208_few_values (d : List ℚ) :
    (d.length ≤ 5 → sigma 2 d = false) ∧ (d.length ≤ 10 → sigma 3 d = false) := by
  have key : ∀ (k : ℚ) (N : Nat), 0 ≤ k → (((N : ℚ) - 1) * ((N : ℚ) - 1) < k * k * (N : ℚ)) →
      (∀ n : Nat, 2 ≤ n → n ≤ N → ((n : ℚ) - 1) * ((n : ℚ) - 1) < k * k * (n : ℚ)) → d.length ≤ N → sigma k d = false := by
    intro k N hk _ hN hl
    unfold sigma
    cases hx : d.getLast? with
    | none => rfl
    | some x =>
      dsimp only
      rw [decide_eq_false_iff_not]
      rintro ⟨h2, hv, hs⟩
      have := samuelson d x hx h2
      have hn := hN d.length h2 hl
      have hpos : (0 : ℚ) < (d.length : ℚ) := by
        have : 0 < d.length := by omega
        exact_mod_cast this
      have h3 := mul_le_mul_of_nonneg_left hs hpos.le
      have h4 := mul_lt_mul_of_pos_right hn hv
      nlinarith
  constructor
  · refine key 2 5 (by norm_num) (by norm_num) ?_
    intro n h1 h2
    have a : (2 : ℚ) ≤ n := by exact_mod_cast h1
    have b : (n : ℚ) ≤ 5 := by exact_mod_cast h2
    nlinarith
  · refine key 3 10 (by norm_num) (by norm_num) ?_
    intro n h1 h2
    have a : (2 : ℚ) ≤ n := by exact_mod_cast h1
    have b : (n : ℚ) ≤ 10 := by exact_mod_cast h2
    nlinarith

example : sigma 2 [2, 2, 2, 2, 9] = false ∧ sigma 2 [2, 2, 2, 2, 2, 9] = true ∧
    sigma 3 [2, 2, 2, 2, 2, 2, 2, 2, 2, 9] = false ∧ sigma 3 [2, 2, 2, 2, 2, 2, 2, 2, 2, 2, 9] = true := by decide +kernel

/-- the reasonable values: positive and at most 10^6 -/
def Reason (d : List ℚ) : List ℚ := d.filter fun x => 0 < x ∧ x ≤ 10 ^ 6

theorem reasonable_eq (d : List ℚ) : reasonable d = Reason d := by
  unfold reasonable Reason
  apply List.filter_congr
  intro x _
  rw [Bool.eq_iff_iff, Bool.not_eq_true', Bool.or_eq_false_iff, decide_eq_false_iff_not, decide_eq_false_iff_not,
    decide_eq_true_eq, not_le, not_lt]
  norm_num

/-- C208: the veto: a track is a stopping one if some view has its last value three sigma from the mean, or every
view with values has it two sigma from it; in particular a track without any reasonable value is never tagged. -/
theorem C208_veto (dedx : List (List ℚ)) :
    (notStopper dedx = true ↔
      (∀ d ∈ dedx, sigma 3 (Reason d) = false) ∧ ∃ d ∈ dedx, Reason d ≠ [] ∧ sigma 2 (Reason d) = false) ∧
    ((∀ d ∈ dedx, Reason d = []) → notStopper dedx = false) := by
  simp only [← reasonable_eq]
  have hmain : notStopper dedx = true ↔
      (∀ d ∈ dedx, sigma 3 (reasonable d) = false) ∧ ∃ d ∈ dedx, reasonable d ≠ [] ∧ sigma 2 (reasonable d) = false := by
    unfold notStopper
    dsimp only
    rw [Bool.not_eq_true', Bool.or_eq_false_iff, decide_eq_false_iff_not, decide_eq_false_iff_not, Nat.pos_iff_ne_zero,
      not_not, List.countP_eq_zero, List.countP_eq_length]
    refine and_congr ⟨?_, ?_⟩ ⟨?_, ?_⟩
    · intro h d hd
      by_cases hne : reasonable d = []
      · rw [hne]; rfl
      · have := h (reasonable d) (List.mem_filter.2 ⟨List.mem_map_of_mem hd, by simpa using hne⟩)
        simpa using this
    · intro h r hr
      obtain ⟨hr, _⟩ := List.mem_filter.1 hr
      obtain ⟨d, hd, rfl⟩ := List.mem_map.1 hr
      rw [h d hd]; simp
    · intro h
      push Not at h
      obtain ⟨r, hr, hs⟩ := h
      obtain ⟨hr, hne⟩ := List.mem_filter.1 hr
      obtain ⟨d, hd, rfl⟩ := List.mem_map.1 hr
      exact ⟨d, hd, by simpa using hne, by simpa using hs⟩
    · rintro ⟨d, hd, hne, hs⟩ h
      have := h (reasonable d) (List.mem_filter.2 ⟨List.mem_map_of_mem hd, by simpa using hne⟩)
      rw [hs] at this; exact absurd this (by simp)
  refine ⟨hmain, fun h => ?_⟩
  by_contra hc
  rw [Bool.not_eq_false] at hc
  obtain ⟨_, d, hd, hne, _⟩ := hmain.1 hc
  exact hne (h d hd)

example : notStopper [[2, 2, 2, 2, 2, 9]] = false ∧ notStopper [[2, 3, 2], [2, 2, 2, 2, 2, 9]] = true ∧
    notStopper [] = false := by decide +kernel

end Verif.Tag

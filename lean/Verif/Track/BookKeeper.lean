import Verif.Basic
/-!
# `trkmkr::TrackCreationBookKeeper` and its optional outputs (C19, C56)

Sources: `/repo/larreco/RecoAlg/TrackCreationBookKeeper.h`, `/repo/larreco/RecoAlg/TrackTrajectoryCreationBookKeeper.h`,
`/repo/larreco/TrackFinder/TrackMaker.h`. Points, vectors, hits, flags, fit infos and space points are opaque values.
The chi2 type is any type with `0`, `+` and a decidable `0 ≤ ·` (so the statements hold for `double` as it is, rounding
and NaN included). The copying and moving overloads of `addPoint` store the same values and share one definition.
-/
namespace Verif.Track

/-- `OptionalPointElement`, TrackMaker.h:44-87: two owning pointers -/
structure Ope (I S : Type) where
  info : Option I
  sp : Option S

/-- `OptionalOutputs`, TrackMaker.h:108-172 -/
structure Opts (I S H : Type) where
  infos : Option (List I)
  sps : Option (List (S × H))

namespace Opts
variable {I S H : Type}

/-- `reset`, TrackMaker.h:128-138 -/
def reset (o : Opts I S H) : Opts I S H :=
  { infos := o.infos.map (fun _ => []), sps := o.sps.map (fun _ => []) }

/-- `addPoint(ope)`, TrackMaker.h:113-118: a stored info is moved out of the element (`getTrackFitHitInfo`,
TrackMaker.h:58-63) -/
def addPoint (o : Opts I S H) (e : Ope I S) : Opts I S H × Ope I S :=
  match o.infos, e.info with
  | some l, some i => ({ o with infos := some (l ++ [i]) }, { e with info := none })
  | _, _ => (o, e)

/-- `addPoint(ope, hptr)`, TrackMaker.h:120-126 -/
def addPointHit (o : Opts I S H) (e : Ope I S) (h : H) : Opts I S H × Ope I S :=
  match o.sps, e.sp with
  | some l, some s => addPoint { o with sps := some (l ++ [(s, h)]) } { e with sp := none }
  | _, _ => addPoint o e

/-- `trackFitHitInfos()`, TrackMaker.h:151-158: returned once, then not available -/
def takeInfos (o : Opts I S H) : Res (List I) × Opts I S H :=
  match o.infos with
  | none => (.throw, o)
  | some l => (.ok l, { o with infos := none })

/-- `spacePointHitPairs()`, TrackMaker.h:160-167 -/
def takeSps (o : Opts I S H) : Res (List (S × H)) × Opts I S H :=
  match o.sps with
  | none => (.throw, o)
  | some l => (.ok l, { o with sps := none })
end Opts

section
variable {P V H Fl F I S : Type}

/-- members of both book keepers, with the output vectors they point to -/
structure Book (P V H Fl F I S : Type) where
  positions : List P
  momenta : List V
  hits : List H
  flags : List Fl
  chi2v : List F
  tot : F
  opts : Opts I S H
  nfit : Int
  tkID : Int
  pdg : Int
  hasMom : Bool

/-- constructors, TrackCreationBookKeeper.h:35-49 and TrackTrajectoryCreationBookKeeper.h:36-40; `outhits` and
`optionals` are the caller's objects, whatever they held before -/
def mk [Zero F] (_outhits : List H) (optionals : Opts I S H) (tkID pdg : Int) (hasMom : Bool) (nfit : Int) :
    Book P V H Fl F I S :=
  { positions := [], momenta := [], hits := [], flags := [], chi2v := [], tot := 0, opts := optionals.reset,
    nfit := nfit, tkID := tkID, pdg := pdg, hasMom := hasMom }

/-- `addPoint` without optional element, TrackCreationBookKeeper.h:60-71, with
TrackTrajectoryCreationBookKeeper.h:53-69 -/
def addPoint [Zero F] [Add F] [LE F] [DecidableLE F] (b : Book P V H Fl F I S) (p : P) (v : V) (h : H) (f : Fl)
    (chi2 : F) : Book P V H Fl F I S :=
  let b := { b with positions := b.positions ++ [p], momenta := b.momenta ++ [v], hits := b.hits ++ [h],
                    flags := b.flags ++ [f] }
  if 0 ≤ chi2 then { b with chi2v := b.chi2v ++ [chi2], tot := b.tot + chi2 } else b

/-- `addPoint` with an optional element, TrackCreationBookKeeper.h:72-81: forwards the element *without* the hit -/
def addPointOpe [Zero F] [Add F] [LE F] [DecidableLE F] (b : Book P V H Fl F I S) (p : P) (v : V) (h : H) (f : Fl)
    (chi2 : F) (e : Ope I S) : Book P V H Fl F I S × Ope I S :=
  let b := addPoint b p v h f chi2
  let (o, e') := b.opts.addPoint e
  ({ b with opts := o }, e')

/-- `setTotChi2`, TrackCreationBookKeeper.h:107 -/
def setTotChi2 (b : Book P V H Fl F I S) (c : F) : Book P V H Fl F I S := { b with tot := c }

/-- what goes into the `recob::Track` (covariances omitted), TrackCreationBookKeeper.h:111-131 with
TrackTrajectoryCreationBookKeeper.h:72-77 -/
structure TrackOut (P V Fl F : Type) where
  positions : List P
  momenta : List V
  flags : List Fl
  hasMom : Bool
  pdg : Int
  chi2 : F
  ndof : Int
  id : Int

/-- `finalizeTrack`: the three vectors are moved out, the hit vector stays with the caller -/
def finalizeTrack (b : Book P V H Fl F I S) : TrackOut P V Fl F × Book P V H Fl F I S :=
  ({ positions := b.positions, momenta := b.momenta, flags := b.flags, hasMom := b.hasMom, pdg := b.pdg,
     chi2 := b.tot, ndof := b.chi2v.length - b.nfit, id := b.tkID },
   { b with positions := [], momenta := [], flags := [] })

/-! ## Specification -/

/-- one call of `addPoint` as the user makes it; `ope` is the optional element, if that overload is used -/
structure Call (P V H Fl F I S : Type) where
  p : P
  v : V
  h : H
  f : Fl
  chi2 : F
  ope : Option (Ope I S)

inductive Op (P V H Fl F I S : Type) where
  | add (c : Call P V H Fl F I S)
  | setTot (c : F)

def step [Zero F] [Add F] [LE F] [DecidableLE F] (b : Book P V H Fl F I S) : Op P V H Fl F I S → Book P V H Fl F I S
  | .add c => match c.ope with
    | none => addPoint b c.p c.v c.h c.f c.chi2
    | some e => (addPointOpe b c.p c.v c.h c.f c.chi2 e).1
  | .setTot c => setTotChi2 b c

def run [Zero F] [Add F] [LE F] [DecidableLE F] (b : Book P V H Fl F I S) (ops : List (Op P V H Fl F I S)) :
    Book P V H Fl F I S := ops.foldl step b

/-- the `addPoint` calls among the operations -/
def calls (ops : List (Op P V H Fl F I S)) : List (Call P V H Fl F I S) :=
  ops.filterMap (fun | .add c => some c | .setTot _ => none)

/-- the chi2 values that count -/
def counted [Zero F] [LE F] [DecidableLE F] (cs : List (Call P V H Fl F I S)) : List F :=
  (cs.map (·.chi2)).filter (fun x => decide (0 ≤ x))

/-! ## Proofs -/

variable [Zero F] [Add F] [LE F] [DecidableLE F]

theorem run_append (b : Book P V H Fl F I S) (o1 o2 : List (Op P V H Fl F I S)) :
    run b (o1 ++ o2) = run (run b o1) o2 := by simp [run, List.foldl_append]

theorem addPoint_fields (b : Book P V H Fl F I S) (p : P) (v : V) (h : H) (f : Fl) (x : F) :
    let b' := addPoint b p v h f x
    b'.positions = b.positions ++ [p] ∧ b'.momenta = b.momenta ++ [v] ∧ b'.hits = b.hits ++ [h] ∧
    b'.flags = b.flags ++ [f] ∧ b'.chi2v = b.chi2v ++ (if 0 ≤ x then [x] else []) ∧
    b'.tot = (if 0 ≤ x then [x] else []).foldl (· + ·) b.tot ∧ b'.opts = b.opts ∧ b'.nfit = b.nfit ∧
    b'.tkID = b.tkID ∧ b'.pdg = b.pdg ∧ b'.hasMom = b.hasMom := by
  by_cases hx : (0 : F) ≤ x <;> simp [addPoint, hx]

theorem opts_addPoint_infos (o : Opts I S H) (e : Ope I S) :
    (o.addPoint e).1.infos = o.infos.map (· ++ e.info.toList) ∧ (o.addPoint e).1.sps = o.sps := by
  unfold Opts.addPoint
  cases h1 : o.infos <;> cases h2 : e.info <;> simp [h1]

/-- one step, all members -/
theorem step_fields (b : Book P V H Fl F I S) (op : Op P V H Fl F I S) :
    let b' := step b op
    b'.positions = b.positions ++ (calls [op]).map (·.p) ∧ b'.momenta = b.momenta ++ (calls [op]).map (·.v) ∧
    b'.hits = b.hits ++ (calls [op]).map (·.h) ∧ b'.flags = b.flags ++ (calls [op]).map (·.f) ∧
    b'.chi2v = b.chi2v ++ counted (calls [op]) ∧
    b'.tot = (match op with
      | .add c => (counted [c]).foldl (· + ·) b.tot
      | .setTot c => c) ∧
    b'.opts.infos = b.opts.infos.map (· ++ (calls [op]).filterMap (fun c => c.ope.bind (·.info))) ∧
    b'.opts.sps = b.opts.sps ∧ b'.nfit = b.nfit ∧ b'.tkID = b.tkID ∧ b'.pdg = b.pdg ∧ b'.hasMom = b.hasMom := by
  cases op with
  | setTot c => simp [step, setTotChi2, calls, counted]
  | add c =>
    obtain ⟨h1, h2, h3, h4, h5, h6, h7, h8, h9, h10, h11⟩ := addPoint_fields b c.p c.v c.h c.f c.chi2
    have hcalls : calls [Op.add c] = [c] := rfl
    have hcnt : counted [c] = if 0 ≤ c.chi2 then [c.chi2] else [] := by
      simp only [counted, List.map_cons, List.map_nil, List.filter_cons, List.filter_nil]
      by_cases hx : (0 : F) ≤ c.chi2 <;> simp [hx]
    rw [hcalls, hcnt]
    cases he : c.ope with
    | none =>
      have hs : step b (.add c) = addPoint b c.p c.v c.h c.f c.chi2 := by simp [step, he]
      rw [hs]
      refine ⟨by simpa using h1, by simpa using h2, by simpa using h3, by simpa using h4, h5, ?_, ?_, by rw [h7], h8, h9, h10, h11⟩
      · simpa [hcnt] using h6
      · rw [h7]
        have : List.filterMap (fun c : Call P V H Fl F I S => c.ope.bind (·.info)) [c] = [] := by simp [he]
        rw [this]; cases b.opts.infos <;> simp
    | some e =>
      have hs : step b (.add c) = (addPointOpe b c.p c.v c.h c.f c.chi2 e).1 := by simp [step, he]
      rw [hs]
      obtain ⟨g1, g2⟩ := opts_addPoint_infos (addPoint b c.p c.v c.h c.f c.chi2).opts e
      simp only [addPointOpe]
      refine ⟨by simpa using h1, by simpa using h2, by simpa using h3, by simpa using h4, h5, ?_, ?_, ?_, h8, h9, h10, h11⟩
      · simpa [hcnt] using h6
      · rw [g1, h7]
        have : List.filterMap (fun c : Call P V H Fl F I S => c.ope.bind (·.info)) [c] = e.info.toList := by
          cases hi : e.info <;> simp [he, hi]
        rw [this]
      · rw [g2, h7]

theorem calls_append (a b : List (Op P V H Fl F I S)) : calls (a ++ b) = calls a ++ calls b := by
  simp [calls]

theorem counted_append (a b : List (Call P V H Fl F I S)) : counted (a ++ b) = counted a ++ counted b := by
  simp [counted]

/-- the whole history, all members but the total -/
theorem run_fields (b : Book P V H Fl F I S) (ops : List (Op P V H Fl F I S)) :
    let b' := run b ops
    b'.positions = b.positions ++ (calls ops).map (·.p) ∧ b'.momenta = b.momenta ++ (calls ops).map (·.v) ∧
    b'.hits = b.hits ++ (calls ops).map (·.h) ∧ b'.flags = b.flags ++ (calls ops).map (·.f) ∧
    b'.chi2v = b.chi2v ++ counted (calls ops) ∧
    b'.opts.infos = b.opts.infos.map (· ++ (calls ops).filterMap (fun c => c.ope.bind (·.info))) ∧
    b'.opts.sps = b.opts.sps ∧ b'.nfit = b.nfit ∧ b'.tkID = b.tkID ∧ b'.pdg = b.pdg ∧ b'.hasMom = b.hasMom := by
  induction ops generalizing b with
  | nil => simp [run, calls, counted]
  | cons op ops ih =>
    have hr : run b (op :: ops) = run (step b op) ops := rfl
    have hc : calls (op :: ops) = calls [op] ++ calls ops := calls_append [op] ops
    rw [hr, hc]
    obtain ⟨a1, a2, a3, a4, a5, a6, a7, a8, a9, a10, a11⟩ := ih (step b op)
    obtain ⟨s1, s2, s3, s4, s5, _, s7, s8, s9, s10, s11, s12⟩ := step_fields b op
    refine ⟨by rw [a1, s1]; simp, by rw [a2, s2]; simp, by rw [a3, s3]; simp, by rw [a4, s4]; simp,
      by rw [a5, s5, counted_append]; simp, ?_, by rw [a7, s8], by rw [a8, s9], by rw [a9, s10], by rw [a10, s11], by rw [a11, s12]⟩
    rw [a6, s7, List.filterMap_append]
    cases b.opts.infos <;> simp

theorem run_adds_tot (b : Book P V H Fl F I S) (cs : List (Call P V H Fl F I S)) :
    (run b (cs.map .add)).tot = (counted cs).foldl (· + ·) b.tot := by
  induction cs generalizing b with
  | nil => rfl
  | cons c cs ih =>
    have hr : run b ((c :: cs).map .add) = run (step b (.add c)) (cs.map .add) := rfl
    obtain ⟨_, _, _, _, _, s6, _⟩ := step_fields b (.add c)
    rw [hr, ih, s6]
    have : counted (c :: cs) = counted [c] ++ counted cs := counted_append [c] cs
    rw [this, List.foldl_append]

/-- **C19.** For every sequence of `addPoint`/`setTotChi2` calls on a new book keeper and whatever the caller's output
vector held before: positions, momenta, flags and output hits list the calls' arguments in call order (hence equal
lengths), and the track's number of degrees of freedom is the number of non-negative chi2 values minus the number of
fitted parameters; identifiers are passed through. -/
theorem C19_vectors_in_step (old : List H) (o : Opts I S H) (tkID pdg : Int) (hasMom : Bool) (nfit : Int)
    (ops : List (Op P V H Fl F I S)) :
    let b := run (mk old o tkID pdg hasMom nfit) ops
    let t := (finalizeTrack b).1
    let cs := calls ops
    t.positions = cs.map (·.p) ∧ t.momenta = cs.map (·.v) ∧ t.flags = cs.map (·.f) ∧
    (finalizeTrack b).2.hits = cs.map (·.h) ∧
    t.ndof = ((cs.map (·.chi2)).filter (fun x => decide (0 ≤ x))).length - nfit ∧
    t.id = tkID ∧ t.pdg = pdg ∧ t.hasMom = hasMom := by
  obtain ⟨a1, a2, a3, a4, a5, _, _, a8, a9, a10, a11⟩ :=
    run_fields (mk old o tkID pdg hasMom nfit : Book P V H Fl F I S) ops
  refine ⟨a1, a2, a4, a3, ?_, a9, a10, a11⟩
  show ((run (mk old o tkID pdg hasMom nfit) ops).chi2v.length : Int) - (run (mk old o tkID pdg hasMom nfit) ops).nfit = _
  rw [a5, a8]
  rfl

/-- **C19 (total chi2).** Without `setTotChi2` the track's chi2 is the sum, in call order, of the non-negative chi2
values; otherwise it is the last value set plus those of the later calls. -/
theorem C19_total_chi2 (old : List H) (o : Opts I S H) (tkID pdg : Int) (hasMom : Bool) (nfit : Int)
    (pre : List (Op P V H Fl F I S)) (c : F) (cs : List (Call P V H Fl F I S)) :
    (finalizeTrack (run (mk old o tkID pdg hasMom nfit : Book P V H Fl F I S) (cs.map .add))).1.chi2 =
      ((cs.map (·.chi2)).filter (fun x => decide (0 ≤ x))).foldl (· + ·) 0 ∧
    (finalizeTrack (run (mk old o tkID pdg hasMom nfit : Book P V H Fl F I S) (pre ++ [.setTot c] ++ cs.map .add))).1.chi2 =
      ((cs.map (·.chi2)).filter (fun x => decide (0 ≤ x))).foldl (· + ·) c := by
  refine ⟨run_adds_tot _ cs, ?_⟩
  show (run _ (pre ++ [.setTot c] ++ cs.map .add)).tot = _
  rw [run_append, run_adds_tot, run_append]
  rfl

/-- **C56 (fit infos).** If the caller had initialised the vector of fit infos, it ends up with exactly the infos of
the optional elements passed, in call order; if not, none are stored. -/
theorem C56_fit_infos (old : List H) (o : Opts I S H) (tkID pdg : Int) (hasMom : Bool) (nfit : Int)
    (ops : List (Op P V H Fl F I S)) :
    let o' := (run (mk old o tkID pdg hasMom nfit : Book P V H Fl F I S) ops).opts
    (o.infos.isSome → o'.takeInfos.1 = .ok ((calls ops).filterMap (fun c => c.ope.bind (·.info)))) ∧
    (o.infos = none → o'.takeInfos.1 = .throw) ∧ o'.takeInfos.2.takeInfos.1 = .throw := by
  obtain ⟨_, _, _, _, _, a6, _⟩ := run_fields (mk old o tkID pdg hasMom nfit : Book P V H Fl F I S) ops
  have hm : (mk old o tkID pdg hasMom nfit : Book P V H Fl F I S).opts.infos = o.infos.map (fun _ => []) := rfl
  rw [hm] at a6
  cases hi : o.infos with
  | none =>
    rw [hi] at a6
    simp at a6
    refine ⟨by simp, fun _ => ?_, ?_⟩ <;> simp [Opts.takeInfos, a6]
  | some l =>
    rw [hi] at a6
    simp at a6
    refine ⟨fun _ => ?_, by simp, ?_⟩ <;> simp [Opts.takeInfos, a6]

/-- **C56 refuted for space points.** The book keeper never records a space point, whatever elements are passed. -/
theorem C56_space_points_lost (old : List H) (o : Opts I S H) (tkID pdg : Int) (hasMom : Bool) (nfit : Int)
    (ops : List (Op P V H Fl F I S)) (hs : o.sps.isSome) :
    (run (mk old o tkID pdg hasMom nfit : Book P V H Fl F I S) ops).opts.takeSps.1 = .ok [] := by
  obtain ⟨_, _, _, _, _, _, a7, _⟩ := run_fields (mk old o tkID pdg hasMom nfit : Book P V H Fl F I S) ops
  have hm : (mk old o tkID pdg hasMom nfit : Book P V H Fl F I S).opts.sps = o.sps.map (fun _ => []) := rfl
  rw [hm] at a7
  obtain ⟨l, hl⟩ := Option.isSome_iff_exists.1 hs
  simp [Opts.takeSps, a7, hl]

omit [Zero F] [Add F] [LE F] [DecidableLE F] in
/-- **C56 (partial): direct use.** Adding an element together with its hit to `OptionalOutputs` records the space
point with that hit and the info, and empties the element. -/
theorem C56_direct_add_partial (o : Opts I S H) (e : Ope I S) (h : H) :
    (o.addPointHit e h).1.sps = o.sps.map (· ++ (e.sp.map (fun s => (s, h))).toList) ∧
    (o.addPointHit e h).1.infos = o.infos.map (· ++ e.info.toList) ∧
    (o.addPointHit e h).2.sp = (if o.sps.isSome then none else e.sp) ∧
    (o.addPointHit e h).2.info = (if o.infos.isSome then none else e.info) := by
  unfold Opts.addPointHit Opts.addPoint
  cases h1 : o.sps <;> cases h2 : e.sp <;> cases h3 : o.infos <;> cases h4 : e.info <;> simp [h1, h2, h3, h4]

end

/-! ## Witnesses -/

/-- two calls, one with negative chi2; then the total is replaced and a third point added -/
def demoOps : List (Op Nat Nat Nat Nat Int Nat Nat) :=
  [.add ⟨1, 2, 3, 4, 7, some ⟨some 50, some 60⟩⟩, .add ⟨5, 6, 7, 8, -1, none⟩, .setTot 100, .add ⟨9, 9, 9, 9, 2, none⟩]

def demoBook : Book Nat Nat Nat Nat Int Nat Nat := run (mk [77] ⟨some [3], some []⟩ 1 13 true 4) demoOps

example : (finalizeTrack demoBook).1.positions = [1, 5, 9] ∧ (finalizeTrack demoBook).2.hits = [3, 7, 9] ∧
    (finalizeTrack demoBook).1.chi2 = 102 ∧ (finalizeTrack demoBook).1.ndof = -2 := by decide
example : demoBook.opts.takeInfos.1 = .ok [50] ∧ demoBook.opts.takeSps.1 = .ok [] := by decide

end Verif.Track

import Mathlib.Algebra.Order.Field.Rat
import Mathlib.Algebra.BigOperators.Group.List.Basic

/-!
Model of `calo::GnocchiCalorimetry` (larreco/Calorimetry/GnocchiCalorimetry_module.cc), of `calo::Calorimetry`
(larreco/Calorimetry/Calorimetry_module.cc) and of `calo::ShowerCalorimetry`
(larreco/Calorimetry/ShowerCalorimetry_module.cc).

Simplifications: numbers are rationals (no rounding); distances are given by an arbitrary function; positions, pitches and
dE/dx of the hits are arbitrary inputs (the geometry, the space charge service and the normalisation tools are not
modelled).
-/

namespace Verif.Gnocchi

/-- what is used of a hit of a track; `valid` is the result of `HitIsValid` (GnocchiCalorimetry_module.cc:525-529) -/
structure THit where
  plane : Nat
  tpc : Nat
  wire : Nat
  start : Int
  stop : Int
  integral : ℚ
  amplitude : ℚ
  roi : ℚ
  valid : Bool
deriving DecidableEq, Repr

/-- an element of the organised hits with the `HitIdentifier` kept beside it: the index of the hit, the indices of the
hits that share its snippet, and start, end, wire and integral of the identifier, GnocchiCalorimetry_module.cc:469-494 -/
structure Slot where
  lead : Nat
  shared : List Nat
  start : Int
  stop : Int
  wire : Nat
  integral : ℚ
deriving DecidableEq, Repr

/-- the identifier of a hit as a new element, GnocchiCalorimetry_module.cc:476-481 and 516-519 -/
def newSlot (i : Nat) (h : THit) : Slot := ⟨i, [], h.start, h.stop, h.wire, h.integral⟩

/-- `operator==`, GnocchiCalorimetry_module.cc:484-487 -/
def sameSnippet (h : THit) (s : Slot) : Bool := decide (h.start = s.start ∧ h.stop = s.stop ∧ h.wire = s.wire)

/-- The loop over the snippets found so far, GnocchiCalorimetry_module.cc:499-519. -/
def addHit (i : Nat) (h : THit) : List Slot → List Slot
  | [] => [newSlot i h]
  | s :: t =>
    if sameSnippet h s then
      (if h.integral > s.integral then { newSlot i h with shared := s.shared ++ [s.lead] }
       else { s with shared := s.shared ++ [i] }) :: t
    else s :: addHit i h t

/-- one hit of `OrganizeHitsSnippets` (`snippets`) or of `OrganizeHitsIndividual`, GnocchiCalorimetry_module.cc:444-523 -/
def orgStep (snippets : Bool) (ret : List (List Slot)) (ih : Nat × THit) : List (List Slot) :=
  if ih.2.valid then
    ret.modify ih.2.plane fun l => if snippets then addHit ih.1 ih.2 l else l ++ [newSlot ih.1 ih.2]
  else ret

/-- `OrganizeHits`: a list of snippets for every plane, GnocchiCalorimetry_module.cc:427-523 -/
def organize (snippets : Bool) (nplanes : Nat) (hits : List THit) : List (List Slot) :=
  ((List.range hits.length).zip hits).foldl (orgStep snippets) (List.replicate nplanes [])

/-- `ChargeMethod` -/
inductive Method | integral | amplitude | summedADC | summedIntegral
deriving DecidableEq, Repr

/-- does the method work by snippets?  GnocchiCalorimetry_module.cc:433-441 -/
def Method.snippets : Method → Bool
  | .integral => false
  | .amplitude => false
  | .summedADC => true
  | .summedIntegral => true

/-- `GetCharge`, GnocchiCalorimetry_module.cc:642-658; `hit` gives the hit of an index -/
def charge (m : Method) (hit : Nat → THit) (s : Slot) : ℚ :=
  match m with
  | .integral => (hit s.lead).integral
  | .amplitude => (hit s.lead).amplitude
  | .summedADC => (hit s.lead).roi
  | .summedIntegral => (s.shared.map fun j => (hit j).integral).foldl (· + ·) (hit s.lead).integral

/-! ### Residual range -/

/-- The distances between consecutive points, the first being 0, GnocchiCalorimetry_module.cc:341-345. -/
def lengthsOf {P : Type} (d : P → P → ℚ) : List P → List ℚ
  | [] => []
  | p :: t => 0 :: ((p :: t).zipWith (fun a b => d b a) t)

/-- residual ranges from the last hit, GnocchiCalorimetry_module.cc:379-384 and Calorimetry_module.cc:564-569 -/
def resDown : List ℚ → List ℚ
  | [] => []
  | [a] => [a / 2]
  | _ :: b :: t => ((resDown (b :: t)).headD 0 + b) :: resDown (b :: t)

/-- the sums of `resUp`: each element is the one before plus its length -/
def scanSum (r : ℚ) : List ℚ → List ℚ
  | [] => []
  | a :: t => (r + a) :: scanSum (r + a) t

/-- residual ranges from the first hit, GnocchiCalorimetry_module.cc:385-390 and Calorimetry_module.cc:570-575 -/
def resUp (l : List ℚ) : List ℚ :=
  match l with
  | _ :: b :: t => b / 2 :: scanSum (b / 2) (b :: t)
  | _ => []

/-- do the hits go from the start to the end of the track?  GnocchiCalorimetry_module.cc:373-376 and
Calorimetry_module.cc:541-554 -/
def isDown {P : Type} (d : P → P → ℚ) (start stop first last : P) : Bool :=
  decide (d start first + d stop last < d stop first + d start last)

/-- the residual ranges of the hits of a plane, GnocchiCalorimetry_module.cc:365-391 -/
def resRange {P : Type} (d : P → P → ℚ) (start stop : P) (pts : List P) : List ℚ :=
  match pts with
  | p :: q :: t =>
    if isDown d start stop p ((q :: t).getLastD q) then resDown (lengthsOf d pts) else resUp (lengthsOf d pts)
  | _ => []

/-! ### Objects -/

/-- what is saved for a hit -/
structure Row where
  dEdx : ℚ
  dQdx : ℚ
  pitch : ℚ
  key : Nat
deriving DecidableEq, Repr

/-- what is used of `anab::Calorimetry`; `none` for the bogus energy and range -/
structure CaloObj where
  energy : Option ℚ
  dEdx : List ℚ
  dQdx : List ℚ
  res : List ℚ
  range : Option ℚ
  pitch : List ℚ
  keys : List Nat
  plane : Nat
deriving DecidableEq, Repr

/-- the object of a plane, GnocchiCalorimetry_module.cc:265-413 -/
def mkCalo {P : Type} (d : P → P → ℚ) (start stop : P) (plane : Nat) (rows : List (Row × P)) : CaloObj :=
  if rows.length > 1 then
    ⟨some (rows.foldl (fun e r => e + r.1.dEdx * r.1.pitch) 0), rows.map (·.1.dEdx), rows.map (·.1.dQdx),
      resRange d start stop (rows.map (·.2)), some ((lengthsOf d (rows.map (·.2))).foldl (· + ·) 0),
      rows.map (·.1.pitch), rows.map (·.1.key), plane⟩
  else ⟨none, [], [], [], none, [], [], plane⟩

/-- The loops over tracks and planes, GnocchiCalorimetry_module.cc:238-419: `calo t p` is the object of plane `p` of track
`t`; an association is made with the last object. -/
def produceAll {α : Type} (calo : Nat → Nat → α) (ntracks nplanes : Nat) : List α × List (Nat × Nat) :=
  (List.range ntracks).foldl (fun s t =>
    (List.range nplanes).foldl (fun s p => (s.1 ++ [calo t p], s.2 ++ [(t, s.1.length)])) s) ([], [])

/-! ### `Calorimetry` module -/

/-- the loop over the hits with track information, Calorimetry_module.cc:379-439: `none` is the exception, otherwise whether
the hit is bad and the index found; `sentinel` is the largest integer -/
def lookup (sentinel npts : Nat) (validPt : Nat → Bool) (key : Nat) (bad : Bool) :
    List (Nat × Nat) → Option (Bool × Option Nat)
  | [] => some (bad, none)
  | (k, i) :: t =>
    if k = key then
      if i = sentinel then lookup sentinel npts validPt key true t
      else if i ≥ npts then none
      else if validPt i = false then lookup sentinel npts validPt key true t
      else some (bad, some i)
    else lookup sentinel npts validPt key bad t

/-- is the hit used?  Calorimetry_module.cc:452 -/
def used (r : Option (Bool × Option Nat)) : Bool :=
  match r with
  | some (false, some _) => true
  | _ => false

/-- the direction by charge, Calorimetry_module.cc:523-537 -/
def goingDS (charges : List ℚ) : Bool := decide (((charges.reverse).take 4).foldl (· + ·) 0 > (charges.take 4).foldl (· + ·) 0)

/-- a hit as used for the dead wires: its wire, whether its channel is bad, the distance of its first space point to the
end of the track -/
structure DHit where
  wire : Nat
  bad : Bool
  dist : Option ℚ
deriving DecidableEq, Repr

/-- state of the search: closest wire, wire at the end, `dwire`, `mindis`, `goodresrange` -/
structure DSt where
  closest : Nat
  endw : Nat
  dwire : Nat
  mindis : ℚ
  good : ℚ
deriving DecidableEq, Repr

/-- distance of wires -/
def wdist (a b : Nat) : Nat := if a < b then b - a else a - b

/-- one hit, Calorimetry_module.cc:625-646; `wire` is the variable set by the last hit of the plane (line 366) -/
def deadStep (wire iw : Nat) (s : DSt) (h : DHit) : DSt :=
  if h.bad then s
  else match h.dist with
    | none => s
    | some dis =>
      let s1 := if dis < s.mindis then { s with endw := h.wire, mindis := dis } else s
      if wdist wire iw < s1.dwire then { s1 with closest := h.wire, dwire := wdist h.wire iw, good := dis } else s1

/-- the search for the wire `iw`, Calorimetry_module.cc:620-646 -/
def deadFind (wire iw : Nat) (hits : List DHit) : DSt := hits.foldl (deadStep wire iw) ⟨0, 0, 100000, 100000, 0⟩

/-- the residual range of a dead wire, Calorimetry_module.cc:647-654 -/
def deadRange (pitch : ℚ) (iw : Nat) (s : DSt) : Option ℚ :=
  if s.closest ≠ 0 then
    if iw < s.endw then some (s.good + ((s.closest : ℚ) - iw) * pitch) else some (s.good + ((iw : ℚ) - s.closest) * pitch)
  else none

/-- `deadwire`, Calorimetry_module.cc:612-657 -/
def deadWires (pitch : ℚ) (wire lo hi : Nat) (isBad : Nat → Bool) (hits : List DHit) : List ℚ :=
  ((List.range' lo (hi + 1 - lo)).filter isBad).filterMap fun iw => deadRange pitch iw (deadFind wire iw hits)

/-- insertion into a map keyed by distance, Calorimetry_module.cc:708 -/
def mapInsert (d : ℚ) (i : Nat) : List (ℚ × Nat) → List (ℚ × Nat)
  | [] => [(d, i)]
  | p :: t => if d < p.1 then (d, i) :: p :: t else if d = p.1 then p :: t else p :: mapInsert d i t

/-- the space points used for the position and the pitch of a hit, Calorimetry_module.cc:705-748: `none` if the hit is not
on the track -/
def nearest5 (ds : List ℚ) : Option (List (ℚ × Nat)) :=
  let m := ((List.range ds.length).zip ds).foldl (fun m id => mapInsert id.2 id.1 m) []
  match m with
  | [] => none
  | p :: _ => if p.1 > 30 then none else some (m.take 5)

/-! ### `ShowerCalorimetry` module -/

/-- a hit of a shower: whether it has a space point, dE/dx, pitch -/
structure SHit where
  hasSp : Bool
  plane : Nat
  dEdx : ℚ
  pitch : ℚ
deriving DecidableEq, Repr

/-- rows and energy of a plane, ShowerCalorimetry_module.cc:116-217 -/
def showerPlane (hits : List SHit) (plane : Nat) : List (ℚ × ℚ) × ℚ :=
  let hs := hits.filter fun h => h.plane = plane
  (hs.map fun h => if h.hasSp then (h.dEdx, h.pitch) else (0, 0),
   hs.foldl (fun e h => if h.hasSp then e + h.dEdx else e) 0)

end Verif.Gnocchi

import Mathlib.Algebra.Order.Ring.Rat
import Mathlib.Order.Defs.LinearOrder

/-!
# `MCHitFinder_module`: hits of the simulation, one for each energy deposit

`larreco/HitFinder/MCHitFinder_module.cc`.  Charges are rational (the code: `float` and `double`).
The deposits (`sim::MCEnDep`: place, energy, track) are an abstract type with a linear order, the
order of the `std::map`.
-/

namespace Verif.MCHit

/-- One entry of `ide_v` with the time count it is stored at: the deposit made of `ide.x, y, z,
energy, trackID`, and `numElectrons` (105-113, 138). -/
structure Item (K : Type) where
  dep : K
  tdc : ℕ
  q : ℚ

/-- `sim::MCWire`: `StartTDC` and the charges of the following counts. -/
structure Wire where
  start : ℕ
  qs : List ℚ
deriving DecidableEq

/-- `sim::MCHit`: deposit, `SetCharge(qsum, qmax)`, `SetTime(max_time, 0)`. -/
structure Hit (K : Type) where
  dep : K
  qsum : ℚ
  qmax : ℚ
  time : ℕ

/-- A deposit that is in the map already (118-119, 132-135): `last_tdc + 1` is `StartTDC() + size()`
(64 bit, the wire is not empty), another count is skipped. -/
def push (w : Wire) (t : ℕ) (q : ℚ) : Wire :=
  if w.start + w.qs.length ≠ t then w else ⟨w.start, w.qs ++ [q]⟩

/-- The body of the loop over the deposits (107-136): `edep_wire_map.insert` and `push_back`.  The map
is the list of its entries in ascending order. -/
def addItem {K : Type} [LinearOrder K] (i : Item K) : List (K × Wire) → List (K × Wire)
  | [] => [(i.dep, ⟨i.tdc, [i.q]⟩)]
  | (k, w) :: r =>
    if i.dep < k then (i.dep, ⟨i.tdc, [i.q]⟩) :: (k, w) :: r
    else if k < i.dep then (k, w) :: addItem i r
    else (k, push w i.tdc i.q) :: r

/-- The two loops over the data of one channel (101-138), in the order of the data. -/
def fill {K : Type} [LinearOrder K] (items : List (Item K)) : List (K × Wire) :=
  items.foldl (fun m i => addItem i m) []

/-- The loop over the charges of one wire (154-166); state `(wire_index, qsum, qmax, max_time)`. -/
def peakStep (start : ℕ) (s : ℕ × ℚ × ℚ × ℕ) (q : ℚ) : ℕ × ℚ × ℚ × ℕ :=
  (s.1 + 1, s.2.1 + q, if q > s.2.2.1 then (q, start + s.1) else s.2.2)

/-- The hit of one entry of the map (146-168). -/
def hitOf {K : Type} (e : K × Wire) : Hit K :=
  let s := e.2.qs.foldl (peakStep e.2.start) (0, 0, 0, 0)
  ⟨e.1, s.2.1, s.2.2.1, s.2.2.2⟩

/-- One `sim::SimChannel`. -/
structure Sim (K : Type) where
  ch : ℕ
  items : List (Item K)

/-- One channel of the input (77-177): the hits are appended to the collection of the channel
(`hits_v->at(ch)`); a channel that does not exist is an exception. -/
def addSim {K : Type} [LinearOrder K] (hits : List (List (Hit K))) (s : Sim K) :
    Option (List (List (Hit K))) :=
  if s.ch ≥ hits.length then none
  else some (hits.set s.ch (hits.getD s.ch [] ++ (fill s.items).map hitOf))

/-- `produce` (53-189): one collection for each channel, `none` is the exception (no product `sims`, or
a channel that does not exist).  The final `sort` by channel changes nothing, the collections are in
the order of the channels: they are the positions of the list here.  `MCWire`s are written in the same
order as the hits. -/
def produce {K : Type} [LinearOrder K] (nch : ℕ) (sims : Option (List (Sim K))) :
    Option (List (List (Hit K))) :=
  match sims with
  | none => none
  | some l => l.foldlM addSim (List.replicate nch [])

end Verif.MCHit

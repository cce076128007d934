import Mathlib.Data.List.Basic
import Mathlib.Data.Rat.Defs

/-!
# `genf::GFBookkeeping`

Models larreco/Genfit/GFBookkeeping.cxx and GFBookkeeping.h: named arrays of matrices, planes and
numbers, one entry for each hit, and a list of failed hits.

A `std::map<std::string, T*>` is a list of keys with an array or the null pointer; the entries are in
the order of their insertion, not of their names (this only affects the order in which keys are
listed).  `M` and `P` stand for matrices and planes, `dM`, `dP` for default constructed ones.  Freed
memory is not modelled.
-/

namespace Verif.Book

/-- How a call ends: normally, with a `GFException`, or by using a null pointer. -/
inductive Outcome where
  | ok
  | thrown
  | crash
  deriving DecidableEq, Repr

/-- A `std::map<std::string, T*>`: larreco/Genfit/GFBookkeeping.h:36-41. -/
abbrev Store (α : Type) := List (String × Option (List α))

/-- `find(key)`: `none` if there is no entry, `some none` for a null pointer
(larreco/Genfit/GFBookkeeping.cxx:301, 323, 341). -/
def look {α : Type} : Store α → String → Option (Option (List α))
  | [], _ => none
  | (k, v) :: t, key => if k = key then some v else look t key

/-- `map[key]` makes an entry with a null pointer if there is none
(larreco/Genfit/GFBookkeeping.cxx:199, 214, 230, 247, 266, 282). -/
def touch {α : Type} (s : Store α) (k : String) : Store α :=
  if (look s k).isSome then s else s ++ [(k, none)]

/-- `map[key] = new T[...]` (larreco/Genfit/GFBookkeeping.cxx:205, 220, 236) and writing into an array. -/
def put {α : Type} (s : Store α) (k : String) (v : List α) : Store α :=
  (touch s k).map fun e => if e.1 = k then (k, some v) else e

/-- The keys with an array, larreco/Genfit/GFBookkeeping.cxx:421-447. -/
def keys {α : Type} (s : Store α) : List String := s.filterMap fun e => e.2.map fun _ => e.1

/-- is there an array for the key? -/
def booked {α : Type} (s : Store α) (k : String) : Bool :=
  match look s k with
  | some (some _) => true
  | _ => false

/-- The object, larreco/Genfit/GFBookkeeping.h:33-43. -/
structure BK (M P : Type) where
  nhits : Int
  mats : Store M
  planes : Store P
  nums : Store ℚ
  failed : List Nat

/-- `GFBookkeeping()`, larreco/Genfit/GFBookkeeping.h:73. -/
def new (M P : Type) : BK M P := ⟨-1, [], [], [], []⟩

/-- `index >= (unsigned int)fNhits`: the conversion of a negative number gives a large one
(larreco/Genfit/GFBookkeeping.cxx:253, 272, 288, 308, 329, 347). -/
def outOfRange (n : Int) (i : Nat) : Bool := decide ((i : Int) ≥ if n < 0 then n + 2 ^ 32 else n)

variable {M P : Type}

/-- `bookMatrices`, larreco/Genfit/GFBookkeeping.cxx:193-206. -/
def bookM (dM : M) (s : BK M P) (k : String) : Outcome × BK M P :=
  if s.nhits < 0 then (.thrown, s)
  else if booked s.mats k then (.thrown, { s with mats := touch s.mats k })
  else (.ok, { s with mats := put s.mats k (List.replicate s.nhits.toNat dM) })

/-- `bookGFDetPlanes`, larreco/Genfit/GFBookkeeping.cxx:208-221. -/
def bookP (dP : P) (s : BK M P) (k : String) : Outcome × BK M P :=
  if s.nhits < 0 then (.thrown, s)
  else if booked s.planes k then (.thrown, { s with planes := touch s.planes k })
  else (.ok, { s with planes := put s.planes k (List.replicate s.nhits.toNat dP) })

/-- `bookNumbers`, larreco/Genfit/GFBookkeeping.cxx:224-241: it is `fPlanes` that is looked at. -/
def bookN (s : BK M P) (k : String) (val : ℚ) : Outcome × BK M P :=
  if s.nhits < 0 then (.thrown, s)
  else
    let s' := { s with planes := touch s.planes k }
    if booked s.planes k then (.thrown, s')
    else (.ok, { s' with nums := put s.nums k (List.replicate s.nhits.toNat val) })

/-- `setMatrix`, `setDetPlane`, `setNumber`, larreco/Genfit/GFBookkeeping.cxx:243-295: the same code for
the three maps. -/
def setIn {α : Type} (n : Int) (s : Store α) (k : String) (i : Nat) (v : α) : Outcome × Store α :=
  match look s k with
  | some (some l) => if outOfRange n i then (.thrown, s) else (.ok, put s k (l.set i v))
  | _ => (.thrown, touch s k)

/-- larreco/Genfit/GFBookkeeping.cxx:243-260 -/
def setM (s : BK M P) (k : String) (i : Nat) (v : M) : Outcome × BK M P :=
  let r := setIn s.nhits s.mats k i v
  (r.1, { s with mats := r.2 })

/-- larreco/Genfit/GFBookkeeping.cxx:262-279 -/
def setP (s : BK M P) (k : String) (i : Nat) (v : P) : Outcome × BK M P :=
  let r := setIn s.nhits s.planes k i v
  (r.1, { s with planes := r.2 })

/-- larreco/Genfit/GFBookkeeping.cxx:280-295 -/
def setN (s : BK M P) (k : String) (i : Nat) (v : ℚ) : Outcome × BK M P :=
  let r := setIn s.nhits s.nums k i v
  (r.1, { s with nums := r.2 })

/-- `getMatrix`, `getDetPlane`, `getNumber`, larreco/Genfit/GFBookkeeping.cxx:297-356: the same code for the
three maps.  Reading from a null pointer is a crash; an array is never read out of bounds when it has
one entry for each hit. -/
def getIn {α : Type} (n : Int) (s : Store α) (k : String) (i : Nat) : Outcome × Option α :=
  match look s k with
  | none => (.thrown, none)
  | some none => if outOfRange n i then (.thrown, none) else (.crash, none)
  | some (some l) => if outOfRange n i then (.thrown, none) else (.ok, l[i]?)

/-- larreco/Genfit/GFBookkeeping.cxx:297-316 -/
def getM (s : BK M P) (k : String) (i : Nat) : Outcome × Option M := getIn s.nhits s.mats k i

/-- larreco/Genfit/GFBookkeeping.cxx:318-338 -/
def getP (s : BK M P) (k : String) (i : Nat) : Outcome × Option P := getIn s.nhits s.planes k i

/-- larreco/Genfit/GFBookkeeping.cxx:339-356 -/
def getN (s : BK M P) (k : String) (i : Nat) : Outcome × Option ℚ := getIn s.nhits s.nums k i

/-- `addFailedHit`, larreco/Genfit/GFBookkeeping.cxx:358-361. -/
def addFailed (s : BK M P) (h : Nat) : BK M P := { s with failed := s.failed ++ [h] }

/-- `hitFailed`, larreco/Genfit/GFBookkeeping.cxx:368-375. -/
def hitFailed (s : BK M P) (h : Nat) : Nat :=
  s.failed.foldl (fun r x => if x = h then r + 1 else r) 0

/-- `getNumFailed`, larreco/Genfit/GFBookkeeping.cxx:363-366. -/
def numFailed (s : BK M P) : Nat := s.failed.length

/-- `clearFailedHits`, larreco/Genfit/GFBookkeeping.cxx:377-380. -/
def clearFailed (s : BK M P) : BK M P := { s with failed := [] }

/-- `clearAll`, larreco/Genfit/GFBookkeeping.cxx:402-419. -/
def clearAll (s : BK M P) : BK M P := { s with mats := [], planes := [], nums := [] }

/-- A sequence of calls, ended by the first exception. -/
def each {β : Type} (f : BK M P → β → Outcome × BK M P) : BK M P → List β → Outcome × BK M P
  | s, [] => (.ok, s)
  | s, k :: t =>
    match f s k with
    | (.ok, s') => each f s' t
    | r => r

/-- calls one after the other -/
def andThen (r : Outcome × BK M P) (f : BK M P → Outcome × BK M P) : Outcome × BK M P :=
  match r with
  | (.ok, s) => f s
  | r => r

/-- `reset`, larreco/Genfit/GFBookkeeping.cxx:382-400. -/
def reset (dM : M) (dP : P) (s : BK M P) : Outcome × BK M P :=
  andThen (each (bookM dM) (clearFailed (clearAll s)) (keys s.mats)) fun s1 =>
  andThen (each (bookP dP) s1 (keys s.planes)) fun s2 =>
  each (fun s k => bookN s k 0) s2 (keys s.nums)

/-- `setNhits`, larreco/Genfit/GFBookkeeping.h:47-51. -/
def setNhits (dM : M) (dP : P) (s : BK M P) (n : Int) : Outcome × BK M P :=
  reset dM dP { s with nhits := n }

/-- What `Streamer` writes: larreco/Genfit/GFBookkeeping.cxx:137-187.  The arrays are written up to the
number of hits. -/
structure Rec (M P : Type) where
  nhits : Int
  mats : List (String × List M)
  planes : List (String × List P)
  nums : List (String × List ℚ)
  failed : List Nat

/-- the keys with their arrays, larreco/Genfit/GFBookkeeping.cxx:146-152, 158-164, 170-177 -/
def dump {α : Type} (s : Store α) : List (String × List α) :=
  s.filterMap fun e => e.2.map fun l => (e.1, l)

/-- `Streamer`, writing: larreco/Genfit/GFBookkeeping.cxx:137-187. -/
def write (s : BK M P) : Rec M P := ⟨s.nhits, dump s.mats, dump s.planes, dump s.nums, s.failed⟩

/-- `setX(key, j, x_j)` for the hits `j`, larreco/Genfit/GFBookkeeping.cxx:99-102 -/
def setFrom {α : Type} (f : BK M P → Nat → α → Outcome × BK M P) : BK M P → Nat → List α → Outcome × BK M P
  | s, _, [] => (.ok, s)
  | s, j, x :: t => andThen (f s j x) fun s' => setFrom f s' (j + 1) t

/-- `Streamer`, reading: larreco/Genfit/GFBookkeeping.cxx:79-135. -/
def read (dM : M) (dP : P) (s : BK M P) (r : Rec M P) : Outcome × BK M P :=
  andThen (each (fun s e => andThen (bookM dM s e.1) fun s => setFrom (fun s => setM s e.1) s 0 e.2)
    { clearAll s with nhits := r.nhits } r.mats) fun s1 =>
  andThen (each (fun s e => andThen (bookP dP s e.1) fun s => setFrom (fun s => setP s e.1) s 0 e.2)
    s1 r.planes) fun s2 =>
  andThen (each (fun s e => andThen (bookN s e.1 0) fun s => setFrom (fun s => setN s e.1) s 0 e.2)
    s2 r.nums) fun s3 =>
  (.ok, { s3 with failed := r.failed })

/-- one map of the copy constructor, larreco/Genfit/GFBookkeeping.cxx:38-47 (and 49-58, 63-72): a null
pointer is read if there are hits; `new` with a negative number throws -/
def copyStore {α : Type} (n : Int) (d : α) (s : Store α) : Outcome × Store α :=
  if n < 0 ∧ s ≠ [] then (.thrown, [])
  else if n > 0 ∧ s.any (fun e => e.2.isNone) then (.crash, [])
  else (.ok, s.map fun e => (e.1, some ((List.range n.toNat).map fun i => ((e.2.getD [])[i]?).getD d)))

/-- The copy constructor, larreco/Genfit/GFBookkeeping.cxx:25-73.  The assignment of a matrix is taken to
copy it (that ROOT refuses it when the sizes differ is not modelled). -/
def copy (dM : M) (dP : P) (s : BK M P) : Outcome × BK M P :=
  let m := copyStore s.nhits dM s.mats
  let q := copyStore s.nhits 0 s.nums
  let p := copyStore s.nhits dP s.planes
  if m.1 ≠ .ok then (m.1, new M P)
  else if q.1 ≠ .ok then (q.1, new M P)
  else if p.1 ≠ .ok then (p.1, new M P)
  else (.ok, ⟨s.nhits, m.2, p.2, q.2, s.failed⟩)

/-- The calls that change the object. -/
inductive Op (M P : Type) where
  | setNhits (n : Int)
  | bookM (k : String)
  | bookP (k : String)
  | bookN (k : String) (v : ℚ)
  | setM (k : String) (i : Nat) (v : M)
  | setP (k : String) (i : Nat) (v : P)
  | setN (k : String) (i : Nat) (v : ℚ)
  | addFailed (h : Nat)
  | clearFailed
  | clearAll
  | reset

/-- the object after a call, whether it throws or not -/
def step (dM : M) (dP : P) (s : BK M P) : Op M P → BK M P
  | .setNhits n => (setNhits dM dP s n).2
  | .bookM k => (bookM dM s k).2
  | .bookP k => (bookP dP s k).2
  | .bookN k v => (bookN s k v).2
  | .setM k i v => (setM s k i v).2
  | .setP k i v => (setP s k i v).2
  | .setN k i v => (setN s k i v).2
  | .addFailed h => addFailed s h
  | .clearFailed => clearFailed s
  | .clearAll => clearAll s
  | .reset => (reset dM dP s).2

/-- the object after a sequence of calls on a new one -/
def run (dM : M) (dP : P) (ops : List (Op M P)) : BK M P := ops.foldl (step dM dP) (new M P)

end Verif.Book

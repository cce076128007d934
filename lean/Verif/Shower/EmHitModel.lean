import Mathlib.Algebra.Order.Field.Rat
import Mathlib.Algebra.BigOperators.Group.List.Basic
import Mathlib.Data.List.Sort
import Mathlib.Data.List.Dedup

/-!
Model of the functions of `shower::EMShowerAlg` (larreco/RecoAlg/EMShowerAlg.cxx) that order the hits of a shower, orient the
planes and choose the hits at its start.

Simplifications: coordinates are rationals, the rounded wire and tick are integers; the projection on the shower axis, the
consistency of the planes (`CheckShowerHits_`) and the RMS gradients are arbitrary functions; a `std::map` is a list sorted
by key; an exception is `none`.
-/

namespace Verif.EmShower

/-- what is read of a hit: its key, TPC, `HitCoordinates_` and their rounded values -/
structure H where
  id : Nat
  tpc : Nat
  x : ℚ
  y : ℚ
  wire : ℤ
  tick : ℤ
deriving DecidableEq, Repr

/-- `m[k] = v` for a `std::map` keyed by numbers -/
def put {α : Type} (m : List (ℚ × α)) (k : ℚ) (v : α) : List (ℚ × α) :=
  match m with
  | [] => [(k, v)]
  | (k', v') :: m => if k < k' then (k, v) :: (k', v') :: m else if k = k' then (k, v) :: m else (k', v') :: put m k v

/-- the values of the map filled with `l` in order -/
def ordered {α : Type} (key : α → ℚ) (l : List α) : List α := (l.foldl (fun m a => put m (key a) a) []).map Prod.snd

/-- `FindOrderOfHits_`, EMShowerAlg.cxx:652-678; `proj` is the projection of a hit on the axis. -/
def orderHits (proj : H → ℚ) (hits : List H) : List H := ordered proj hits

/-! ### Hits in a wrong TPC -/

/-- `showerHitsMap.at(p)`, empty if there is none -/
def hitsOf (m : List (Nat × List H)) (p : Nat) : List H := ((m.find? fun q => q.1 = p).map Prod.snd).getD []

/-- TPC of the first hit of each plane, EMShowerAlg.cxx:122-124 -/
def firstTpc (m : List (Nat × List H)) : List (Nat × Nat) := m.map fun q => (q.1, (q.2.head?.map H.tpc).getD 0)

/-- the keys of `firstTPC` -/
def tpcKeys (m : List (Nat × List H)) : List Nat := (((firstTpc m).map Prod.snd).dedup).insertionSort (· ≤ ·)

/-- the plane that is alone in its TPC: the last one wins, EMShowerAlg.cxx:136-138 -/
def problemPlane (m : List (Nat × List H)) : Option Nat :=
  ((tpcKeys m).filterMap fun t =>
    match (firstTpc m).filter fun q => q.2 = t with
    | [q] => some q.1
    | _ => none).getLast?

/-- one pass of the loop that takes hits out, EMShowerAlg.cxx:189-192 -/
def takeStep (s : List H × List H) (i : Nat) : List H × List H :=
  match s.1[i]? with
  | some h => (s.1.eraseIdx i, s.2 ++ [h])
  | none => s

/-- The loop that takes the first `n` hits out, EMShowerAlg.cxx:187-193: `hits.erase(hitIt)` and `++hitIt`, iterators
taken as positions (formally they are invalid after the erase).  State: the hits left, the hits taken out. -/
def takeOut (n : Nat) (hs : List H) : List H × List H :=
  (List.range n).foldl takeStep (hs, [])

/-- the tests of the problem plane, EMShowerAlg.cxx:141-184: the number of hits to move, or 0 -/
def toMove (maxPlanes : Nat) (m : List (Nat × List H)) (p : Nat) : Nat :=
  let hs := hitsOf m p
  if hs.length < 3 then 0
  else
    let others := (List.range maxPlanes).filter fun q => q ≠ p ∧ 3 ≤ (hitsOf m q).length
    if others = [] then 0
    else
      let wrong := (hs.head?.map H.tpc).getD 0
      let n := (hs.takeWhile fun h => h.tpc = wrong).length
      if n > 2 then 0
      else if 1 < ((((hs.drop n).take (4 * n)).map H.tpc).dedup).length then 0
      else
        let seconds := others.flatMap fun q => ((hitsOf m q).drop 1).take 1
        if (seconds.map H.tpc).dedup = (((hs.drop n).head?).map H.tpc).toList then n else 0

/-- `CheckIsolatedHits_`, EMShowerAlg.cxx:119-198. -/
def checkIsolated (maxPlanes : Nat) (m : List (Nat × List H)) : Option (List (Nat × List H)) :=
  if m.any fun q => q.2 = [] then none
  else if (tpcKeys m).length ≠ 2 then some m
  else match problemPlane m with
    | none => none
    | some p =>
      let n := toMove maxPlanes m p
      some (m.map fun q => if q.1 = p ∧ 0 < n then (q.1, (takeOut n q.2).1 ++ (takeOut n q.2).2) else q)

/-! ### Orientation of the planes -/

/-- the square of the relative wire width, EMShowerAlg.cxx:1748-1762 -/
def relWidth (w : List (Nat × ℚ)) (q : Nat × ℚ) : ℚ :=
  q.2 * q.2 / ((w.filter fun r => q.1 ≠ r.1).map fun r => r.2 * r.2).sum

/-- The planes in the order of `wireWidthMap`, EMShowerAlg.cxx:1764-1771; equal widths overwrite each other. -/
def wireOrder (w : List (Nat × ℚ)) : List Nat := (ordered (relWidth w) w).map Prod.fst

/-- adds a permutation that was not used before, EMShowerAlg.cxx:914-918 -/
def addPerm (ww : List Nat) (used : List (Nat → Bool)) (f : Nat → Bool) : List (Nat → Bool) :=
  if used.any fun g => ww.all fun p => f p == g p then used else used ++ [f]

/-- `GetPlanePermutations_`, EMShowerAlg.cxx:899-938: `ww` are the planes by relative width. -/
def permutations (planes ww : List Nat) : List (Nat → Bool) :=
  [fun _ => false] ++
  ((ww.map fun q p => p == q) ++ (ww.reverse.map fun q p => p != q && ww.contains p)).foldl (addPerm ww) [] ++
  [fun p => planes.contains p]

/-- the planes reversed as a permutation says, EMShowerAlg.cxx:1539-1543 -/
def applyPerm (f : Nat → Bool) (m : List (Nat × List H)) : List (Nat × List H) :=
  m.map fun q => (q.1, if f q.1 then q.2.reverse else q.2)

/-- The loop over the permutations, EMShowerAlg.cxx:1534-1547; `permutations[n]` is empty beyond the end. -/
def orientLoop (check : List (Nat × List H) → Bool) (ps : List (Nat → Bool)) (orig : List (Nat × List H)) :
    Nat → Nat → List (Nat × List H) → List (Nat × List H)
  | 0, _, cur => cur
  | f + 1, n, cur =>
    if check cur then cur else orientLoop check ps orig f (n + 1) (applyPerm (ps.getD n fun _ => false) orig)

/-- The orientation, EMShowerAlg.cxx:1528-1550. -/
def orient (check : List (Nat × List H) → Bool) (ww : List Nat) (orig : List (Nat × List H)) : List (Nat × List H) :=
  let r := orientLoop check (permutations (orig.map Prod.fst) ww) orig (2 ^ orig.length) 0 orig
  if check r then r else orig

/-- The RMS tables of `OrderShowerHits`, EMShowerAlg.cxx:1382-1389 and 1433-1434: `planeRMS.at(plane)` is read for every plane
with hits, but filled only for the desired one (`none` = all). -/
def rmsRead (desired : Option Nat) (m : List (Nat × List H)) : Option Unit :=
  if m.all fun q => desired = none ∨ desired = some q.1 then some () else none

/-! ### Planes of the initial track -/

/-- `WorstPlane_`, EMShowerAlg.cxx:1952-1993: the smallest wire width -/
def worstPlane (w : List (Nat × ℚ)) : Option Nat := ((ordered Prod.snd w).head?).map Prod.fst

/-- The planes used for the initial track, EMShowerAlg.cxx:957-996; `sizes` are the planes with their numbers of hits, sorted
by number; `ok` is `CheckShowerHits_`, `worst` the plane with the smallest width.  `none`: no track or `at` throws. -/
def trackPlanes (sizes : List (Nat × Nat)) (ok : Bool) (worst : Nat) : Option (Nat × Nat) :=
  if sizes.length < 2 then none
  else
    let planes := if 2 < sizes.length ∧ ok = false then (sizes.filter fun q => q.1 ≠ worst).take 2 else sizes.take 2
    match planes with
    | [a, b] => some (a.1, b.1)
    | _ => none

/-! ### Hits at the start of the shower -/

/-- `wireHitMap[w].size()`, EMShowerAlg.cxx:777-778 -/
def mult (sh : List H) (w : ℤ) : Nat := sh.countP fun h => h.wire = w

/-- `wireDirection`, EMShowerAlg.cxx:760-768: not if the first hit is more than 3 wires from both ends -/
def wireDirection (sh : List H) (first : H) : Bool :=
  !(decide (∃ h ∈ sh, (∀ g ∈ sh, h.wire ≤ g.wire) ∧ 3 < |h.wire - first.wire|) &&
    decide (∃ h ∈ sh, (∀ g ∈ sh, g.wire ≤ h.wire) ∧ 3 < |h.wire - first.wire|))

/-- The loop along wires, EMShowerAlg.cxx:780-805; `s` is 1 or -1, `k` counts the hits on wires with several hits. -/
def wireStart (sh : List H) (s : ℤ) : Nat → List H → List H
  | _, [] => []
  | k, h :: t =>
    if 1 < mult sh h.wire then (if 5 < k + 1 then [] else wireStart sh s (k + 1) t)
    else if 1 < mult sh (h.wire + s) ∧ (1 < mult sh (h.wire + 2 * s) ∨ 1 < mult sh (h.wire + 3 * s)) then
      if mult sh (h.wire + 4 * s) < 2 ∧ mult sh (h.wire + 5 * s) < 2 ∧ mult sh (h.wire + 6 * s) < 2 ∧
          1 < mult sh (h.wire + 9 * s) then h :: wireStart sh s k t
      else []
    else h :: wireStart sh s k t

/-- a hit in one of the next five ticks, EMShowerAlg.cxx:822-827 -/
def tickNear (sh : List H) (s : ℤ) (h : H) : Bool :=
  sh.any fun g => [1, 2, 3, 4, 5].any fun (i : ℤ) => g.tick = h.tick + i * s

/-- The loop along ticks, EMShowerAlg.cxx:820-832. -/
def tickStart (sh : List H) (s : ℤ) : List H := sh.takeWhile fun h => !tickNear sh s h

/-- The hits before the check of the TPCs, EMShowerAlg.cxx:760-839. -/
def rawStart (sh : List H) (first last : H) : List H :=
  let raw := if wireDirection sh first then wireStart sh (if last.x > first.x then 1 else -1) 0 sh
    else tickStart sh (if last.y > first.y then 1 else -1)
  let raw := if raw = [] then [first] else raw
  if raw.length = 1 ∧ 2 < sh.length then raw ++ sh[1]?.toList else raw

/-- The check of the TPCs, EMShowerAlg.cxx:841-863. -/
def dropSingles (first : H) (raw : List H) : List H :=
  let single := fun t => raw.countP (fun g => g.tpc = t) = 1
  if raw.any fun h => single h.tpc then
    let r := raw.filter fun h => ¬ single h.tpc
    if r = [] then [first] else r
  else raw

/-- `FindShowerStart_` for one plane, EMShowerAlg.cxx:756-865; undefined (`none`) without hits. -/
def showerStart (sh : List H) : Option (List H) :=
  match sh.head?, sh.getLast? with
  | some first, some last => some (dropSingles first (rawStart sh first last))
  | _, _ => none

end Verif.EmShower

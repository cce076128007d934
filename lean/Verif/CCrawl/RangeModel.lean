import Verif.CCrawl.StoreModel

/-!
Model of the hit ranges, the merging of hit multiplets and the removal of ghost clusters of `cluster::ClusterCrawlerAlg`
(larreco/RecoAlg/ClusterCrawlerAlg.cxx).
-/

namespace Verif.CCrawl

/-! ### Ranges of hits -/

/-- the state of the loop over the hits: `WireHitRange`, `fFirstWire`, `fLastWire`, and whether a hit was seen in the plane -/
structure Ranges where
  range : Nat → Int × Int
  firstWire : Nat
  lastWire : Nat
  seen : Bool

/-- one hit of the loop, ClusterCrawlerAlg.cxx:5967-5983; `firsthit[wire]` is true as long as the range is still the flag -/
def rangeStep (H : Nat → Hit) (plane : Nat) (r : Ranges) (i : Nat) : Ranges :=
  if (H i).plane ≠ plane then r
  else
    let w := (H i).wire
    { range := Function.update r.range w (if r.range w = (-2, -2) then (i : Int) else (r.range w).1, (i : Int) + 1)
      firstWire := if r.seen then r.firstWire else w
      lastWire := w + 1
      seen := true }

/-- `GetHitRange`, ClusterCrawlerAlg.cxx:5940-6000, before the merging of hits: `good w` is the state of the channel.  The
wires are less than the number of wires. -/
def getHitRange (H : Nat → Hit) (n plane nwires : Nat) (good : Nat → Bool) : Ranges :=
  let r := (List.range n).foldl (rangeStep H plane) ⟨fun _ => (-2, -2), 0, 0, false⟩
  { r with range := fun w => if w < nwires ∧ good w = false then (-1, -1) else r.range w }

/-- `DeadWireCount(inWire1, inWire2)`, ClusterCrawlerAlg.cxx:6057-6071. -/
def deadWires (range : Nat → Int × Int) (w1 w2 : Nat) : Nat :=
  let lo := if w1 > w2 then w2 else w1
  let hi := if w1 > w2 then w1 else w2
  ((List.range' lo (hi + 1 - lo)).filter fun w => (range w).1 == -1).length

/-! ### Ghost clusters -/

/-- what is used of a cluster to find ghosts -/
structure GCl where
  live : Bool
  plane : Nat
  beginWir : Nat
  endWir : Nat
  angle : ℚ
  /-- wire, time and charge of the hits -/
  hits : List (Nat × ℚ × ℚ)
deriving Repr

/-- times by wire from the end wire on, ClusterCrawlerAlg.cxx:522-536 and 592-604: the last hit on a wire counts; `dflt` where
there is no hit -/
def timesOf (c : GCl) (dflt : ℚ) (k : Nat) : ℚ :=
  (c.hits.foldl (fun f h => if c.endWir ≤ h.1 ∧ h.1 - c.endWir < c.beginWir - c.endWir + 1 then Function.update f (h.1 - c.endWir) h.2.1 else f)
    fun _ => dflt) k

/-- the number of wires, `iHits.size()` -/
def width (c : GCl) : Nat := c.beginWir - c.endWir + 1

/-- the charge, ClusterCrawlerAlg.cxx:534, 602 -/
def chargeOf (c : GCl) : ℚ := ((c.hits.filter fun h => decide (c.endWir ≤ h.1 ∧ h.1 - c.endWir < width c)).map fun h => h.2.2).sum

/-- the overlap region, ClusterCrawlerAlg.cxx:554-589: `iLoIndx`, `jLoIndx`, `olapSize` (`jLoIndx` is
`tcl[icl].EndWir - tcl[icl].EndWir` in the second case) -/
def overlapRegion (i j : GCl) : Nat × Nat × Nat :=
  if i.endWir < j.endWir then
    (j.endWir - i.endWir, 0, if i.beginWir < j.beginWir then i.beginWir - j.endWir + 1 else j.beginWir - j.endWir + 1)
  else
    (0, i.endWir - i.endWir, if i.beginWir < j.beginWir then i.beginWir - i.endWir + 1 else j.beginWir - i.endWir + 1)

/-- the close hits, ClusterCrawlerAlg.cxx:606-613 -/
def nClose (i j : GCl) (sepcut : ℚ) : Nat :=
  let o := overlapRegion i j
  ((List.range o.2.2).filter fun k =>
    decide (o.1 + k < width i ∧ o.2.1 + k < width j ∧ |timesOf i 1000 (o.1 + k) - timesOf j (-1000) (o.2.1 + k)| < sepcut)).length

/-- is `j` a ghost of `i`?  ClusterCrawlerAlg.cxx:545-552 and 614-619 -/
def ghost (plane : Nat) (cut sepcut : ℚ) (i j : GCl) : Bool :=
  j.live && decide (j.plane = plane) && !decide (i.beginWir < j.endWir) && !decide (i.endWir > j.beginWir)
    && !decide (|i.angle - j.angle| > cut)
    && (let n : ℚ := (nClose i j sepcut : ℚ)
        !decide (n / (width i : ℚ) < 1 / 2 ∧ n / (width j : ℚ) < 1 / 2)
          && decide (n / (width i : ℚ) < n / (width j : ℚ) ∧ chargeOf i > chargeOf j))

/-- `killMe` of `KillGarbageClusters`, ClusterCrawlerAlg.cxx:515-622: the positions of the clusters removed.  `sepcut` is the
average width of the hits of the first cluster times ten. -/
def killMe (tcl : List GCl) (plane : Nat) (cut sepcut : ℚ) : List Nat :=
  (List.range tcl.length).filter fun j =>
    (List.range j).any fun i =>
      match tcl[i]?, tcl[j]? with
      | some ci, some cj => ci.live && decide (ci.plane = plane) && ghost plane cut sepcut ci cj
      | _, _ => false

/-! ### Merging a multiplet -/

/-- what is used of a hit here: `merged` is `GoodnessOfFit() == 6666` -/
structure MHit where
  plane : Nat
  wire : Nat
  start : Int
  mult : Nat
  idx : Nat
  integral : ℚ
  merged : Bool
deriving DecidableEq, Repr

/-- `FindHitMultiplet`, ClusterCrawlerAlg.cxx:6096-6104 (the local index is not more than the position) -/
def multiplet (H : Nat → MHit) (i : Nat) : List Nat := List.range' (i - (H i).idx) (H i).mult

/-- `FixMultipletLocalIndices`, ClusterCrawlerAlg.cxx:1699-1747: the hits that are not obsolete are numbered -/
def fixIndices (m : Nat → Int) (range : List Nat) (H : Nat → MHit) : Nat → MHit :=
  let k := (range.filter fun h => decide (0 ≤ m h)).length
  (range.foldl (fun (r : Nat × (Nat → MHit)) h =>
    if m h < 0 then r else (r.1 + 1, Function.update r.2 h { r.2 h with mult := k, idx := r.1 })) (0, H)).2

/-- `MergeHits`, ClusterCrawlerAlg.cxx:1546-1696: `didMerge`, the hits and the marks.  `avail` is `mergeAvailable`, `sigZero`
whether the summed signal shape is zero.  Not modelled: time, width and height of the merged hit. -/
def mergeHits (H : Nat → MHit) (n : Nat) (m : Nat → Int) (avail : Nat → Bool) (the : Nat) (sigZero : Bool) :
    Bool × (Nat → MHit) × (Nat → Int) :=
  if the > n - 1 then (false, H, m)
  else if (H the).merged = true then (false, H, m)
  else if avail the = false then (false, H, m)
  else if (H the).mult < 2 then (false, H, m)
  else
    let rg := multiplet H the
    let others := rg.filter fun j => decide (j ≠ the) && !(H j).merged
    if (others.filter fun j => decide (m j = 0)).length = 0 then (false, H, m)
    else if (others.filter fun j => decide (m j ≠ 0)).length > 0 then (false, H, m)
    else if rg.any fun j => decide (0 ≤ m j ∧ ((H j).start ≠ (H the).start ∨ ((H j).plane, (H j).wire) ≠ ((H the).plane, (H the).wire)
        ∨ (H j).mult ≠ (H the).mult)) then (false, H, m)
    else
      let m' : Nat → Int := fun j => if j ∈ rg ∧ j ≠ the ∧ m j = 0 then -1 else m j
      let sum := ((rg.filter fun j => decide (j = the ∨ m j = 0)).map fun j => (H j).integral).sum
      if sigZero then (false, H, m')
      else
        let H' := Function.update H the { H the with integral := sum, mult := (H the).mult - (rg.filter fun j => decide (j ≠ the ∧ m j = 0)).length, idx := 0, merged := true }
        (true, fixIndices m' rg H', m')

end Verif.CCrawl

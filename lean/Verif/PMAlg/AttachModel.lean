import Verif.PMAlg.OpsModel
/-!
# Model of attaching tracks to nodes
Source: `/repo/larreco/RecoAlg/PMAlg/PmaTrack3D.cxx:1516-1709`. The results are `throw` for an exception, `undef` for a
budget of steps that is used up or a track without nodes. `tpc` stands for `TPC()` of the nodes, `closer` for the
comparison of the two distances.
-/
namespace Verif.PMAlg.Tree

/-- one round of the loop `while (vtx->NextCount())`, PmaTrack3D.cxx:1605-1613, 1691-1699, for the segment `s` -/
def moveNext (v w : Nat) (W : World) (s : Nat) : World :=
  { W with g :=
    { W.g with
      nodes := fun u => if u = W.g.trk s then (W.g.nodes u).set 0 w else W.g.nodes u
      next := fun x => if x = v then (W.g.next x).filter (· ≠ s) else if x = w then W.g.next x ++ [s] else W.g.next x } }

/-- the loop; every segment after `v` is moved once, from the first on -/
def moveNexts (W : World) (v w : Nat) : World := (W.g.next v).foldl (moveNext v w) W

/-- `s->AddNext(w)` of a segment, SortedObjects.cxx:31-42 -/
def segAddNext (W : World) (s w : Nat) : World :=
  { W with g :=
    { W.g with
      prev := fun x =>
        if x = w then some s
        else if W.g.snext s = some x ∧ W.g.prev x = some s then none else W.g.prev x
      snext := fun y =>
        if y = s then some w
        else if W.g.prev w = some y ∧ W.g.snext y = some w then none else W.g.snext y } }

/-- `tpPrev->fNodes[tpPrev->fNodes.size() - 1] = vStart; segPrev->AddNext(vStart);`, PmaTrack3D.cxx:1589-1590,
1599-1600 -/
def reconnect (W : World) (p s w : Nat) : World :=
  segAddNext (withNodes W p ((W.g.nodes p).set ((W.g.nodes p).length - 1) w)) s w

/-- the first part of `AttachToSameTPC`, PmaTrack3D.cxx:1570-1603; `ok none` = `return false` -/
def freeFront (f : Nat) (W : World) (vtx vS : Nat) : Out (Option World) :=
  match W.g.prev vtx with
  | none => .ok (some W)
  | some s =>
    match nextSeg W.g (W.g.trk s) vtx with
    | some _ => .ok none
    | none =>
      match canFlip W.g f (W.g.trk s) with
      | none => .undef
      | some true =>
        match internalFlip f W (W.g.trk s) with
        | none => .undef
        | some W1 => .ok (some W1)
      | some false =>
        match W.g.prev vS with
        | none => .ok (some (reconnect W (W.g.trk s) s vS))
        | some s' =>
          match nextSeg W.g (W.g.trk s') vS with
          | some _ => .ok none
          | none =>
            match canFlip W.g f (W.g.trk s') with
            | none => .undef
            | some false => .ok none
            | some true =>
              match internalFlip f W (W.g.trk s') with
              | none => .undef
              | some W1 => .ok (some (reconnect W1 (W.g.trk s) s vS))

/-- `AttachToSameTPC`, PmaTrack3D.cxx:1568-1622 -/
def attachSame (f : Nat) (W : World) (t vS : Nat) : Out (Bool × World) :=
  match (W.g.nodes t).head? with
  | none => .undef
  | some vtx =>
    match freeFront f W vtx vS with
    | .throw => .throw
    | .undef => .undef
    | .ok none => .ok (false, W)
    | .ok (some W1) =>
      let W2 := moveNexts W1 vtx vS
      if W2.g.next vtx ≠ [] ∨ W2.g.prev vtx ≠ none then .throw else .ok (true, W2)

/-- `AttachToOtherTPC`, PmaTrack3D.cxx:1555-1566 -/
def attachOther (W : World) (t vS : Nat) : Out (Bool × World) :=
  match (W.g.nodes t).head? with
  | none => .undef
  | some vtx =>
    match W.g.prev vtx with
    | some _ => .ok (false, W)
    | none =>
      let W1 := newSeg (withNodes W t (vS :: W.g.nodes t)) t vS vtx
      .ok (true, { W1 with segs := fun u => if u = t then W.fresh :: W.segs u else W.segs u })

/-- a segment that leads to the track of the vertex: the one before it, or the first after it,
PmaTrack3D.cxx:1523-1532 -/
def userOf (g : Graph) (vS : Nat) : Option Nat := (g.prev vS).or (g.next vS).head?

/-- the tracks of the node and of `this` are of one tree, PmaTrack3D.cxx:1522-1533, 1630-1641; `ok none` = the node
is not used -/
def sameTree (f : Nat) (g : Graph) (t vS : Nat) : Out (Option Bool) :=
  match getRoot g f t with
  | none => .undef
  | some r =>
    match userOf g vS with
    | none => .ok none
    | some s =>
      match getRoot g f (g.trk s) with
      | none => .undef
      | some r' =>
        match isAttachedTo g f r' r with
        | .error .budget => .undef
        | .error .loop => .throw
        | .ok b => .ok (some b)

/-- the flip before the attachment, PmaTrack3D.cxx:1541-1548 -/
def flipFirst (f : Nat) (tpc : Nat → Nat) (closer : Bool) (W : World) (t vS : Nat) (noFlip : Bool) : Option World :=
  match (W.g.nodes t).getLast? with
  | none => none
  | some b =>
    if noFlip then some W
    else
      match canFlip W.g f t with
      | none => none
      | some c =>
        if c = true ∧ tpc vS = tpc b ∧ closer = true ∧ W.g.next b = [] then internalFlip f W t else some W

/-- `AttachTo`, PmaTrack3D.cxx:1516-1553 -/
def attachTo (f : Nat) (tpc : Nat → Nat) (closer : Bool) (W : World) (t vS : Nat) (noFlip : Bool) :
    Out (Bool × World) :=
  match (W.g.nodes t).head? with
  | none => .undef
  | some vtx =>
    if vtx = vS then .ok (true, W)
    else
      match sameTree f W.g t vS with
      | .throw => .throw
      | .undef => .undef
      | .ok none => .ok (false, W)
      | .ok (some true) => .ok (false, W)
      | .ok (some false) =>
        if vS ∈ W.g.nodes t then .ok (false, W)
        else
          match flipFirst f tpc closer W t vS noFlip with
          | none => .undef
          | some W1 => if tpc vS = tpc vtx then attachSame f W1 t vS else attachOther W1 t vS

/-- `AttachBackToOtherTPC`, PmaTrack3D.cxx:1655-1667 -/
def attachBackOther (W : World) (t vS : Nat) : Out (Bool × World) :=
  match W.g.prev vS with
  | some _ => .ok (false, W)
  | none =>
    match (W.g.nodes t).getLast? with
    | none => .undef
    | some a => .ok (true, newSeg (withNodes W t (W.g.nodes t ++ [vS])) t a vS)

/-- the first part of `AttachBackToSameTPC`, PmaTrack3D.cxx:1674-1688 -/
def freeBack (f : Nat) (W : World) (vS : Nat) : Out (Option World) :=
  match W.g.prev vS with
  | none => .ok (some W)
  | some s =>
    match nextSeg W.g (W.g.trk s) vS with
    | some _ => .ok none
    | none =>
      match canFlip W.g f (W.g.trk s) with
      | none => .undef
      | some false => .ok none
      | some true =>
        match internalFlip f W (W.g.trk s) with
        | none => .undef
        | some W1 => .ok (some W1)

/-- `AttachBackToSameTPC`, PmaTrack3D.cxx:1669-1709; the last segment of the track is the last entry of `fSegments` -/
def attachBackSame (f : Nat) (W : World) (t vS : Nat) : Out (Bool × World) :=
  match (W.g.nodes t).getLast? with
  | none => .undef
  | some vtx =>
    match freeBack f W vS with
    | .throw => .throw
    | .undef => .undef
    | .ok none => .ok (false, W)
    | .ok (some W1) =>
      match (W1.segs t).getLast? with
      | none => .undef
      | some s =>
        let W2 := moveNexts (reconnect W1 t s vS) vtx vS
        if W2.g.next vtx ≠ [] ∨ W2.g.prev vtx ≠ none then .throw else .ok (true, W2)

/-- `AttachBackTo`, PmaTrack3D.cxx:1624-1653 -/
def attachBackTo (f : Nat) (tpc : Nat → Nat) (W : World) (t vS : Nat) : Out (Bool × World) :=
  match (W.g.nodes t).getLast? with
  | none => .undef
  | some vtx =>
    if vtx = vS then .ok (true, W)
    else
      match sameTree f W.g t vS with
      | .throw => .throw
      | .undef => .undef
      | .ok none => .ok (false, W)
      | .ok (some true) => .ok (false, W)
      | .ok (some false) =>
        if vS ∈ W.g.nodes t then .ok (false, W)
        else if tpc vS = tpc vtx then attachBackSame f W t vS else attachBackOther W t vS

end Verif.PMAlg.Tree

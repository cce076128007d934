import Verif.TrajCluster.Model
/-!
# Model of the vertex bookkeeping of TrajCluster and of merging two trajectories
Source: `/repo/larreco/RecoAlg/TCAlg/TCVertex.cxx`, `Utils.cxx`.
-/
namespace Verif.TC

/-- the vertex at one end, `false` = end 0 -/
def Traj.vtxAt (t : Traj) (e : Bool) : Nat := if e then t.vtx.2 else t.vtx.1

/-- assign to `VtxID[end]` -/
def Traj.setVtx (t : Traj) (e : Bool) (v : Nat) : Traj :=
  { t with vtx := if e then (t.vtx.1, v) else (v, t.vtx.2) }

/-- one end of the loop of `MakeVertexObsolete`, TCVertex.cxx:2722-2749; the loop over the overlap bits,
TCVertex.cxx:2726-2740, changes nothing and is left out with its accesses; `ub` = the vertex at the other end does not
exist -/
def detachEnd (vtxs : List Vtx) (vid : Nat) (e : Bool) (t : Traj) : Res Traj :=
  if t.vtxAt e ≠ vid then .ok t
  else
    let t1 := { t.setVtx e 0 with photon := false }
    if t1.hiVx3 ∧ 0 < t1.vtxAt (!e) then
      match vtxs[t1.vtxAt (!e) - 1]? with
      | none => .ub
      | some o => .ok { t1 with hiVx3 := o.hi }
    else .ok t1

/-- one round of the loop of `MakeVertexObsolete` over the trajectories, TCVertex.cxx:2720-2750 -/
def detach (vtxs : List Vtx) (vid : Nat) (t : Traj) : Res Traj :=
  if t.killed || t.halo then .ok t
  else (detachEnd vtxs vid false t).bind fun t1 => detachEnd vtxs vid true t1

/-- the loop over the trajectories -/
def detachAll (vtxs : List Vtx) (vid : Nat) : List Traj → Res (List Traj)
  | [] => .ok []
  | t :: l => (detach vtxs vid t).bind fun t1 => (detachAll vtxs vid l).bind fun l1 => .ok (t1 :: l1)

/-- `for (auto& v3v2id : vx3.Vx2ID) if (v3v2id == vx2.ID) v3v2id = 0`, TCVertex.cxx:2714-2717 -/
def forget (vid : Nat) (w : Vtx3) : Vtx3 := { w with vx2 := w.vx2.map fun x => if x = vid then 0 else x }

/-- the update of the 3D vertex number `k`, TCVertex.cxx:2754-2784; `score` stands for `SetVx3Score`, the planes of the
slice are those of `Vx2ID` -/
def updateVx3 (score : Slice → Vtx3 → Rat) (s : Slice) (v : Vtx) (vid k : Nat) : Res Slice :=
  match s.vtx3s[k - 1]? with
  | none => .ub
  | some w =>
    match w.vx2[v.plane]? with
    | none => .ub
    | some x =>
      if x ≠ vid then .ok s
      else
        let w1 := { w with vx2 := w.vx2.set v.plane 0, wire := v.pos.1 }
        if 1 < w1.vx2.countP (0 < ·) then
          .ok { s with vtx3s := s.vtx3s.set (k - 1) { w1 with score := score s w1 } }
        else
          .ok { s with
            vtxs := s.vtxs.map fun u => if u.id ≠ 0 ∧ u.vx3 = w1.id then { u with vx3 := 0 } else u
            pfps := s.pfps.map fun p => { p with vx3 := (if p.vx3.1 = w1.id then 0 else p.vx3.1,
                                                         if p.vx3.2 = w1.id then 0 else p.vx3.2) }
            vtx3s := s.vtx3s.set (k - 1) { w1 with id := 0 } }

/-- `MakeVertexObsolete(fcnLabel, slc, vx2, forceKill)`, TCVertex.cxx:2698-2786, for the vertex at position `iv`; `cut`
stands for `tcc.vtx2DCuts[7]` -/
def killVx2 (cut : Rat) (score : Slice → Vtx3 → Rat) (s : Slice) (iv : Nat) (force : Bool) : Res (Bool × Slice) :=
  match s.vtxs[iv]? with
  | none => .ub
  | some v =>
    if 0 < v.vx3 then
      match s.vtx3s[v.vx3 - 1]? with
      | none => .ub
      | some w =>
        if force = false ∧ cut ≤ w.score then .ok (false, s)
        else
          let vtxs := s.vtxs.set iv { v with id := 0 }
          (detachAll vtxs v.id s.tjs).bind fun tjs =>
            (updateVx3 score { s with vtxs := vtxs, tjs := tjs, vtx3s := s.vtx3s.set (v.vx3 - 1) (forget v.id w) }
              v v.id v.vx3).bind fun s1 => .ok (true, s1)
    else
      let vtxs := s.vtxs.set iv { v with id := 0 }
      (detachAll vtxs v.id s.tjs).bind fun tjs => .ok (true, { s with vtxs := vtxs, tjs := tjs })

/-- the loop of `MakeVertexObsolete(slc, vx3)` over the planes from `pl` on, TCVertex.cxx:2797-2801; the list is read
again before every round -/
def killPlanes (cut : Rat) (score : Slice → Vtx3 → Rat) (k : Nat) : Nat → Nat → Slice → Res Slice
  | 0, _, s => .ok s
  | m + 1, pl, s =>
    match s.vtx3s[k]? with
    | none => .ub
    | some w =>
      match w.vx2[pl]? with
      | none => .ub
      | some vid =>
        if vid = 0 ∨ s.vtxs.length < vid then killPlanes cut score k m (pl + 1) s
        else (killVx2 cut score s (vid - 1) true).bind fun r => killPlanes cut score k m (pl + 1) r.2

/-- `MakeVertexObsolete(slc, vx3)`, TCVertex.cxx:2789-2804, for the vertex at position `k` -/
def killVx3 (cut : Rat) (score : Slice → Vtx3 → Rat) (s : Slice) (k : Nat) : Res (Bool × Slice) :=
  match s.vtx3s[k]? with
  | none => .ub
  | some w =>
    if w.id = 0 then .ok (true, s)
    else if s.vtx3s.length < w.id then .ok (false, s)
    else (killPlanes cut score k w.vx2.length 0 s).bind fun s1 =>
      .ok (true, { s1 with vtx3s := s1.vtx3s.modify k fun u => { u with id := 0 } })

/-- `StoreVertex`, TCVertex.cxx:1908-1940; the unique number is not modelled -/
def storeVertex (s : Slice) (v : Vtx) : Bool × Slice × Vtx :=
  if v.id ≠ s.vtxs.length + 1 then (false, s, v)
  else
    let at_ := s.tjs.filter fun t => t.killed = false ∧ (v.id = t.vtx.1 ∨ v.id = t.vtx.2)
    let ok := at_.filter fun t => v.ctp = t.ctp
    if ok.length ≠ at_.length then
      (false, { s with tjs := s.tjs.map fun t =>
        if t.killed then t else { t with vtx := (if t.vtx.1 = v.id then 0 else t.vtx.1,
                                                 if t.vtx.2 = v.id then 0 else t.vtx.2) } }, v)
    else
      let v1 := { v with ntraj := ok.length }
      (true, { s with vtxs := s.vtxs ++ [v1] }, v1)

/-- `GetVtxTjIDs(slc, vx2)`, TCVertex.cxx:2807-2821 -/
def vtxTjs (s : Slice) (v : Vtx) : List Int :=
  if v.id = 0 then []
  else s.tjs.flatMap fun t =>
    if t.killed = true ∨ t.ctp ≠ v.ctp then []
    else (if t.vtx.1 = v.id then [t.id] else []) ++ (if t.vtx.2 = v.id then [t.id] else [])

/-- the first loop of `ChkVtxAssociations`, TCVertex.cxx:2065-2088; `none` = out of range -/
def chk23 (s : Slice) (ctp plane : Nat) : List Vtx → Option Bool
  | [] => some true
  | v :: l =>
    if v.ctp ≠ ctp ∨ v.id = 0 ∨ v.vx3 = 0 then chk23 s ctp plane l
    else if s.vtx3s.length < v.vx3 then some false
    else
      match s.vtx3s[v.vx3 - 1]? with
      | none => none
      | some w =>
        if w.id = 0 then some false
        else
          match w.vx2[plane]? with
          | none => none
          | some x => if x ≠ v.id then some false else chk23 s ctp plane l

/-- the second loop, TCVertex.cxx:2090-2104 -/
def chk32 (s : Slice) (plane : Nat) : List Vtx3 → Option Bool
  | [] => some true
  | w :: l =>
    if w.id = 0 then chk32 s plane l
    else
      match w.vx2[plane]? with
      | none => none
      | some 0 => chk32 s plane l
      | some (x + 1) =>
        if s.vtxs.length < x + 1 then some false
        else
          match s.vtxs[x]? with
          | none => none
          | some v => if v.vx3 ≠ w.id then some false else chk32 s plane l

/-- whether the vertex at an end exists and is not killed, TCVertex.cxx:2110-2124 -/
def endOK (s : Slice) (v : Nat) : Bool :=
  v = 0 || match s.vtxs[v - 1]? with
    | none => false
    | some x => x.id ≠ 0

/-- the third loop, TCVertex.cxx:2107-2126: the first bad end is cleared -/
def chkTjs (s : Slice) : List Traj → Bool × List Traj
  | [] => (true, [])
  | t :: l =>
    if t.killed || t.halo then let r := chkTjs s l; (r.1, t :: r.2)
    else if endOK s t.vtx.1 = false then (false, t.setVtx false 0 :: l)
    else if endOK s t.vtx.2 = false then (false, t.setVtx true 0 :: l)
    else let r := chkTjs s l; (r.1, t :: r.2)

/-- `ChkVtxAssociations`, TCVertex.cxx:2058-2129; `plane` is the plane of `inCTP` -/
def chkVtxAssociations (s : Slice) (ctp plane : Nat) : Option (Bool × Slice) :=
  match chk23 s ctp plane s.vtxs with
  | none => none
  | some false => some (false, s)
  | some true =>
    match chk32 s plane s.vtx3s with
    | none => none
    | some false => some (false, s)
    | some true => some ((chkTjs s s.tjs).1, { s with tjs := (chkTjs s s.tjs).2 })

/-- `PosSep2`, Utils.cxx:2604-2610 -/
def posSep2 (p q : Rat × Rat) : Rat := (p.1 - q.1) * (p.1 - q.1) + (p.2 - q.2) * (p.2 - q.2)

/-- the loop of `TrajPointTrajDOCA`, Utils.cxx:2384-2404: points `i`, `i + 1`, … of the list -/
def docaGo (pos : Rat × Rat) : List TP → Nat → Rat → Option Nat → Option Nat
  | [], _, _, c => c
  | p :: l, i, best, c =>
    if posSep2 p.pos pos < best then docaGo pos l (i + 1) (posSep2 p.pos pos) (some i)
    else docaGo pos l (i + 1) best c

/-- `TrajPointTrajDOCA` with `minSep` 1000 as called by `MergeAndStore`; `none` stands for `USHRT_MAX` -/
def doca (pos : Rat × Rat) (t : Traj) : Option Nat :=
  docaGo pos ((t.pts.drop t.endPt.1).take (t.endPt.2 + 1 - t.endPt.1)) t.endPt.1 1000000 none

/-- the loop that moves the first point of the second trajectory, Utils.cxx:4647-4658; the argument is the number of
points up to the last end point -/
def bump (hits : List Nat) (pts : List TP) : Nat → Nat → Nat
  | 0, c => c
  | m + 1, c =>
    match pts[c]? with
    | none => c
    | some p => if p.hits.any (fun x => x.1 ∈ hits) then bump hits pts m (c + 1) else c

/-- `GetPFPIndex`, Utils.cxx:1038-1046; `none` stands for `USHRT_MAX` -/
def pfpIndex (s : Slice) (id : Int) : Option Nat := s.pfps.findIdx? fun p => p.tjs.contains id

/-- the test for full overlap, Utils.cxx:4581-4595 -/
def overlaps (dir : Int) (a0 a1 b0 b1 : Rat × Rat) : Bool :=
  if 1 < dir then decide (a0.1 < b0.1 ∧ b1.1 < a1.1) || decide (b0.1 < a0.1 ∧ a1.1 < b1.1)
  else decide (a1.1 < b1.1 ∧ b0.1 < a0.1) || decide (b1.1 < a1.1 ∧ a0.1 < b0.1)

/-- the points of the second trajectory from `c` on appended to the first, Utils.cxx:4615, 4662-4665 -/
def joinTj (t1 t2 : Traj) (c : Nat) : Traj :=
  let m := setEndPoints { t1 with pts := t1.pts.take (t1.endPt.2 + 1) ++ t2.pts.drop c }
  { m with endFlag := (m.endFlag.1, t2.endFlag.2) }

/-- the trajectory that is stored, Utils.cxx:4669-4688; `code` stands for `SetPDGCode` -/
def mergedTj (code : Traj → Nat) (t1 t2 : Traj) (c : Nat) : Traj :=
  let m := joinTj t1 t2 c
  let m := if 0 < t2.vtx.2 then m.setVtx true t2.vtx.2 else m
  let m := if t2.michel then { m with michel := true } else m
  let m := if t2.delta then { m with delta := true, parentID := t2.parentID } else m
  let m := { m with id := m.workID }
  { m with pdg := code m }

/-- the numbers of parents are replaced, Utils.cxx:4696-4697 -/
def reparent (i1 i2 : Int) (new : Int) (l : List Traj) : List Traj :=
  l.map fun t => if t.parentID = i1 ∨ t.parentID = i2 then { t with parentID := new } else t

/-- the end of `MergeAndStore`, Utils.cxx:4614-4700, for copies `t1`, `t2` in their final order. The last call,
`AttachAnyVertexToTraj`, is not modelled. `throw` stands for a loop that never ends. -/
def mergeTail (code : Traj → Nat) (s : Slice) (i j : Nat) (t1 t2 : Traj) (e1 : TP) : Res (Bool × Slice) :=
  match doca e1.pos t2 with
  | none => .ok (false, s)
  | some c0 =>
    let c := bump (((t1.pts.take (t1.endPt.2 + 1)).reverse.take 11).flatMap (tpHits .all)) t2.pts (t2.endPt.2 - c0) c0
    match hasDuplicateHits (joinTj t1 t2 c) with
    | none => .throw
    | some true => .ok (false, s)
    | some false =>
      (makeObsolete s i).bind fun s1 => (makeObsolete s1 j).bind fun s2 =>
        (storeTraj s2 (mergedTj code t1 t2 c)).bind fun r =>
          if r.1 then .ok (true, { r.2.1 with tjs := reparent t1.id t2.id r.2.1.tjs.length r.2.1.tjs })
          else .ok (false, r.2.1)

/-- the middle of `MergeAndStore`, Utils.cxx:4549-4612: the order of the copies, the vertex between them -/
def mergeBody (pi cut : Rat) (score : Slice → Vtx3 → Rat) (code : Traj → Nat) (s : Slice) (i j : Nat)
    (t1 t2 : Traj) : Res (Bool × Slice) :=
  let t2 := if t2.stepDir ≠ t1.stepDir then reverseTraj pi t2 else t2
  match t1.pts[t1.endPt.1]?, t1.pts[t1.endPt.2]?, t2.pts[t2.endPt.1]?, t2.pts[t2.endPt.2]? with
  | some a0, some a1, some b0, some b1 =>
    let sw := posSep2 b1.pos a0.pos < posSep2 a1.pos b0.pos
    let x := if sw then t2 else t1
    let y := if sw then t1 else t2
    let x0 := if sw then b0 else a0
    let x1 := if sw then b1 else a1
    let y0 := if sw then a0 else b0
    let y1 := if sw then a1 else b1
    if overlaps x.stepDir x0.pos x1.pos y0.pos y1.pos then .ok (false, s)
    else if 0 < x.vtx.2 ∧ y.vtx.1 = x.vtx.2 then
      (killVx2 cut score s (x.vtx.2 - 1) false).bind fun r =>
        if r.1 then
          if x.endFlag.2.testBit 3 then .ok (false, r.2) else mergeTail code r.2 i j x y x1
        else .ok (false, r.2)
    else if x.endFlag.2.testBit 3 then .ok (false, s)
    else mergeTail code s i j x y x1
  | _, _, _, _ => .ub

/-- `MergeAndStore`, Utils.cxx:4521-4701; `showers` stands for `MergeShowerTjsAndStore` -/
def mergeAndStore (pi cut : Rat) (score : Slice → Vtx3 → Rat) (code : Traj → Nat)
    (showers : Slice → Nat → Nat → Res (Bool × Slice)) (s : Slice) (i j : Nat) : Res (Bool × Slice) :=
  if s.tjs = [] then .ub
  else
    match s.tjs[i]?, s.tjs[j]? with
    | some t1, some t2 =>
      if t1.killed || t2.killed then .ok (false, s)
      else if t1.halo || t2.halo then .ok (false, s)
      else if t1.shower || t2.shower then showers s i j
      else
        match pfpIndex s t1.id, pfpIndex s t2.id with
        | some _, some _ => .ok (false, s)
        | none, some _ => mergeBody pi cut score code s j i t2 t1
        | _, _ => mergeBody pi cut score code s i j t1 t2
    | _, _ => .ok (false, s)

end Verif.TC

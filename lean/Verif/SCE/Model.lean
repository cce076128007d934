import Mathlib.Algebra.Order.Ring.Rat
import Mathlib.Algebra.Order.AbsoluteValue.Basic
import Mathlib.Algebra.Order.Group.Abs

/-!
# `SCECorrection_module`: positions corrected for the time of the slice and the space charge

`larreco/SCECorrections/SCECorrection_module.cc`.  Objects of the event are their keys (natural
numbers); associations are functions from the key to the list of associated keys, an association that
is not in the event gives empty lists.  Numbers are rational.
-/

namespace Verif.SCE

structure V3 where
  x : ℚ
  y : ℚ
  z : ℚ
deriving DecidableEq

def V3.add (a b : V3) : V3 := ⟨a.x + b.x, a.y + b.y, a.z + b.z⟩

inductive Axis | x | y | z
deriving DecidableEq

/-- The event, the geometry and the services that the module reads (151-195). -/
structure Ev where
  /-- for each slice: its particles and its hits -/
  slices : List (List ℕ × List ℕ)
  /-- times of a particle for a label -/
  pfpT0 : ℕ → ℕ → List ℕ
  pfpTrk : ℕ → List ℕ
  /-- times of a track for a label -/
  trkT0 : ℕ → ℕ → List ℕ
  time : ℕ → ℚ
  pfpSP : ℕ → List ℕ
  allSP : List ℕ
  spPos : ℕ → V3
  spHits : ℕ → List ℕ
  hitTpc : ℕ → ℕ
  drift : ℕ → Axis × ℚ
  vel : ℚ
  /-- `EnableCalSpatialSCE` -/
  sceOn : Bool
  /-- `GetCalPosOffsets` -/
  sce : V3 → ℕ → V3
  pfpVtx : ℕ → List ℕ
  vtxPos : ℕ → V3
  pfpClu : ℕ → List ℕ
  cluHits : ℕ → List ℕ
  pfpMeta : ℕ → List ℕ

/-- The settings (85-93); `flags` is `T0LabelsCorrectT0`, one for each of `T0Labels`. -/
structure Cfg where
  noT0 : Bool
  corrSCE : Bool
  flip : Bool
  flags : List Bool

/-- The loop over the labels for one particle (402-431): the first label that has exactly one time for
the particle, or else for its only track. -/
def findGo (ev : Ev) (p : ℕ) : ℕ → List Bool → Option (ℕ × Bool)
  | _, [] => none
  | i, f :: r =>
    match ev.pfpT0 i p with
    | [t] => some (t, f)
    | _ =>
      match ev.pfpTrk p with
      | [k] =>
        match ev.trkT0 i k with
        | [t] => some (t, f)
        | _ => findGo ev p (i + 1) r
      | _ => findGo ev p (i + 1) r

/-- `pfpT0CorrectMap[t] = f` (411, 427); the map is the list of its entries in ascending order. -/
def setKey (t : ℕ) (f : Bool) : List (ℕ × Bool) → List (ℕ × Bool)
  | [] => [(t, f)]
  | (k, g) :: r =>
    if t < k then (t, f) :: (k, g) :: r
    else if k < t then (k, g) :: setKey t f r
    else (k, f) :: r

/-- `getSliceT0s` (387-435). -/
def sliceT0s (cfg : Cfg) (ev : Ev) (pfps : List ℕ) : List (ℕ × Bool) :=
  pfps.foldl (fun m p => match findGo ev p 0 cfg.flags with
    | some (t, f) => setKey t f m
    | none => m) []

/-- `getSliceBestT0` (437-453): the smallest absolute time; the times are below the largest double. -/
def best (ev : Ev) (m : List (ℕ × Bool)) : Option (ℕ × Bool) :=
  m.foldl (fun b e => match b with
    | none => some e
    | some c => if |ev.time e.1| < |ev.time c.1| then some e else b) none

/-- `applyT0Shift` (375-385). -/
def t0Shift (ev : Ev) (off : ℚ) (tpc : ℕ) : V3 :=
  match ev.drift tpc with
  | (.x, s) => ⟨off * s, 0, 0⟩
  | (.y, s) => ⟨0, off * s, 0⟩
  | (.z, s) => ⟨0, 0, off * s⟩

/-- The correction of a position (270-279 for a vertex, 301-310 for a space point): `t0Offset` is the
drift velocity times the time over 1000 (219). -/
def correct (cfg : Cfg) (ev : Ev) (b : Option (ℕ × Bool)) (tpc : ℕ) (pos : V3) : V3 :=
  let pos1 := match b with
    | some (t, true) => pos.add (t0Shift ev (ev.vel * ev.time t / 1000) tpc)
    | _ => pos
  if cfg.corrSCE && ev.sceOn then
    let o := ev.sce pos1 tpc
    pos1.add (if cfg.flip then ⟨-o.x, o.y, o.z⟩ else o)
  else pos1

/-- The TPC of a space point: that of `fmSPHit.at(key).front()` (266-267, 298-299).  The code is
undefined for a space point without hits, here it is then the TPC of hit 0. -/
def spTpc (ev : Ev) (sp : ℕ) : ℕ := ev.hitTpc ((ev.spHits sp).headD 0)

def dist2 (a b : V3) : ℚ := (a.x - b.x) ^ 2 + (a.y - b.y) ^ 2 + (a.z - b.z) ^ 2

/-- The closest space point to a vertex (250-260); distances are below the largest double. -/
def closest (ev : Ev) (v : V3) (sps : List ℕ) : Option ℕ :=
  sps.foldl (fun b s => match b with
    | none => some s
    | some c => if dist2 v (ev.spPos s) < dist2 v (ev.spPos c) then some s else b) none

/-- The new vertex of an old one (243-281), `none` if there is no space point at all (263). -/
def newVtx (cfg : Cfg) (ev : Ev) (b : Option (ℕ × Bool)) (p v : ℕ) : Option (ℕ × V3) :=
  let sps := if (ev.pfpSP p).length ≠ 0 then ev.pfpSP p else ev.allSP
  match closest ev (ev.vtxPos v) sps with
  | none => none
  | some s => some (v, correct cfg ev b (spTpc ev s) (ev.vtxPos v))

/-- The collections and associations that are produced.  Objects that are copies are the key of the
original; particles are (position of the slice in the input, key of the particle); space points and
vertices are (key of the original, new position). -/
structure Out where
  slices : List ℕ := []
  t0s : List ℕ := []
  pfps : List (ℕ × ℕ) := []
  sps : List (ℕ × V3) := []
  vtxs : List (ℕ × V3) := []
  clus : List ℕ := []
  metas : List ℕ := []
  t0Pfp : List (ℕ × ℕ) := []
  sliceHit : List (ℕ × ℕ) := []
  pfpSlice : List (ℕ × ℕ) := []
  pfpVtx : List (ℕ × ℕ) := []
  pfpSP : List (ℕ × ℕ) := []
  pfpClu : List (ℕ × ℕ) := []
  pfpMeta : List (ℕ × ℕ) := []
  spHit : List (ℕ × ℕ) := []
  cluHit : List (ℕ × ℕ) := []
deriving DecidableEq

/-- The loop over the vertices of a particle (240-287); `n` is the position of the new particle. -/
def doVtx (cfg : Cfg) (ev : Ev) (b : Option (ℕ × Bool)) (p n : ℕ) (o : Out) (v : ℕ) : Out :=
  match newVtx cfg ev b p v with
  | none => o
  | some nv => { o with vtxs := o.vtxs ++ [nv], pfpVtx := o.pfpVtx ++ [(n, o.vtxs.length)] }

/-- The loop over the space points of a particle (290-320). -/
def doSP (cfg : Cfg) (ev : Ev) (b : Option (ℕ × Bool)) (n : ℕ) (o : Out) (s : ℕ) : Out :=
  { o with
    sps := o.sps ++ [(s, correct cfg ev b (spTpc ev s) (ev.spPos s))]
    pfpSP := o.pfpSP ++ [(n, o.sps.length)]
    spHit := o.spHit ++ [(o.sps.length, (ev.spHits s).headD 0)] }

/-- The loop over the clusters of a particle (323-337). -/
def doClu (ev : Ev) (n : ℕ) (o : Out) (c : ℕ) : Out :=
  { o with
    clus := o.clus ++ [c]
    pfpClu := o.pfpClu ++ [(n, o.clus.length)]
    cluHit := o.cluHit ++ (ev.cluHits c).map (fun h => (o.clus.length, h)) }

/-- The loop over the metadata of a particle (340-350). -/
def doMeta (n : ℕ) (o : Out) (m : ℕ) : Out :=
  { o with metas := o.metas ++ [m], pfpMeta := o.pfpMeta ++ [(n, o.metas.length)] }

/-- One particle of a slice (229-351); `si` is the position of the slice in the input, `ns` that of the
new slice, `nt` that of the new time. -/
def doPfp (cfg : Cfg) (ev : Ev) (b : Option (ℕ × Bool)) (si ns : ℕ) (nt : Option ℕ) (o : Out) (p : ℕ) :
    Out :=
  let n := o.pfps.length
  let o1 := { o with
    pfps := o.pfps ++ [(si, p)]
    pfpSlice := o.pfpSlice ++ [(n, ns)]
    t0Pfp := match nt with
      | some t => o.t0Pfp ++ [(t, n)]
      | none => o.t0Pfp }
  let o2 := (ev.pfpVtx p).foldl (doVtx cfg ev b p n) o1
  let o3 := (ev.pfpSP p).foldl (doSP cfg ev b n) o2
  let o4 := (ev.pfpClu p).foldl (doClu ev n) o3
  (ev.pfpMeta p).foldl (doMeta n) o4

/-- One slice (196-352). -/
def doSlice (cfg : Cfg) (ev : Ev) (o : Out) (s : (List ℕ × List ℕ) × ℕ) : Out :=
  let ns := o.slices.length
  let o1 := { o with slices := o.slices ++ [s.2] }
  let b := best ev (sliceT0s cfg ev s.1.1)
  match b with
  | none =>
    if !cfg.noT0 then o1
    else s.1.1.foldl (doPfp cfg ev b s.2 ns none)
      { o1 with sliceHit := o1.sliceHit ++ s.1.2.map (fun h => (ns, h)) }
  | some (t, _) =>
    s.1.1.foldl (doPfp cfg ev b s.2 ns (some o1.t0s.length))
      { o1 with t0s := o1.t0s ++ [t], sliceHit := o1.sliceHit ++ s.1.2.map (fun h => (ns, h)) }

/-- `produce` (114-373) when the needed associations exist. -/
def produce (cfg : Cfg) (ev : Ev) : Out := ev.slices.zipIdx.foldl (doSlice cfg ev) {}

end Verif.SCE

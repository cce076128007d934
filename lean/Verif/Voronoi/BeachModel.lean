import Mathlib.Data.List.Basic

/-!
Model of the beach line of the Voronoi sweep,
`larreco/RecoAlg/Cluster3DAlgs/Voronoi/BeachLine.{h,cxx}`.

Pointers to nodes are identifiers, a null pointer is `none`; the `std::list` that owns the nodes never moves or frees one, so an
identifier stays meaningful.  A result `none` stands for a null pointer dereference or a walk that does not end.

Not modelled: `m_depth` (written by `setDepth`, read only to print a message in `rebalance`; the balancing itself uses
`getTreeDepth`), the printing, and `checkBeachLine`, which only prints.  The position comparison `newSiteToLeft` is a parameter:
every theorem holds whatever it answers, so in particular for every rounding.
-/
namespace Verif.Voronoi

/-- `BSTNode`, BeachLine.h:34-116; events, half edges and faces are identifiers -/
structure Node where
  event : Nat
  parent : Option Nat := none
  left : Option Nat := none
  right : Option Nat := none
  pred : Option Nat := none
  succ : Option Nat := none
  assoc : Option Nat := none
  half : Option Nat := none
  face : Option Nat := none

/-- `BeachLine`, BeachLine.h:163-166: the nodes ever created, their number, `m_root`, and the validity flag of every event -/
structure Beach where
  heap : Nat → Node
  next : Nat
  root : Option Nat
  valid : Nat → Bool

namespace Beach

/-- a setter applied to node `i` -/
def mod (s : Beach) (i : Nat) (f : Node → Node) : Beach :=
  { s with heap := fun j => if j = i then f (s.heap i) else s.heap j }

/-- `m_nodeVec.push_back(n)`: the new node is number `s.next` -/
def push (s : Beach) (n : Node) : Beach :=
  { s with heap := fun j => if j = s.next then n else s.heap j, next := s.next + 1 }

/-- `event->setInvalid()` -/
def invalidate (s : Beach) (e : Nat) : Beach := { s with valid := fun x => if x = e then false else s.valid x }

/-- dropping the circle event of a node, BeachLine.cxx:111-115, 237-241, 243-247 -/
def dropCircle (s : Beach) (i : Nat) : Beach :=
  match (s.heap i).assoc with
  | none => s
  | some c => ((s.invalidate (s.heap c).event).mod c (fun n => { n with assoc := none })).mod i (fun n => { n with assoc := none })

/-- making the parent (or the root pointer) point at `new` instead of `old`, BeachLine.cxx:144-152, 579-586, 613-620 -/
def replaceChild (s : Beach) (p : Option Nat) (old new : Nat) : Beach :=
  match p with
  | some p => if (s.heap p).left = some old then s.mod p (fun n => { n with left := some new }) else s.mod p (fun n => { n with right := some new })
  | none => { s with root := some new }

/-- `findBestLeaf`, BeachLine.cxx:72-93; `toLeft l r` is `newSiteToLeft(event, l, r)` -/
def findBest (toLeft : Nat → Nat → Bool) (h : Nat → Node) : Nat → Option Nat → Option (Option Nat)
  | 0, _ => none
  | _ + 1, none => some none
  | f + 1, some i =>
    match (h i).left, (h i).right with
    | some l, some r =>
      match (h i).pred, (h i).succ with
      | some a, some b => if toLeft (h a).event (h b).event = true then findBest toLeft h f (some l) else findBest toLeft h f (some r)
      | _, _ => none
    | _, _ => some (some i)

/-- `getTreeDepth`, BeachLine.cxx:520-536 -/
def treeDepth (h : Nat → Node) : Nat → Nat → Option Nat
  | 0, _ => none
  | f + 1, i =>
    match (h i).left, (h i).right with
    | some l, some r =>
      match treeDepth h f l, treeDepth h f r with
      | some a, some b => some (max a b + 1)
      | _, _ => none
    | _, _ => some 0

/-- `rotateWithLeftChild`, BeachLine.cxx:572-604 -/
def rotateLeft (s : Beach) (i : Nat) : Option (Nat × Beach) :=
  match (s.heap i).left with
  | none => none
  | some j =>
    let p := (s.heap i).parent
    let s := s.replaceChild p i j
    let s := s.mod j (fun n => { n with parent := p })
    let s := s.mod i (fun n => { n with parent := some j })
    match (s.heap j).right with
    | none => none
    | some c =>
      let s := s.mod c (fun n => { n with parent := some i })
      let s := s.mod i (fun n => { n with left := some c })
      let s := s.mod j (fun n => { n with right := some i })
      some (j, s)

/-- `rotateWithRightChild`, BeachLine.cxx:606-638 -/
def rotateRight (s : Beach) (i : Nat) : Option (Nat × Beach) :=
  match (s.heap i).right with
  | none => none
  | some j =>
    let p := (s.heap i).parent
    let s := s.replaceChild p i j
    let s := s.mod j (fun n => { n with parent := p })
    let s := s.mod i (fun n => { n with parent := some j })
    match (s.heap j).left with
    | none => none
    | some c =>
      let s := s.mod c (fun n => { n with parent := some i })
      let s := s.mod i (fun n => { n with right := some c })
      let s := s.mod j (fun n => { n with left := some i })
      some (j, s)

/-- the balancing of one node, BeachLine.cxx:543-561 -/
def balanceNode (s : Beach) (i : Nat) : Option (Nat × Beach) :=
  match (s.heap i).left, (s.heap i).right with
  | some l, some r =>
    match treeDepth s.heap (s.next + 1) l, treeDepth s.heap (s.next + 1) r with
    | some a, some b => if b + 2 < a then s.rotateLeft i else if a + 2 < b then s.rotateRight i else some (i, s)
    | _, _ => none
  | _, _ => some (i, s)

/-- `rebalance`, BeachLine.cxx:538-570; the fuel bounds the walk to the root -/
def rebalance : Nat → Beach → Nat → Option Beach
  | 0, _, _ => none
  | f + 1, s, i =>
    match s.balanceNode i with
    | none => none
    | some (i, s) =>
      match (s.heap i).parent with
      | some p => rebalance f s p
      | none => some { s with root := some i }

/-- the four new nodes: new arc, left copy of the arc, left and right breakpoint, BeachLine.cxx:122-138 -/
def alloc4 (s : Beach) (ev i : Nat) : Beach :=
  let s := s.push { event := ev }
  let s := s.push (s.heap i)
  let s := s.push { event := ev }
  s.push { event := ev }

/-- hanging the new subtree in the place of leaf `i`, BeachLine.cxx:141-176.  Lines 162-167 cannot run, because lines 111-115 have
just cleared the associated circle. -/
def linkTree (s : Beach) (i newLeaf leftLeaf brk top : Nat) : Beach :=
  let p := (s.heap i).parent
  let s := s.mod top (fun n => { n with parent := p })
  let s := s.replaceChild p i top
  let s := s.mod top (fun n => { n with left := some brk })
  let s := s.mod top (fun n => { n with right := some i })
  let s := s.mod i (fun n => { n with parent := some top })
  let s := s.mod brk (fun n => { n with parent := some top })
  let s := s.mod brk (fun n => { n with left := some leftLeaf })
  let s := s.mod brk (fun n => { n with right := some newLeaf })
  let s := s.mod leftLeaf (fun n => { n with parent := some brk })
  s.mod newLeaf (fun n => { n with parent := some brk })

/-- `if (node->getPredecessor()) node->getPredecessor()->setSuccessor(leftLeaf)`, BeachLine.cxx:182 -/
def setSuccOf (s : Beach) (q : Option Nat) (x : Nat) : Beach :=
  match q with
  | some a => s.mod a (fun n => { n with succ := some x })
  | none => s

/-- wiring up the traversal chain, BeachLine.cxx:179-192 -/
def linkChain (s : Beach) (i newLeaf leftLeaf brk top : Nat) : Beach :=
  let q := (s.heap i).pred
  let s := s.mod leftLeaf (fun n => { n with pred := q })
  let s := s.mod leftLeaf (fun n => { n with succ := some brk })
  let s := s.setSuccOf q leftLeaf
  let s := s.mod brk (fun n => { n with pred := some leftLeaf })
  let s := s.mod brk (fun n => { n with succ := some newLeaf })
  let s := s.mod newLeaf (fun n => { n with pred := some brk })
  let s := s.mod newLeaf (fun n => { n with succ := some top })
  let s := s.mod top (fun n => { n with pred := some newLeaf })
  let s := s.mod top (fun n => { n with succ := some i })
  s.mod i (fun n => { n with pred := some top })

/-- `insertNewLeaf(event, node)` for a node, BeachLine.cxx:108-202; returns the new leaf.  `BSTNode(event)` also stores the address
of a temporary in the event; nobody reads it back for a site event. -/
def splitLeaf (s : Beach) (ev i : Nat) : Nat × Beach :=
  let s := s.dropCircle i
  let n := s.next
  let s := s.alloc4 ev i
  let s := s.linkTree i n (n + 1) (n + 2) (n + 3)
  (n, s.linkChain i n (n + 1) (n + 2) (n + 3))

/-- `insertNewLeaf(event)`, BeachLine.cxx:55-70, with the null case of lines 103-107; returns the new leaf -/
def insert (toLeft : Nat → Nat → Bool) (s : Beach) (ev : Nat) : Option (Nat × Beach) :=
  match findBest toLeft s.heap (s.next + 1) s.root with
  | none => none
  | some none =>
    match rebalance (s.next + 2) (s.push { event := ev }) s.next with
    | some s' => some (s.next, s')
    | none => none
  | some (some i) =>
    let r := s.splitLeaf ev i
    match rebalance (r.2.next + 1) r.2 r.1 with
    | some s' => some (r.1, s')
    | none => none

/-- the clearing of the removed nodes, BeachLine.cxx:265-274 -/
def zap (s : Beach) (i p : Nat) : Beach :=
  let s := s.mod i (fun n => { n with parent := none })
  let s := s.mod p (fun n => { n with left := none })
  let s := s.mod p (fun n => { n with right := none })
  let s := s.mod p (fun n => { n with parent := none })
  let s := s.mod p (fun n => { n with succ := none })
  let s := s.mod p (fun n => { n with pred := none })
  let s := s.mod i (fun n => { n with succ := none })
  let s := s.mod i (fun n => { n with pred := none })
  let s := s.mod i (fun n => { n with half := none })
  s.mod i (fun n => { n with face := none })

/-- the tree part of `removeLeaf`, BeachLine.cxx:210-227: returns the grandparent and the new state -/
def unlinkTree (s : Beach) (i p g : Nat) : Option Beach :=
  let sib := if (s.heap p).right = some i then (s.heap p).left else (s.heap p).right
  let s := if (s.heap g).left = some p then s.mod g (fun n => { n with left := sib }) else s.mod g (fun n => { n with right := sib })
  match sib with
  | none => none
  | some k => some (s.mod k (fun n => { n with parent := some g }))

/-- the chain part of `removeLeaf`, BeachLine.cxx:252-262; `a`, `c` are the neighbouring arcs and `x`, `y` the neighbouring
breakpoints of the removed leaf -/
def unlinkChain (s : Beach) (i p a c x y : Nat) : Beach :=
  if (s.heap p).left = some i then (s.mod c (fun n => { n with pred := some x })).mod x (fun n => { n with succ := some c })
  else (s.mod a (fun n => { n with succ := some y })).mod y (fun n => { n with pred := some a })

/-- `removeLeaf`, BeachLine.cxx:204-290; returns the breakpoint between the two neighbours.  The last `match` is the
`node->getAssociated()->getEvent()` of line 286. -/
def remove (s : Beach) (i : Nat) : Option (Option Nat × Beach) :=
  match (s.heap i).parent with
  | none => none
  | some p =>
  match (s.heap p).parent with
  | none => none
  | some g =>
  match s.unlinkTree i p g with
  | none => none
  | some s =>
  match (s.heap i).pred, (s.heap i).succ with
  | some x, some y =>
    match (s.heap x).pred, (s.heap y).succ with
    | some a, some c =>
      let s := s.dropCircle a
      let s := s.dropCircle c
      let s := s.unlinkChain i p a c x y
      let s := s.zap i p
      match rebalance (s.next + 1) s g with
      | none => none
      | some s =>
        match (s.heap i).assoc with
        | none => none
        | some _ => some ((s.heap a).succ, s)
    | _, _ => none
  | _, _ => none

/-- `countNodes`, BeachLine.cxx:292-299, 310-324 -/
def countNodes (h : Nat → Node) : Nat → Option Nat → Option Nat
  | 0, _ => none
  | _ + 1, none => some 0
  | f + 1, some i =>
    match countNodes h f (h i).left, countNodes h f (h i).right with
    | some a, some b => some (a + b + 1)
    | _, _ => none

/-- `countLeaves`, BeachLine.cxx:301-308, 326-337 -/
def countLeaves (h : Nat → Node) : Nat → Nat → Option Nat
  | 0, _ => none
  | f + 1, i =>
    match (h i).left, (h i).right with
    | some l, some r =>
      match countLeaves h f l, countLeaves h f r with
      | some a, some b => some (a + b)
      | _, _ => none
    | _, _ => some 1

/-- the loop of BeachLine.cxx:347-348 (also Voronoi.cxx:866-867): the leftmost leaf below a node -/
def leftmost (h : Nat → Node) : Nat → Nat → Option Nat
  | 0, _ => none
  | f + 1, i =>
    match (h i).left with
    | some l => leftmost h f l
    | none => some i

/-- is the node a leaf, BeachLine.cxx:357, 499, 514 -/
def isLeaf (n : Node) : Bool := n.left.isNone && n.right.isNone

/-- `traverseBeachRight`, BeachLine.cxx:505-518 -/
def walkRight (h : Nat → Node) : Nat → Option Nat → Option Nat
  | _, none => some 0
  | 0, some _ => none
  | f + 1, some i =>
    match walkRight h f (h i).succ with
    | some a => some (a + (if isLeaf (h i) = true then 1 else 0))
    | none => none

/-- `traverseBeachLeft`, BeachLine.cxx:490-503 -/
def walkLeft (h : Nat → Node) : Nat → Option Nat → Option Nat
  | _, none => some 0
  | 0, some _ => none
  | f + 1, some i =>
    match walkLeft h f (h i).pred with
    | some a => some (a + (if isLeaf (h i) = true then 1 else 0))
    | none => none

/-- `traverseBeach`, BeachLine.cxx:339-361 -/
def traverse (s : Beach) : Option Nat :=
  match s.root with
  | none => none
  | some r =>
    match leftmost s.heap (s.next + 1) r with
    | none => none
    | some i =>
      match walkLeft s.heap (s.next + 1) (s.heap i).pred, walkRight s.heap (s.next + 1) (s.heap i).succ with
      | some a, some b => some (a + b + (if isLeaf (s.heap i) = true then 1 else 0))
      | _, _ => none

/-- a new beach line, BeachLine.h:125 -/
def empty : Beach := ⟨fun _ => { event := 0 }, 0, none, fun _ => true⟩

end Beach
end Verif.Voronoi

import Verif.Model.Basic
import Verif.Model.Errors
/-
Model of src/tree.rs.  `usize` counters are natural numbers (the wrap-around of the node counter after
2^64 insertions is not modelled).
-/
namespace HPP

/-- `Node<T>` (tree.rs 35-44). -/
structure TNode (T : Type) where
  parent : Option Nat
  prevSibling : Option Nat
  nextSibling : Option Nat
  firstChild : Option Nat
  lastChild : Option Nat
  pk : Nat
  data : T
  deriving DecidableEq, Repr

/-- `Node::new` (tree.rs 46-61). -/
def TNode.new {T : Type} (parent : Option Nat) (data : T) (pk : Nat) (prev : Option Nat) : TNode T :=
  ⟨parent, prev, none, none, none, pk, data⟩

/-- `Tree<T>` (tree.rs 28-33).  `free` is the vector `free_node_indexes` read from its end, so that
`pop` takes the head. -/
structure Tree (T : Type) where
  nodes : List (TNode T)
  free : List Nat
  counter : Nat
  deriving DecidableEq, Repr

namespace Tree
variable {T : Type} {ε : Type}

/-- `Tree::new` (tree.rs 65-71). -/
def new : Tree T := ⟨[], [], 0⟩

/-- `node_exists` (tree.rs 221-233); as in the code, the free list is searched for the *pk*. -/
def nodeExists (t : Tree T) (id : NodeId) : Bool :=
  match t.nodes[id.ptr]? with
  | none => false
  | some n => if id.pk ∈ t.free then false else if n.pk ≠ id.pk then false else true

/-- `get_node` (tree.rs 195-207); as in the code, the free list is searched for the *pk*. -/
def getNode (t : Tree T) (id : NodeId) : Res TErr (TNode T) :=
  match t.nodes[id.ptr]? with
  | none => .err (.nodeDoesNotExist id)
  | some n =>
    if id.pk ∈ t.free then .err (.nodeWasRemoved id)
    else if n.pk ≠ id.pk then .err (.nodeDoesNotExist id)
    else .ok n

/-- `get_node_mut` (tree.rs 208-220): the node that may then be changed; here the free list is
searched for the *pointer*. -/
def getNodeMut (t : Tree T) (id : NodeId) : Res TErr (TNode T) :=
  match t.nodes[id.ptr]? with
  | none => .err (.nodeDoesNotExist id)
  | some n =>
    if id.ptr ∈ t.free then .err (.nodeWasRemoved id)
    else if n.pk ≠ id.pk then .err (.nodeDoesNotExist id)
    else .ok n

/-- `self.nodes[i] = ...` through `f`; `none` is the out-of-bounds panic (tree.rs 90, 113, 118, 142, 145). -/
def updNode (t : Tree T) (i : Nat) (f : TNode T → TNode T) : Option (Tree T) :=
  match t.nodes[i]? with
  | none => none
  | some n => some { t with nodes := t.nodes.set i (f n) }

/-- Storing the new node (tree.rs 89-93 and 117-121). -/
def placeNode (t : Tree T) (reused : Bool) (ix : Nat) (n : TNode T) : Option (Tree T) :=
  if reused then t.updNode ix (fun _ => n) else some { t with nodes := t.nodes ++ [n] }

/-- `add_node` (tree.rs 72-127).  The index popped from the free list and the incremented counter stay
changed when an error is returned. -/
def addNode (t : Tree T) (data : T) (parent : Option NodeId) : Res TErr NodeId × Tree T :=
  let next := match t.free with
    | [] => t.nodes.length
    | i :: _ => i
  let reused := !t.free.isEmpty
  let t0 : Tree T := { t with free := t.free.tail }
  match parent with
  | none =>
    let pk := t0.counter
    let t1 := { t0 with counter := t0.counter + 1 }
    match t1.placeNode reused next (TNode.new none data pk none) with
    | none => (.panic, t1)
    | some t2 => (.ok ⟨next, pk⟩, t2)
  | some pid =>
    if !t0.nodeExists pid then (.err (.nodeDoesNotExist pid), t0)
    else
      let pk := t0.counter
      let t1 := { t0 with counter := t0.counter + 1 }
      match t1.getNodeMut pid with
      | .err e => (.err e, t1)
      | .panic => (.panic, t1)
      | .timeout => (.timeout, t1)
      | .ok pn =>
        let newNode := TNode.new (some pid.ptr) data pk pn.lastChild
        let upd : TNode T → TNode T := fun p =>
          { p with
            firstChild := (match p.firstChild with
              | none => some next
              | some c => some c)
            lastChild := some next }
        match t1.updNode pid.ptr upd with
        | none => (.panic, t1)
        | some t2 =>
          let t3? := match pn.lastChild with
            | some lci => t2.updNode lci (fun n => { n with nextSibling := some next })
            | none => some t2
          match t3? with
          | none => (.panic, t2)
          | some t3 =>
            match t3.placeNode reused next newNode with
            | none => (.panic, t3)
            | some t4 => (.ok ⟨next, pk⟩, t4)

/-- Loop of `get_children` (tree.rs 144-148); the number bounds the iterations. -/
def childrenFrom (t : Tree T) : Nat → Option Nat → Res ε (List NodeId)
  | _, none => .ok []
  | 0, some _ => .timeout
  | fuel + 1, some ix => do
    let n ← Res.unwrapO t.nodes[ix]?
    let r ← childrenFrom t fuel n.nextSibling
    return ⟨ix, n.pk⟩ :: r

/-- `get_children` (tree.rs 140-151); only the pointer of the id is used. -/
def getChildren (t : Tree T) (fuel : Nat) (id : NodeId) : Res ε (List NodeId) := do
  let n ← Res.unwrapO t.nodes[id.ptr]?
  childrenFrom t fuel n.firstChild

/-- Loop of `get_descendants` (tree.rs 133-136) with the recursive call as a parameter. -/
def descendantsOf (rec : NodeId → Res ε (List NodeId)) : List NodeId → Res ε (List NodeId)
  | [] => .ok []
  | c :: cs => do
    let d ← rec c
    let r ← descendantsOf rec cs
    return d ++ r

/-- `get_descendants` (tree.rs 129-138); the number bounds the recursion depth and the loops. -/
def getDescendants (t : Tree T) : Nat → NodeId → Res ε (List NodeId)
  | 0, _ => .timeout
  | fuel + 1, id => do
    let children ← t.getChildren (fuel + 1) id
    let r ← descendantsOf (getDescendants t fuel) children
    return children ++ r

/-- The `Children` iterator advanced to its `nth` element (tree.rs 272-291 with 158-162, 170-174). -/
def nthFrom (t : Tree T) : Nat → Option Nat → Res ε (Option (TNode T))
  | _, none => .ok none
  | nth, some ix => do
    let n ← Res.unwrapO t.nodes[ix]?
    match nth with
    | 0 => return some n
    | k + 1 => nthFrom t k n.nextSibling

/-- `get_nth_child_or_none` (tree.rs 165-176). -/
def getNthChildOrNone (t : Tree T) (n : TNode T) (nth : Nat) : Res ε (Option (TNode T)) :=
  t.nthFrom nth n.firstChild

/-- `get_nth_child` (tree.rs 153-164). -/
def getNthChild (t : Tree T) (n : TNode T) (nth : Nat) : Res TErr (TNode T) := do
  match ← t.nthFrom nth n.firstChild with
  | some c => return c
  | none => .err (.childDoesNotExist nth)

/-- Loop of `get_by_path_or_none` (tree.rs 184-190). -/
def byPathFrom (t : Tree T) : List Nat → TNode T → Res TErr (Option (TNode T))
  | [], n => .ok (some n)
  | i :: is, n => do
    match ← t.getNthChildOrNone n i with
    | some c => byPathFrom t is c
    | none => return none

/-- `get_by_path_or_none` (tree.rs 177-193). -/
def getByPathOrNone (t : Tree T) (source : NodeId) (ids : List Nat) :
    Res TErr (Option (TNode T)) := do
  let n ← t.getNode source
  t.byPathFrom ids n

/-- The unlinking and freeing part of `remove_branch` (tree.rs 246-266), `node` being the node to
remove at `ptr` and `desc` the pointers of its descendants. -/
def unlink (t : Tree T) (ptr : Nat) (node : TNode T) (desc : List Nat) : Option (Tree T) := do
  let t1 ← match node.parent with
    | some p => t.updNode p (fun pn =>
        { pn with
          firstChild := if pn.firstChild = some ptr then node.nextSibling else pn.firstChild
          lastChild := if pn.lastChild = some ptr then node.prevSibling else pn.lastChild })
    | none => some t
  let t2 ← match node.prevSibling with
    | some s => t1.updNode s (fun n => { n with nextSibling := node.nextSibling })
    | none => some t1
  let t3 ← match node.nextSibling with
    | some s => t2.updNode s (fun n => { n with prevSibling := node.prevSibling })
    | none => some t2
  return { t3 with free := (desc ++ [ptr, ptr]).reverse ++ t3.free }

/-- `remove_branch` (tree.rs 235-269); as in the code the node's own index is freed twice. -/
def removeBranch (t : Tree T) (fuel : Nat) (id : NodeId) : Res TErr Unit × Tree T :=
  match t.getNode id with
  | .err e => (.err e, t)
  | .panic => (.panic, t)
  | .timeout => (.timeout, t)
  | .ok node =>
    match (t.getDescendants fuel id : Res TErr _) with
    | .err e => (.err e, t)
    | .panic => (.panic, t)
    | .timeout => (.timeout, t)
    | .ok ds =>
      match t.unlink id.ptr node (ds.map (·.ptr)) with
      | none => (.panic, t)
      | some t' => (.ok (), t')

end Tree
end HPP

import Verif.Model.Basic
import Verif.Model.Errors
/-
Model of src/simple_graph.rs and src/named_graph.rs.
-/
namespace HPP

/-- `NodeData` (simple_graph.rs 19-22). -/
structure GNode (α : Type) where
  firstOut : Option Nat
  data : α
  deriving DecidableEq, Repr

/-- `EdgeData` (simple_graph.rs 27-31). -/
structure GEdge where
  target : Nat
  id : Nat
  nextOut : Option Nat
  deriving DecidableEq, Repr

/-- `Graph` (simple_graph.rs 12-15). -/
structure Graph (α : Type) where
  nodes : List (GNode α)
  edges : List GEdge
  deriving DecidableEq, Repr

namespace Graph
variable {α ε : Type}

/-- `Graph::new` (simple_graph.rs 41-46). -/
def new : Graph α := ⟨[], []⟩

/-- `add_node` (simple_graph.rs 48-55). -/
def addNode (g : Graph α) (data : α) : Nat × Graph α :=
  (g.nodes.length, { g with nodes := g.nodes ++ [⟨none, data⟩] })

/-- `add_edge` (simple_graph.rs 57-71).  Indexing `nodes[source]` and the `unwrap` may panic. -/
def addEdge (g : Graph α) (source target : Nat) : Res ε (Graph α) := do
  let edgeIndex := g.edges.length
  let node ← Res.unwrapO g.nodes[source]?
  let newId ← match node.firstOut with
    | none => Res.ok 0
    | some index => do
      let e ← Res.unwrapO g.edges[index]?
      Res.ok (e.id + 1)
  return {
    nodes := g.nodes.set source { node with firstOut := some edgeIndex }
    edges := g.edges ++ [⟨target, newId, node.firstOut⟩] }

/-- The edge indices produced by the iterator `ConnectedEdges` (simple_graph.rs 216-234) from a given
current edge.  The iterator is run to the end here; the first argument bounds the number of
steps (`timeout` = cyclic chain). -/
def walk (edges : List GEdge) : Nat → Option Nat → Res ε (List Nat)
  | _, none => .ok []
  | 0, some _ => .timeout
  | fuel + 1, some i => do
    let e ← Res.unwrapO edges[i]?
    let r ← walk edges fuel e.nextOut
    return i :: r

/-- `connected_edges` (simple_graph.rs 164-169), collected. -/
def connectedEdges (g : Graph α) (source : Nat) : Res ε (List Nat) := do
  let node ← Res.unwrapO g.nodes[source]?
  walk g.edges g.edges.length node.firstOut

/-- `successors` (simple_graph.rs 155-161, 196-214), collected. -/
def successors (g : Graph α) (source : Nat) : Res ε (List Nat) := do
  let es ← g.connectedEdges source
  es.mapM (fun i => do
    let e ← Res.unwrapO g.edges[i]?
    return e.target)

/-- `ThingWithNextEdge` (simple_graph.rs 7-10). -/
inductive ThingWithNextEdge where
  | node (i : Nat)
  | edge (i : Nat)

/-- Result of the search loop in `try_add_edge_with_id` (simple_graph.rs 82-92). -/
inductive TrySearch where
  | taken
  | insertAfter (previous : ThingWithNextEdge) (nextEdge : Option Nat)

/-- Search loop of `try_add_edge_with_id` (simple_graph.rs 82-92). -/
def trySearch (edges : List GEdge) (id : Nat) :
    List Nat → ThingWithNextEdge → Option Nat → Res ε TrySearch
  | [], prev, nxt => .ok (.insertAfter prev nxt)
  | i :: is, prev, nxt => do
    let e ← Res.unwrapO edges[i]?
    if e.id = id then return .taken
    else if e.id > id then trySearch edges id is (.edge i) e.nextOut
    else return .insertAfter prev nxt

/-- `try_add_edge_with_id` (simple_graph.rs 73-108). -/
def tryAddEdgeWithId (g : Graph α) (source target id : Nat) : Res ε (Bool × Graph α) := do
  let connected ← g.connectedEdges source
  let node ← Res.unwrapO g.nodes[source]?
  match ← trySearch g.edges id connected (.node source) node.firstOut with
  | .taken => return (false, g)
  | .insertAfter previous nextEdge =>
    let edgeIndex := g.edges.length
    match previous with
    | .node n => do
      let nd ← Res.unwrapO g.nodes[n]?
      return (true, {
        nodes := g.nodes.set n { nd with firstOut := some edgeIndex }
        edges := g.edges ++ [⟨target, id, nextEdge⟩] })
    | .edge e => do
      let ed ← Res.unwrapO g.edges[e]?
      return (true, {
        nodes := g.nodes
        edges := g.edges.set e { ed with nextOut := some edgeIndex } ++ [⟨target, id, nextEdge⟩] })

/-- Loop of `find_node_index` (simple_graph.rs 112-119). -/
def findLoop (edges : List GEdge) (id : Nat) : List Nat → Res ε (Option Nat)
  | [] => .ok none
  | i :: is => do
    let e ← Res.unwrapO edges[i]?
    if e.id = id then return some e.target
    else if e.id < id then return none
    else findLoop edges id is

/-- `find_node_index` (simple_graph.rs 110-121). -/
def findNodeIndex (g : Graph α) (source id : Nat) : Res ε (Option Nat) := do
  let es ← g.connectedEdges source
  findLoop g.edges id es

/-- Loop of `find_node_index_by_path` (simple_graph.rs 128-135). -/
def findByPathLoop (g : Graph α) : List Nat → Option Nat → Res ε (Option Nat)
  | [], cur => .ok cur
  | _ :: _, none => .ok none
  | id :: ids, some cni => do
    let nxt ← g.findNodeIndex cni id
    findByPathLoop g ids nxt

/-- `find_node_index_by_path` (simple_graph.rs 122-137). -/
def findNodeIndexByPath (g : Graph α) (source : Nat) (ids : List Nat) : Res ε (Option Nat) :=
  findByPathLoop g ids (some source)

/-- `find_node` (simple_graph.rs 140-143). -/
def findNode (g : Graph α) (source id : Nat) : Res ε (Option (GNode α)) := do
  match ← g.findNodeIndex source id with
  | none => return none
  | some i => do
    let n ← Res.unwrapO g.nodes[i]?
    return some n

/-- `find_node_by_path` (simple_graph.rs 145-152). -/
def findNodeByPath (g : Graph α) (source : Nat) (ids : List Nat) : Res ε (Option (GNode α)) := do
  match ← g.findNodeIndexByPath source ids with
  | none => return none
  | some i => do
    let n ← Res.unwrapO g.nodes[i]?
    return some n

/-- `add_graph_at_node` (simple_graph.rs 171-193). -/
def addGraphAtNode (g other : Graph α) (this otherNode : Nat) : Res ε (Graph α) :=
  let nodeOffset := g.nodes.length
  let edgeOffset := g.edges.length
  let g1 : Graph α := {
    nodes := g.nodes ++ other.nodes.map (fun n =>
      { data := n.data, firstOut := n.firstOut.map (fun ei => edgeOffset + ei) })
    edges := g.edges ++ other.edges.map (fun e =>
      { target := nodeOffset + e.target, nextOut := e.nextOut.map (fun ei => edgeOffset + ei), id := e.id }) }
  g1.addEdge this (otherNode + nodeOffset)

end Graph

/-- `GraphNamedNodes` (named_graph.rs 41-44). -/
structure NamedGraph (α : Type) where
  graph : Graph α
  names : AMap Nat Nat
  deriving DecidableEq, Repr

namespace NamedGraph
variable {α : Type}

/-- `new` (named_graph.rs 53-58). -/
def new : NamedGraph α := ⟨Graph.new, []⟩

/-- `add_node` (named_graph.rs 59-70). -/
def addNode (g : NamedGraph α) (name : Nat) (data : α) : Res GErr (Nat × NamedGraph α) :=
  match AMap.get g.names name with
  | some _ => .err (.graphNodeAlreadyExists name)
  | none =>
    let (index, graph) := g.graph.addNode data
    .ok (index, ⟨graph, AMap.insert g.names name index⟩)

/-- `get_index_of_node` (named_graph.rs 72-78). -/
def getIndexOfNode (g : NamedGraph α) (name : Nat) : Res GErr Nat :=
  Res.ofOption (AMap.get g.names name) (.graphNodeDoesNotExist name)

/-- `get_node_by_index` (named_graph.rs 80-85).  `len() - 1` underflows on an empty graph: panic in a
checked build; in an unchecked build the comparison is false and the indexing panics. -/
def getNodeByIndex (g : NamedGraph α) (index : Nat) : Res GErr (GNode α) :=
  if g.graph.nodes.length = 0 then .panic
  else if index > g.graph.nodes.length - 1 then .err (.graphIndexOutOfBounds index)
  else Res.unwrapO g.graph.nodes[index]?

/-- `get_node_mut_by_index` (named_graph.rs 86-94) followed by replacing the data with `f data`. -/
def modifyNodeByIndex (g : NamedGraph α) (index : Nat) (f : α → α) : Res GErr (NamedGraph α) :=
  if g.graph.nodes.length = 0 then .panic
  else if index > g.graph.nodes.length - 1 then .err (.graphIndexOutOfBounds index)
  else do
    let n ← Res.unwrapO g.graph.nodes[index]?
    return { g with graph := { g.graph with nodes := g.graph.nodes.set index { n with data := f n.data } } }

/-- `get_node` (named_graph.rs 96-99). -/
def getNode (g : NamedGraph α) (name : Nat) : Res GErr (GNode α) := do
  let index ← g.getIndexOfNode name
  Res.unwrapO g.graph.nodes[index]?

/-- `get_node_mut` (named_graph.rs 100-106) followed by replacing the data with `f data`. -/
def modifyNode (g : NamedGraph α) (name : Nat) (f : α → α) : Res GErr (NamedGraph α) := do
  let index ← g.getIndexOfNode name
  let n ← Res.unwrapO g.graph.nodes[index]?
  return { g with graph := { g.graph with nodes := g.graph.nodes.set index { n with data := f n.data } } }

/-- `add_edge` (named_graph.rs 107-116). -/
def addEdge (g : NamedGraph α) (source target : Nat) : Res GErr (NamedGraph α) := do
  let s ← g.getIndexOfNode source
  let t ← g.getIndexOfNode target
  let graph ← g.graph.addEdge s t
  return { g with graph }

/-- `successor_indices` (named_graph.rs 118-124), collected. -/
def successorIndices (g : NamedGraph α) (name : Nat) : Res GErr (List Nat) := do
  let index ← g.getIndexOfNode name
  g.graph.successors index

/-- `successors` (named_graph.rs 126-136) and its iterator (143-158), collected. -/
def successors (g : NamedGraph α) (name : Nat) : Res GErr (List (Nat × GNode α)) := do
  let index ← g.getIndexOfNode name
  let ts ← g.graph.successors index
  ts.mapM (fun t => do
    let n ← Res.unwrapO g.graph.nodes[t]?
    return (t, n))

end NamedGraph
end HPP

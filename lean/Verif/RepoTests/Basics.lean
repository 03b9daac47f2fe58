import Verif.Model.ParseFuncs
import Verif.Model.Graph
import Verif.Model.Tree
/-
The unit tests of parse_funcs.rs, simple_graph.rs and tree.rs, run on the model by the kernel.  They check the model against
what the authors expect of the code; they prove no property.
-/
namespace HPP.RepoTests

/-! ### parse_funcs.rs -/

/-- The result of `parse_isize` on a new process, and the next character. -/
def isizeOf (t : Str) : Option (Sum Int PErr × Option Char) :=
  match parseIsize (Proc.ofText t) with
  | (.ok n, p) => some (.inl n, p.peek.1)
  | (.err e, p) => some (.inr e, p.peek.1)
  | _ => none

/-- The result of `parse_usize` on a new process, and the next character. -/
def usizeOf (t : Str) : Option (Sum Nat PErr × Option Char) :=
  match parseUsize (Proc.ofText t) with
  | (.ok n, p) => some (.inl n, p.peek.1)
  | (.err e, p) => some (.inr e, p.peek.1)
  | _ => none

/-- `test_parse_isize_negative` (parse_funcs.rs 143-149). -/
example : isizeOf (c% "-12") = some (.inl (-12), none) := by decide +kernel
/-- `test_parse_isize_positive` (parse_funcs.rs 151-157). -/
example : isizeOf (c% "3") = some (.inl 3, none) := by decide +kernel
/-- `test_parse_isize_zero` (parse_funcs.rs 159-165). -/
example : isizeOf (c% "0") = some (.inl 0, none) := by decide +kernel
/-- `test_parse_isize_stops_before_non_digit` (parse_funcs.rs 167-174). -/
example : isizeOf (c% "-12x") = some (.inl (-12), some 'x') := by decide +kernel
/-- `test_parse_isize_rejects_non_digit_start` (parse_funcs.rs 176-189). -/
example : isizeOf (c% "+12") = some (.inr (.unexpectedChar '+' 0 (c% "digit or - expected")), some '+') := by decide +kernel
/-- `test_parse_isize_rejects_sign_without_digits` (parse_funcs.rs 191-200). -/
example : isizeOf (c% "-") = some (.inr (.endOfChars 1), none) := by decide +kernel
/-- `test_parse_usize_positive` (parse_funcs.rs 202-208). -/
example : usizeOf (c% "123") = some (.inl 123, none) := by decide +kernel
/-- `test_parse_usize_zero` (parse_funcs.rs 210-216). -/
example : usizeOf (c% "0") = some (.inl 0, none) := by decide +kernel
/-- `test_parse_usize_stops_before_non_digit` (parse_funcs.rs 218-225). -/
example : usizeOf (c% "42a") = some (.inl 42, some 'a') := by decide +kernel
/-- `test_parse_usize_rejects_negative_sign` (parse_funcs.rs 227-240). -/
example : usizeOf (c% "-12") = some (.inr (.unexpectedChar '-' 0 (c% "digit expected")), some '-') := by decide +kernel
/-- `test_parse_usize_requires_digit` (parse_funcs.rs 242-251). -/
example : usizeOf [] = some (.inr (.endOfChars 0), none) := by decide +kernel

/-! ### simple_graph.rs -/

/-- A call on a graph: `add_edge(s, t)`, or `try_add_edge_with_id(s, t, id)` with the asserted result, or `find_node(s, id)` with
the asserted data. -/
inductive GCall where
  | edge (s t : Nat)
  | tryEdge (s t id : Nat) (expected : Bool)
  | find (s id : Nat) (expected : Option Str)

/-- All calls behave as asserted. -/
def graphCalls : List GCall → Graph Str → Bool
  | [], _ => true
  | .edge s t :: cs, g =>
    match (g.addEdge s t : Res PErr (Graph Str)) with
    | .ok g' => graphCalls cs g'
    | _ => false
  | .tryEdge s t id b :: cs, g =>
    match (g.tryAddEdgeWithId s t id : Res PErr (Bool × Graph Str)) with
    | .ok (b', g') => decide (b = b') && graphCalls cs g'
    | _ => false
  | .find s id d :: cs, g =>
    match (g.findNode s id : Res PErr (Option (GNode Str))) with
    | .ok n => decide (n.map (·.data) = d) && graphCalls cs g
    | _ => false

/-- A new graph with the given nodes, then the calls. -/
def graphTest (nodes : List Str) (calls : List GCall) : Bool :=
  graphCalls calls (nodes.foldl (fun g d => (g.addNode d).2) Graph.new)

/-- `edge_id_add` (simple_graph.rs 240-249). -/
example : graphTest [c% "Hello, ", c% "World", c% "Mr.Mouse"] [.edge 0 1, .tryEdge 0 2 0 false] = true := by decide +kernel
/-- `edge_id_add2` (simple_graph.rs 251-260). -/
example : graphTest [c% "Hello, ", c% "World", c% "Mr.Mouse"] [.edge 0 1, .tryEdge 0 2 1 true] = true := by decide +kernel
/-- `edge_id_add3` (simple_graph.rs 262-272). -/
example : graphTest [c% "Hello, ", c% "World", c% "Mr.Mouse", c% "Mrs.Mouse"]
    [.edge 0 1, .tryEdge 0 3 2 true, .tryEdge 0 2 1 true] = true := by decide +kernel
/-- `edge_id_add4` (simple_graph.rs 274-280). -/
example : graphTest [c% "Hello, ", c% "World"] [.tryEdge 0 1 0 true] = true := by decide +kernel
/-- `edge_id_add5` (simple_graph.rs 282-289). -/
example : graphTest [c% "Hello, ", c% "World"] [.tryEdge 0 1 0 true, .tryEdge 1 0 0 true] = true := by decide +kernel
/-- `edge_id_find` (simple_graph.rs 291-299). -/
example : graphTest [c% "Hello, ", c% "World"] [.tryEdge 0 1 0 true, .find 0 0 (some (c% "World"))] = true := by decide +kernel
/-- `edge_id_find2` (simple_graph.rs 300-308). -/
example : graphTest [c% "Hello, ", c% "World"] [.tryEdge 0 1 0 true, .find 0 1 none] = true := by decide +kernel
/-- `edge_id_find3` (simple_graph.rs 309-315). -/
example : graphTest [c% "Hello, "] [.find 0 1 none] = true := by decide +kernel
/-- `edge_id_find4` (simple_graph.rs 316-330). -/
example : graphTest [c% "Hello, ", c% "World", c% "Mr. Mouse", c% "Mrs. Mouse"]
    [.tryEdge 0 1 0 true, .tryEdge 0 2 10 true, .find 0 0 (some (c% "World")), .find 0 1 none, .find 0 10 (some (c% "Mr. Mouse")),
      .tryEdge 0 3 1 true, .find 0 1 (some (c% "Mrs. Mouse"))] = true := by decide +kernel

/-! ### tree.rs -/

/-- The data of a node, `none` if `get_node` fails. -/
def nodeData (t : Tree Str) (id : NodeId) : Option Str :=
  match t.getNode id with
  | .ok n => some n.data
  | _ => none

/-- `add_node(…).unwrap()`. -/
def added (t : Tree Str) (d : Str) (par : Option NodeId) : Option (NodeId × Tree Str) :=
  match t.addNode d par with
  | (.ok id, t') => some (id, t')
  | _ => none

/-- `get_node_does_not_exists` (tree.rs 316-321). -/
example : nodeData Tree.new ⟨0, 0⟩ = none := by decide +kernel
/-- `test_tree_add_node` (tree.rs 323-329). -/
example : (added Tree.new (c% "test") none).bind (fun x => nodeData x.2 x.1) = some (c% "test") := by decide +kernel
/-- `test_tree_add_delete_node` (tree.rs 330-338). -/
example : (added Tree.new (c% "test") none).map (fun x => nodeData (x.2.removeBranch 10 x.1).2 x.1) = some none := by decide +kernel
/-- `test_tree_add_delete_add_node` (tree.rs 339-348). -/
example : (do
    let (n, t) ← added Tree.new (c% "remove") none
    let (n2, t2) ← added (t.removeBranch 10 n).2 (c% "test") none
    nodeData t2 n2) = some (c% "test") := by decide +kernel
/-- `test_tree_add_delete_add_node2` (tree.rs 349-359). -/
example : (do
    let (n, t) ← added Tree.new (c% "remove") none
    let (_, t2) ← added (t.removeBranch 10 n).2 (c% "test") none
    some (nodeData t2 n)) = some none := by decide +kernel
/-- `test_tree_add_node_child` (tree.rs 361-369). -/
example : (do
    let (n, t) ← added Tree.new (c% "test") none
    let (_, t2) ← added t (c% "child") (some n)
    match (t2.getChildren 10 n : Res TErr (List NodeId)) with
    | .ok cs => cs[0]?.bind (nodeData t2)
    | _ => none) = some (c% "child") := by decide +kernel
/-- `test_tree_get_by_path` (tree.rs 371-383). -/
example : (do
    let (n, t) ← added Tree.new (c% "test") none
    let (_, t2) ← added t (c% "child") (some n)
    match t2.getByPathOrNone n [0] with
    | .ok c => c.map (·.data)
    | _ => none) = some (c% "child") := by decide +kernel

end HPP.RepoTests

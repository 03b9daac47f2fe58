import Verif.Model.Display
/-
Model of `GraphError` and its text (src/named_graph.rs 18-39; a public type no function of the crate returns).
-/
namespace HPP

/-- `GraphError` (named_graph.rs 18-23). -/
inductive GraphErr where
  | nodeAlreadyExists (name : Str)
  | nodeDoesNotExist (name : Str)
  | indexOutOfBounds (index : Nat)
  deriving DecidableEq, Repr

/-- `fmt::Display for GraphError` (named_graph.rs 27-39). -/
def GraphErr.display : GraphErr → Str
  | .nodeAlreadyExists name => c% "Node with the name \"" ++ (name ++ c% "\" already exists")
  | .nodeDoesNotExist name => c% "Node \"" ++ (name ++ c% "\" does not exist")
  | .indexOutOfBounds index => c% "Index \"" ++ (showNat index ++ c% "\" out of bounds")

end HPP

import Verif.Model.Basic
/-
Model of src/errors.rs (the data; the `Display` texts are in Model/Display.lean).
-/
namespace HPP

/-- `tree.rs` 8-12: `NodeId`. -/
structure NodeId where
  ptr : Nat
  pk : Nat
  deriving DecidableEq, Repr

/-- `tree.rs` 293-298: `TreeError`. -/
inductive TErr where
  | nodeDoesNotExist (id : NodeId)
  | nodeWasRemoved (id : NodeId)
  | childDoesNotExist (nth : Nat)
  deriving DecidableEq, Repr

/-- `errors.rs` 80-115: `GrammarError`.  Simplification: the German `reason` texts of
`UnexpectedElementError` are replaced by a flag saying which of the two texts it is, and
`rule_name` (the decimal text of the index) by the index. -/
inductive GErr where
  | missingFollowSet (index : Nat)
  | missingElementForIndex (index : Nat)
  | missingFirstSet (index : Nat)
  | missingSteuerSet (index : Nat)
  | missingProduction (index : Nat)
  | steuerSetsNotDistinct (terminal : Str) (chr : Char) (rule : Nat)
  | unexpectedElement (mixedEmpty : Bool) (pos : Nat)
  | graphNodeAlreadyExists (name : Nat)
  | graphNodeDoesNotExist (name : Nat)
  | graphIndexOutOfBounds (index : Nat)
  deriving DecidableEq, Repr

/-- `errors.rs` 12-38: `ParserError`.  Simplification: the message of `InternalError` is replaced by
the element index it mentions. -/
inductive PErr where
  | unexpectedChar (chr : Char) (pos : Nat) (expected : Str)
  | endOfChars (pos : Nat)
  | gram (err : GErr)
  | unknownSpecialOperation (operation : Str) (pos : Nat)
  | impossible
  | internal (index : Nat)
  | vmError (message : Str)
  | tree (err : TErr)
  deriving DecidableEq, Repr

end HPP

import Verif.Model.ParserData
import Verif.Model.Tree
/-
Model of the `fmt::Display` implementations and of the conversions of src/errors.rs, src/sets.rs, src/tree.rs and
src/named_graph.rs: the texts a user sees.  `write!` of a `char` or `str` is the text itself, of a `usize` its decimal
numeral.
-/
namespace HPP

/-- Decimal formatting of a `usize` (`core::fmt`): digits are produced from the last to the first by repeated
division; the first number bounds the iterations (used by `write!` in errors.rs 44-151, tree.rs 25). -/
def showNatFrom : Nat → Nat → Str → Str
  | 0, _, acc => acc
  | fuel + 1, n, acc =>
    let acc := Char.ofNat (48 + n % 10) :: acc
    if n / 10 = 0 then acc else showNatFrom fuel (n / 10) acc

/-- `{}` of a `usize` (errors.rs 44-151, tree.rs 25, 305-307). -/
def showNat (n : Nat) : Str := showNatFrom (n + 1) n []

/-- `fmt::Display for SetMemberWithEmpty` (sets.rs 17-31). -/
def SetMemberE.display : SetMemberE → Str
  | .char x => '\'' :: x :: c% "'"
  | .empty => c% "empty"
  | .terminate => c% "terminate"

/-- `Into<String> for SetMemberWithEmpty` (sets.rs 33-41). -/
def SetMemberE.toStr : SetMemberE → Str
  | .char x => [x]
  | .empty => c% "empty"
  | .terminate => c% "terminate"

/-- `fmt::Display for SetMember` (sets.rs 48-59). -/
def SetMember.display : SetMember → Str
  | .char x => '\'' :: x :: c% "'"
  | .terminate => c% "terminate"

/-- `fmt::Display for NodeId` (tree.rs 18-27). -/
def NodeId.display (id : NodeId) : Str :=
  c% "ptr_in_arr:" ++ (showNat id.ptr ++ (c% ", pk:" ++ showNat id.pk))

/-- `fmt::Display for TreeError` (tree.rs 302-310). -/
def TErr.display : TErr → Str
  | .nodeDoesNotExist id => id.display ++ c% " does not exists"
  | .nodeWasRemoved id => id.display ++ c% " was removed"
  | .childDoesNotExist nth => showNat nth ++ c% " does not exist"

/-- The two texts `reason` of `UnexpectedElementError` (rule_parsing.rs 267-269 and 291-293). -/
def elementReason : Bool → Str
  | true => c% "Leereelemente für leere Menge darf nicht mit anderen Elementen zusammen stehen"
  | false => c% "Es wurden keine Elemente gefunden. Es müssen aber welche gefunden werden oder es muss das Symbol für leere Menge genutzt werden (#)"

/-- `fmt::Display for GrammarError` (errors.rs 120-151). -/
def GErr.display : GErr → Str
  | .missingFollowSet i => c% " \"" ++ (showNat i ++ c% "\" has no followset")
  | .missingElementForIndex i => c% " \"" ++ (showNat i ++ c% "\" has no entry in elements")
  | .missingFirstSet i => c% " \"" ++ (showNat i ++ c% "\" has no firstset")
  | .missingSteuerSet i => c% " \"" ++ (showNat i ++ c% "\" has no steuerset")
  | .missingProduction i => c% " \"" ++ (showNat i ++ c% "\" not in productions")
  | .steuerSetsNotDistinct _ _ _ => c% "steuersets not distinct"
  | .unexpectedElement b pos => c% " \"" ++ (elementReason b ++ (c% "\" at pos " ++ (showNat pos ++ c% " was not expected")))
  | .graphNodeAlreadyExists _ => c% "graph node already exists"
  | .graphNodeDoesNotExist _ => c% "graph node doesn't exists"
  | .graphIndexOutOfBounds _ => c% "graph node index out of bounds"

/-- `fmt::Display for ParserError` (errors.rs 44-68). -/
def PErr.display : PErr → Str
  | .unexpectedChar chr pos expected =>
    c% " \"" ++ (chr :: (c% "\" at pos " ++ (showNat pos ++ (c% " was not expected. Expected " ++ expected))))
  | .endOfChars pos => c% "There was a char expected but there was none at pos " ++ showNat pos
  | .unknownSpecialOperation op pos => c% " \"" ++ (op ++ (c% "\" at pos " ++ (showNat pos ++ c% " was not expected")))
  | .gram _ => c% "There was a Grammar error"
  | .impossible => c% "This error should not be possible"
  | .internal _ => c% "There was an internal error"
  | .vmError _ => c% "There was a VM error"
  | .tree _ => c% "There was a treeerror"

end HPP

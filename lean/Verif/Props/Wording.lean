import Verif.Spec.Wording
import Verif.Props.Display
import Verif.Model.GraphError
/-
C70: the exact wording of all messages.
-/
namespace HPP
open Spec

/-- **C70**, the wording of parser errors. -/
theorem C70_parser_error_wording (chr : Char) (pos : Nat) (expected op : Str) :
    PErr.display (.unexpectedChar chr pos expected) =
      fill (c% " \"{}\" at pos {} was not expected. Expected {}") [[chr], numeral pos, expected] ∧
    PErr.display (.endOfChars pos) = fill (c% "There was a char expected but there was none at pos {}") [numeral pos] ∧
    PErr.display (.unknownSpecialOperation op pos) = fill (c% " \"{}\" at pos {} was not expected") [op, numeral pos] ∧
    (∀ g, PErr.display (.gram g) = c% "There was a Grammar error") ∧
    PErr.display .impossible = c% "This error should not be possible" ∧
    (∀ i, PErr.display (.internal i) = c% "There was an internal error") ∧
    (∀ v, PErr.display (.vmError v) = c% "There was a VM error") ∧
    (∀ t, PErr.display (.tree t) = c% "There was a treeerror") := by
  refine ⟨?_, ?_, ?_, fun _ => rfl, rfl, fun _ => rfl, fun _ => rfl, fun _ => rfl⟩ <;>
    simp [PErr.display, C70_numbers_in_decimal, fill]

/-- **C70**, the wording of grammar errors. -/
theorem C70_grammar_error_wording (i : Nat) (t : Str) (c : Char) :
    GErr.display (.missingFollowSet i) = fill (c% " \"{}\" has no followset") [numeral i] ∧
    GErr.display (.missingElementForIndex i) = fill (c% " \"{}\" has no entry in elements") [numeral i] ∧
    GErr.display (.missingFirstSet i) = fill (c% " \"{}\" has no firstset") [numeral i] ∧
    GErr.display (.missingSteuerSet i) = fill (c% " \"{}\" has no steuerset") [numeral i] ∧
    GErr.display (.missingProduction i) = fill (c% " \"{}\" not in productions") [numeral i] ∧
    GErr.display (.steuerSetsNotDistinct t c i) = c% "steuersets not distinct" ∧
    GErr.display (.unexpectedElement true i) = fill (c% " \"{}\" at pos {} was not expected")
      [c% "Leereelemente für leere Menge darf nicht mit anderen Elementen zusammen stehen", numeral i] ∧
    GErr.display (.unexpectedElement false i) = fill (c% " \"{}\" at pos {} was not expected")
      [c% "Es wurden keine Elemente gefunden. Es müssen aber welche gefunden werden oder es muss das Symbol für leere Menge genutzt werden (#)",
        numeral i] ∧
    GErr.display (.graphNodeAlreadyExists i) = c% "graph node already exists" ∧
    GErr.display (.graphNodeDoesNotExist i) = c% "graph node doesn't exists" ∧
    GErr.display (.graphIndexOutOfBounds i) = c% "graph node index out of bounds" := by
  refine ⟨?_, ?_, ?_, ?_, ?_, rfl, ?_, ?_, rfl, rfl, rfl⟩ <;>
    simp [GErr.display, elementReason, C70_numbers_in_decimal, fill]

/-- **C70**, the wording of tree errors and node ids, and the texts of set members. -/
theorem C70_wording (id : NodeId) (k : Nat) (x : Char) :
    id.display = fill (c% "ptr_in_arr:{}, pk:{}") [numeral id.ptr, numeral id.pk] ∧
    TErr.display (.nodeDoesNotExist id) = fill (c% "ptr_in_arr:{}, pk:{} does not exists") [numeral id.ptr, numeral id.pk] ∧
    TErr.display (.nodeWasRemoved id) = fill (c% "ptr_in_arr:{}, pk:{} was removed") [numeral id.ptr, numeral id.pk] ∧
    TErr.display (.childDoesNotExist k) = fill (c% "{} does not exist") [numeral k] ∧
    SetMember.display (.char x) = fill (c% "'{}'") [[x]] ∧ SetMember.display .terminate = c% "terminate" ∧
    SetMemberE.display (.char x) = fill (c% "'{}'") [[x]] ∧ SetMemberE.display .terminate = c% "terminate" ∧
    SetMemberE.display .empty = c% "empty" ∧
    SetMemberE.toStr (.char x) = [x] ∧ SetMemberE.toStr .terminate = c% "terminate" ∧ SetMemberE.toStr .empty = c% "empty" ∧
    SetMember.toStr (.char x) = [x] ∧ SetMember.toStr .terminate = c% "terminate" := by
  refine ⟨?_, ?_, ?_, ?_, ?_, rfl, ?_, rfl, rfl, rfl, rfl, rfl, rfl, rfl⟩ <;>
    simp [NodeId.display, TErr.display, SetMember.display, SetMemberE.display, C70_numbers_in_decimal, fill]

/-- **C70**, the wording of graph errors. -/
theorem C70_graph_error_wording (name : Str) (i : Nat) :
    GraphErr.display (.nodeAlreadyExists name) = fill (c% "Node with the name \"{}\" already exists") [name] ∧
    GraphErr.display (.nodeDoesNotExist name) = fill (c% "Node \"{}\" does not exist") [name] ∧
    GraphErr.display (.indexOutOfBounds i) = fill (c% "Index \"{}\" out of bounds") [numeral i] := by
  refine ⟨?_, ?_, ?_⟩ <;> simp [GraphErr.display, C70_numbers_in_decimal, fill]

example : GraphErr.display (.indexOutOfBounds 12) = c% "Index \"12\" out of bounds" := by decide +kernel

example : PErr.display (.unexpectedChar ')' 7 (c% "+;-")) = c% " \")\" at pos 7 was not expected. Expected +;-" := by
  decide +kernel

end HPP

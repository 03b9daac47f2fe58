import Verif.Model.RuleParserApi
import Verif.Model.VMs
/-
The unit tests of script_parser.rs, run on the model by the kernel, with two iteration orders of the hash maps.  They check the
model against what the authors expect of the code; they prove no property.
-/
namespace HPP.RepoTests

/-- `Parser::new_from_text(rules, &vm)` and `parser.parse(text, &mut state)` with a new state, then a check of the result. -/
def parsed {I S : Type} (vm : VM I S) (rules text : Str) (f : Res PErr (Tree Str) → S → Bool) : Bool :=
  [HashOrder.insertion, HashOrder.reversed].all fun ho =>
    match Parser.newFromText ho 100 .ascii vm rules with
    | .ok P => f (P.parse ho 100 vm text vm.init).1 (P.parse ho 100 vm text vm.init).2.state
    | _ => false

/-- `new_from_text` panics. -/
def panics (rules : Str) : Bool :=
  [HashOrder.insertion, HashOrder.reversed].all fun ho =>
    match Parser.newFromText ho 100 .ascii nullVm rules with
    | .panic => true
    | _ => false

/-- `parse(…).unwrap()` returns. -/
def succeeds (rules text : Str) : Bool := parsed nullVm rules text fun r _ =>
  match r with
  | .ok _ => true
  | _ => false

/-- `get_by_path_or_none(NodeId::new(0, 0), path).unwrap()` of the tree of the parse has the given data. -/
def pathIs (rules text : Str) (path : List Nat) (d : Option Str) : Bool := parsed nullVm rules text fun r _ =>
  match r with
  | .ok t =>
    match t.getByPathOrNone ⟨0, 0⟩ path with
    | .ok n => decide (n.map (·.data) = d)
    | _ => false
  | _ => false

/-- `test_script_parser` (script_parser.rs 340-352). -/
example : succeeds (c% "start      -> identifier1 identifier2;\
            identifier1 -> \"a_terminal\"| #;
            identifier2 -> \"b_terminal\"| #;
") (c% "a_terminalb_terminal") = true := by decide +kernel

/-- `test_script_parser2` (script_parser.rs 354-380). -/
example : parsed nullVm (c% "start      -> identifier1 identifier2;\
            identifier1 -> \"abcde\"| #;
            identifier2 -> \"zzzzzz\"| #;
") (c% "abcdeg") (fun r _ =>
    match r with
    | .err (.unexpectedChar chr pos _) => decide (pos = 5 ∧ chr = 'g')
    | _ => false) = true := by decide +kernel

/-- The rules of the next three tests. -/
def abcRules : Str := c% "start      -> identifier1 identifier2;\
            identifier1 -> \"a_terminal\"| #;
            identifier2 -> \"b_terminal\"| \"c_terminal\";
"

/-- `test_script_parser3` (script_parser.rs 382-394). -/
example : succeeds abcRules (c% "a_terminalc_terminal") = true := by decide +kernel
/-- `test_script_parser_graph` (script_parser.rs 396-416). -/
example : pathIs abcRules (c% "a_terminalc_terminal") [0, 0] (some (c% "a_terminal")) = true := by decide +kernel
/-- `test_script_parser_graph2` (script_parser.rs 418-434). -/
example : pathIs abcRules (c% "c_terminal") [0, 0] none = true := by decide +kernel
/-- `test_script_parser_graph3` (script_parser.rs 436-454). -/
example : pathIs (c% "start      -> identifier1;\
            identifier1 -> \"a\" identifier2;
            identifier2 -> \"b\";
") (c% "ab") [0, 1, 0] (some (c% "b")) = true := by decide +kernel

/-- The rules of the next two tests. -/
def listRules : Str := c% "start      -> list;\
            list -> l_element list_s ;\
            list_s -> l_element list_s| #;\
            l_element -> \"a\";\
"

/-- `test_parse_list` (script_parser.rs 456-469). -/
example : succeeds listRules (c% "aaa") = true := by decide +kernel
/-- `test_parse_list2` (script_parser.rs 471-484). -/
example : succeeds listRules (c% "a") = true := by decide +kernel

/-- `test_script_parser_discarder` (script_parser.rs 486-498) cannot pass: the pinned rule parser rejects the `$IGNORE:`
directive (C42), so `new_from_text` panics. -/
example : panics (c% "$IGNORE: whitespace; \
            start      -> \"a\" \"b\";\
            whitespace -> \" \";\
") = true := by decide +kernel

/-- `test_script_parser_discarder2` (script_parser.rs 500-512) cannot pass, likewise. -/
example : panics (c% "$IGNORE: whitespace; \
            start      -> \"a\" \"b\";\
            whitespace -> \" \"| #;\
") = true := by decide +kernel

/-- `test_script_parser_discarder3` (script_parser.rs 514-554) cannot pass, likewise. -/
example : panics (c% "$IGNORE: whitespaces; \
            start      -> \"a\" \"b\" \"c\" ;\
            whitespaces -> whitespace whitespaces_s ;\
            whitespaces_s -> whitespace whitespaces_s| #;\
            whitespace -> \" \";\
") = true := by decide +kernel

/-- `test_script_parser_discarder4` (script_parser.rs 556-589) cannot pass, likewise. -/
example : panics (c% "$IGNORE: whitespaces; \
            start      -> a_or_b \"c\" ;\
            a_or_b -> \"a\"| \"b\";
            whitespaces -> whitespace whitespaces_s ;\
            whitespaces_s -> whitespace whitespaces_s| #;\
            whitespace -> \" \";\
") = true := by decide +kernel

/-- `test_counting_vm` (script_parser.rs 591-604). -/
example : parsed (countingVm true) (c% "start      -> count count count ;\
            count -> \"a\" {} ;\
") (c% "aaa") (fun r s =>
    match r with
    | .ok _ => decide (s = 3)
    | _ => false) = true := by decide +kernel

end HPP.RepoTests

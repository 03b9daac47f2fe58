import Verif.RepoTests.Sets
/-
The unit tests of rule_parsing.rs, run on the model by the kernel.  They check the model against what the authors expect of the
code; they prove no property.
-/
namespace HPP.RepoTests

/-- A lexical function on a new process: the result and the text that `collect` still yields. -/
def lexed (f : SM Proc PErr Str) (t : Str) : Option (Str × Str) :=
  match f (Proc.ofText t) with
  | (.ok s, p) => some (s, p.rest)
  | _ => none

/-- `test_parse_terminal` (rule_parsing.rs 432-439). -/
example : lexed parseQuoted (c% "\"contents\"") = some (c% "contents", []) := by decide +kernel
/-- `test_parse_terminal_escaped_quote` (rule_parsing.rs 441-448). -/
example : lexed parseQuoted (c% "\"cont\\\"ents\"") = some (c% "cont\\\"ents", []) := by decide +kernel
/-- `test_parse_terminal_escaped_quote2` (rule_parsing.rs 450-457). -/
example : lexed parseQuoted (c% "\"cont\"ents\"") = some (c% "cont", c% "ents\"") := by decide +kernel
/-- `test_parse_terminal_escaped_quote_and_new_line` (rule_parsing.rs 459-466). -/
example : lexed parseQuoted (c% "\"asdf\\n\\\"sdf\"") = some (c% "asdf\\n\\\"sdf", []) := by decide +kernel
/-- `test_parse_terminal_fail_on_missing_trailing_quote` (rule_parsing.rs 468-475). -/
example : lexed parseQuoted (c% "\"content") = none := by decide +kernel
/-- `test_parse_identifier` (rule_parsing.rs 477-484). -/
example : lexed (parseVarName .ascii) (c% "IDENTIFIER") = some (c% "IDENTIFIER", []) := by decide +kernel
/-- `test_parse_identifier2` (rule_parsing.rs 486-493). -/
example : lexed (parseVarName .ascii) (c% "identifier") = some (c% "identifier", []) := by decide +kernel
/-- `test_parse_identifier3` (rule_parsing.rs 495-502). -/
example : lexed (parseVarName .ascii) (c% "identifier not") = some (c% "identifier", c% " not") := by decide +kernel

/-- The elements of a production, `none` for the empty one. -/
def elementsOf (pd : ParserData Nat) : Production → Option (List (Option ElementVerbose))
  | .notEmpty els => some (els.map pd.getElementVerbose)
  | .empty => none

/-- Non-terminals and terminals by name. -/
def nt (n : Str) : Option ElementVerbose := some ⟨n, .nonTerminal⟩
/-- See `nt`. -/
def tm (n : Str) : Option ElementVerbose := some ⟨n, .terminal⟩

/-- `test_parse_production` (rule_parsing.rs 504-544). -/
example : (match parseProd .ascii (RP.new (c% "identifier \"terminal\" identifier2 \"terminal2\"") : RP Nat) with
    | (.ok p, s) => elementsOf s.pd p
    | _ => none) = some [nt (c% "identifier"), tm (c% "terminal"), nt (c% "identifier2"), tm (c% "terminal2")] := by decide +kernel

/-- `test_parse_production2` (rule_parsing.rs 546-596). -/
example : (match parseAlts .ascii (RP.new (c% "identifier \"terminal\"
        |   identifier2 \"terminal\"") : RP Nat) with
    | (.ok ps, s) => some (ps.map (elementsOf s.pd))
    | _ => none) = some [some [nt (c% "identifier"), tm (c% "terminal")], some [nt (c% "identifier2"), tm (c% "terminal")]] := by
  decide +kernel

/-- `test_parse_rule` (rule_parsing.rs 598-624). -/
example : (match parseRule .ascii nullVm (RP.new (c% "identifier ->  identifier2;")) with
    | (.ok (key, rule), s) => some (s.pd.getElementVerbose key, rule.prods.map (elementsOf s.pd))
    | _ => none) = some (nt (c% "identifier"), [some [nt (c% "identifier2")]]) := by decide +kernel

/-- The alternatives of a rule, found by the index of its element. -/
def altsAt (pd : ParserData Nat) (ix : Nat) : Option (List (Option (List (Option ElementVerbose)))) :=
  (AMap.get pd.rules ix).map fun r => r.prods.map (elementsOf pd)

/-- The alternatives of a rule, found by its name. -/
def altsNamed (pd : ParserData Nat) (name : Str) : Option (List (Option (List (Option ElementVerbose)))) :=
  (pd.getRuleByElementVerbose name).map fun r => r.prods.map (elementsOf pd)

/-- `test_parse_rules` (rule_parsing.rs 626-693). -/
example : bothOrders (fun ho => withRules (c% "rule1      -> rule2
               |rule3;
rule2 -> \"b_terminal\"\
               | \"c_terminal\";") ho fun pd =>
    decide (altsAt pd 0 = some [some [nt (c% "rule2")], some [nt (c% "rule3")]] ∧
      altsAt pd 1 = some [some [tm (c% "b_terminal")], some [tm (c% "c_terminal")]])) = true := by decide +kernel

/-- `test_parse_rules2` (rule_parsing.rs 695-708). -/
example : bothOrders (rejected (c% "rule1      -> rule2
               |rule3;
rule2 -> \"b_terminal\"\
               | \"c_terminal\"; asdf")) = true := by decide +kernel

/-- `test_parse_rules3` (rule_parsing.rs 710-724). -/
example : bothOrders (fun ho => withRules (c% "start ->   identifier2
                        |identifier3
                        |\"a_terminal\";\
            identifier2 -> \"b_terminal\"\
                            | #;
            identifier3 -> \"c_terminal\";
") ho fun _ => true) = true := by decide +kernel

/-- `test_parse_rules4` (rule_parsing.rs 746-783). -/
example : bothOrders (fun ho => withRules (c% "rule1      -> rule2
               |rule3;

rule2 -> \"b_terminal\"\
               | \"c_terminal\";\
               ") ho fun pd =>
    decide (altsAt pd 0 = some [some [nt (c% "rule2")], some [nt (c% "rule3")]] ∧
      altsAt pd 1 = some [some [tm (c% "b_terminal")], some [tm (c% "c_terminal")]])) = true := by decide +kernel

/-- The rules of `test_parse_rules5` and `test_is_derivative2`. -/
def loopRules : Str := c% "start      -> not_end | #;\
            not_end -> \"a\" start ;\
"

/-- `test_parse_rules5` (rule_parsing.rs 785-811). -/
example : bothOrders (fun ho => withRules loopRules ho fun pd =>
    decide (altsAt pd 0 = some [some [nt (c% "not_end")], none] ∧
      altsAt pd 1 = some [some [tm (c% "a"), nt (c% "start")]])) = true := by decide +kernel

/-- `test_rule_parser_discarder` (rule_parsing.rs 813-858) cannot pass: the pinned `parse_rules` rejects the `$IGNORE:` directive
(C42) at its first character, so there are no rules and `rules.get(start_rule).unwrap()` panics. -/
example : bothOrders (fun ho =>
    match rpParseRules ho .ascii nullVm (RP.new (c% "$IGNORE: whitespace; \
            start      -> \"a\" \"b\";\
            whitespace -> \" \";\
")) with
    | (.err _, s) => decide (s.pd.rules.length = 0)
    | _ => false) = true := by decide +kernel

/-- `test_rule_parser_discarder2` (rule_parsing.rs 860-902) cannot pass: `parse_rules().unwrap()` panics. -/
example : bothOrders (rejected (c% "$IGNORE: whitespaces; \
            start      -> \"a\" \"b\" \"c\" ;\
            whitespaces -> whitespace whitespaces_s ;\
            whitespaces_s -> whitespace whitespaces_s| #;\
            whitespace -> \" \";\
")) = true := by decide +kernel

/-- `test_rule_parser_discarder3` (rule_parsing.rs 904-955) cannot pass, likewise. -/
example : bothOrders (rejected (c% "$IGNORE: whitespaces; \
            start      -> \"a\" var ;\
            var -> $[IGNORE:#] \"b\" \"c\";\
            whitespaces -> whitespace whitespaces_s ;\
            whitespaces_s -> whitespace whitespaces_s| #;\
            whitespace -> \" \";\
")) = true := by decide +kernel

/-- The rules of the next tests. -/
def lRules : Str := c% "start      -> list;\
            list -> l_element list_s ;\
            list_s -> l_element list_s| #;\
            l_element -> \"a\";\
"

/-- `test_parse_rules_list` (rule_parsing.rs 957-1023). -/
example : bothOrders (fun ho => withRules lRules ho fun pd =>
    decide (altsNamed pd (c% "start") = some [some [nt (c% "list")]]) &&
      decide (altsNamed pd (c% "list") = some [some [nt (c% "l_element"), nt (c% "list_s")]]) &&
      decide (altsNamed pd (c% "list_s") = some [some [nt (c% "l_element"), nt (c% "list_s")], none]) &&
      decide (altsNamed pd (c% "l_element") = some [some [tm (c% "a")]])) = true := by decide +kernel

/-- `check_is_derivative(elements, rules, left, right).unwrap()`. -/
def derivative (pd : ParserData Nat) (left right : Str) : Option Bool :=
  match pd.getElementNtIndex left, pd.getElementNtIndex right with
  | some l, some r =>
    match checkIsDerivative pd.elementTypes pd.rules l r with
    | .ok b => some b
    | _ => none
  | _, _ => none

/-- `test_is_derivative` and `test_is_derivative1_1` (rule_parsing.rs 1025-1129). -/
example : bothOrders (fun ho => withRules lRules ho fun pd =>
    decide (derivative pd (c% "start") (c% "list") = some true ∧ derivative pd (c% "start") (c% "list_s") = some true ∧
      derivative pd (c% "start") (c% "l_element") = some true ∧ derivative pd (c% "list") (c% "list_s") = some true ∧
      derivative pd (c% "list") (c% "l_element") = some true ∧ derivative pd (c% "l_element") (c% "start") = some false)) = true := by
  decide +kernel

/-- `test_is_derivative2` (rule_parsing.rs 1131-1162). -/
example : bothOrders (fun ho => withRules loopRules ho fun pd =>
    decide (derivative pd (c% "start") (c% "not_end") = some true ∧ derivative pd (c% "not_end") (c% "start") = some true)) = true := by
  decide +kernel

end HPP.RepoTests

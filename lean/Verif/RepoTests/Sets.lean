import Verif.Model.RuleParserApi
import Verif.Model.TestHelpers
import Verif.Model.VMs
/-
The unit tests of first_sets.rs, follow_sets.rs, steuer_sets.rs, steuer_map.rs and test_helpers.rs, run on the model by the
kernel, with two iteration orders of the hash maps.  They check the model against what the authors expect of the code; they
prove no property.
-/
namespace HPP.RepoTests

/-- Equality of the hash sets of `assert_eq!`. -/
def sameSet {α : Type} [DecidableEq α] (a b : List α) : Bool := a.all (· ∈ b) && b.all (· ∈ a)

/-- A test is run with two iteration orders. -/
def bothOrders (f : HashOrder → Bool) : Bool := f .insertion && f .reversed

/-- `RuleParser::new(…).parse_rules().unwrap()` with NullVm, then a check of the parser data. -/
def withRules (t : Str) (ho : HashOrder) (f : ParserData Nat → Bool) : Bool :=
  match parseRules ho .ascii nullVm t with
  | .ok pd => f pd
  | _ => false

/-- The rules are rejected: `unwrap` and `expect` panic. -/
def rejected (t : Str) (ho : HashOrder) : Bool :=
  match parseRules ho .ascii nullVm t with
  | .err _ => true
  | _ => false

/-- `assert_eq!(make_memberset(s), first_dict.get(name)…)` for all given pairs. -/
def firstAre (t : Str) (l : List (Str × Str)) : Bool := bothOrders fun ho => withRules t ho fun pd =>
  match getFirstSets ho 100 pd with
  | .ok fs => l.all fun (name, s) =>
    match (pd.getElementNtIndex name).bind (AMap.get fs) with
    | some x => sameSet x (makeMemberSet s)
    | none => false
  | _ => false

/-- FIRST and FOLLOW sets of the rules. -/
def withSets (pd : ParserData Nat) (ho : HashOrder) (f : NamedSets → NamedSetsNoEmpty → Bool) : Bool :=
  match getFirstSets ho 100 pd, pd.getElementNtIndex (c% "start") with
  | .ok fs, some start =>
    match getFollowSets ho 100 start fs pd with
    | .ok fo => f fs fo
    | _ => false
  | _, _ => false

/-- `assert_eq!(make_memberset_no_empty(s), follow_dict.get(name)…)` for all given pairs. -/
def followAre (t : Str) (l : List (Str × Str)) : Bool := bothOrders fun ho => withRules t ho fun pd => withSets pd ho fun _ fo =>
  l.all fun (name, s) =>
    match (pd.getElementNtIndex name).bind (AMap.get fo) with
    | some x => sameSet x (makeMemberSetNoEmpty s)
    | none => false

/-- `assert_eq!(make_memberset_no_empty(s), steuer_dict.get(name)…)` for all given pairs. -/
def steuerAre (t : Str) (l : List (Str × Str)) : Bool := bothOrders fun ho => withRules t ho fun pd => withSets pd ho fun fs fo =>
  match getSteuerSets ho fs fo with
  | .ok st => l.all fun (name, s) =>
    match (pd.getElementNtIndex name).bind (AMap.get st) with
    | some x => sameSet x (makeMemberSetNoEmpty s)
    | none => false
  | _ => false

/-- `get_steuermaps(…).unwrap()` does not panic. -/
def steuermapsOk (pd : ParserData Nat) (ho : HashOrder) : Bool := withSets pd ho fun fs fo =>
  match getSteuermaps ho fs fo pd with
  | .ok _ => true
  | _ => false

/-! ### test_helpers.rs -/

/-- `test_make_memberset` (test_helpers.rs 39-51). -/
example : sameSet (makeMemberSet (c% "ab!#")) [.char 'a', .char 'b', .empty, .terminate] = true := by decide +kernel

/-- `test_make_memberset_no_empty` (test_helpers.rs 52-64). -/
example : sameSet (makeMemberSetNoEmpty (c% "ab!#")) [.char 'a', .char 'b', .char '#', .terminate] = true := by decide +kernel

/-! ### first_sets.rs -/

/-- `test_first_mengen` (first_sets.rs 145-199). -/
example : firstAre (c% "start ->   identifier2
                        |identifier3
                        |\"a_terminal\";\
            identifier2 -> \"b_terminal\"\
                            | #;
            identifier3 -> \"c_terminal\";
") [(c% "start", c% "abc#"), (c% "identifier2", c% "b#"), (c% "identifier3", c% "c")] = true := by decide +kernel

/-- `test_first_mengen2` (first_sets.rs 201-251). -/
example : firstAre (c% "start      ->  identifier2 identifier3
                            | \"a_terminal\";\
            identifier2 ->  \"b_terminal\"\
                            | #;
            identifier3 -> \"c_terminal\";
") [(c% "identifier2", c% "b#"), (c% "identifier3", c% "c"), (c% "start", c% "abc")] = true := by decide +kernel

/-- `test_first_mengen3` (first_sets.rs 253-303). -/
example : firstAre (c% "start      ->  identifier2 identifier3
                            | \"a_terminal\";\
            identifier2 -> \"b_terminal\"\
                            | #;
            identifier3 -> \"c_terminal\"| #;
") [(c% "identifier2", c% "b#"), (c% "identifier3", c% "c#"), (c% "start", c% "abc#")] = true := by decide +kernel

/-- `test_first_list` (first_sets.rs 305-366). -/
example : firstAre (c% "start      -> list;\
            list -> l_element list_s ;\
            list_s -> l_element list_s| #;\
            l_element -> \"a\";\
") [(c% "start", c% "a"), (c% "list", c% "a"), (c% "list_s", c% "a#"), (c% "l_element", c% "a")] = true := by decide +kernel

/-- The parser data of the next three tests: non-terminals named by their numbers. -/
def partialData (names : List Str) : ParserData Nat :=
  names.foldl (fun pd n => (pd.getOrAddElementKey ⟨n, .nonTerminal⟩).2) ParserData.new

/-- `first_set_of_partial(…).unwrap()` is the given set. -/
def partialIs (names : List Str) (fs : NamedSets) (els : List Nat) (s : Str) : Bool :=
  match firstSetOfPartial (partialData names) fs els with
  | .ok x => sameSet x (makeMemberSet s)
  | _ => false

/-- `test_first_set_of_partial` (first_sets.rs 368-380). -/
example : partialIs [c% "0"] [(0, makeMemberSet (c% "c#"))] [0] (c% "c#") = true := by decide +kernel

/-- `test_first_set_of_partial2` (first_sets.rs 382-399). -/
example : partialIs [c% "0", c% "1"] [(0, makeMemberSet (c% "c#")), (1, makeMemberSet (c% "d#"))] [0, 1] (c% "cd#") = true := by
  decide +kernel

/-- `test_first_set_of_partial3` (first_sets.rs 401-423). -/
example : partialIs [c% "0", c% "1", c% "2"]
    [(0, makeMemberSet (c% "c#")), (1, makeMemberSet (c% "d")), (2, makeMemberSet (c% "e#"))] [0, 1, 2] (c% "cd") = true := by
  decide +kernel

/-- The rules of `test_first_mengen_hard` and `test_follow_mengen3`. -/
def hardRules : Str := c% "start      -> identifier2 list identifier3;\
            identifier2 -> \"b_terminal\"\
                            | #;
            identifier3 -> \"c_terminal\"| #;
            list -> liststart listt;
            liststart-> \"list\"| #;
            listt -> # | listelement listt;
            listelement -> \"g\" | \"h\";
"

/-- `test_first_mengen_hard` (first_sets.rs 425-492). -/
example : firstAre hardRules [(c% "start", c% "lhbgc#"), (c% "identifier3", c% "c#"), (c% "list", c% "ghl#"), (c% "listt", c% "#gh"),
    (c% "listelement", c% "gh"), (c% "liststart", c% "l#"), (c% "identifier2", c% "b#")] = true := by decide +kernel

/-! ### follow_sets.rs -/

/-- `test_follow_mengen` (follow_sets.rs 163-205). -/
example : followAre (c% "start      -> identifier2 identifier3
                |\"a_terminal\";\
identifier2 -> \"b_terminal\"\
               | #;
identifier3 -> \"c_terminal\"| #;
") [(c% "start", c% "!"), (c% "identifier2", c% "c!"), (c% "identifier3", c% "!")] = true := by decide +kernel

/-- `test_follow_mengen2` (follow_sets.rs 207-247). -/
example : followAre (c% "start      -> identifier2 identifier3 \"a_terminal\";\
            identifier2 -> \"b_terminal\" | #;
            identifier3 -> \"c_terminal\"| #;
") [(c% "start", c% "!"), (c% "identifier2", c% "ac"), (c% "identifier3", c% "a")] = true := by decide +kernel

/-- `test_follow_mengen3` (follow_sets.rs 249-322). -/
example : followAre hardRules [(c% "start", c% "!"), (c% "identifier3", c% "!"), (c% "list", c% "c!"), (c% "listt", c% "c!"),
    (c% "listelement", c% "c!gh"), (c% "liststart", c% "c!gh"), (c% "identifier2", c% "lc!gh")] = true := by decide +kernel

/-- `test_follow_list` (follow_sets.rs 324-372). -/
example : followAre (c% "start      -> list;\
            list -> l_element list_s ;\
            list_s -> l_element list_s| #;\
            l_element -> \"a\";\
") [(c% "start", c% "!"), (c% "list", c% "!"), (c% "list_s", c% "!"), (c% "l_element", c% "a!")] = true := by decide +kernel

/-! ### steuer_sets.rs -/

/-- `test_steuer_sets` (steuer_sets.rs 43-85). -/
example : steuerAre (c% "start      -> identifier1
            identifier2;\
            identifier1 -> \"a_terminal\"| #;
            identifier2 -> \"b_terminal\"| #;
") [(c% "start", c% "!ab"), (c% "identifier1", c% "ab!"), (c% "identifier2", c% "b!")] = true := by decide +kernel

/-- `test_steuer_sets_list` (steuer_sets.rs 87-129). -/
example : steuerAre (c% "start      -> list ;\
            list -> element list_s ;\
            list_s -> element list_s| #;\
            element -> \"a\";\
") [(c% "list", c% "a"), (c% "list_s", c% "a!"), (c% "element", c% "a")] = true := by decide +kernel

/-- `test_steuer_sets_optional_list` (steuer_sets.rs 131-182). -/
example : steuerAre (c% "start      -> optional_list \"ende\";\
            optional_list-> list|#;
            list -> element list_s ;\
            list_s -> element list_s| #;\
            element -> \"a\";\
") [(c% "list", c% "a"), (c% "list_s", c% "ae"), (c% "element", c% "a"), (c% "optional_list", c% "ae")] = true := by decide +kernel

/-- `test_more_whitespace_shenanigans` (steuer_sets.rs 184-273) cannot pass: the pinned `parse_rules` rejects the `$IGNORE:`
directive (C42), so its `unwrap` panics. -/
example : bothOrders (rejected (c% "$IGNORE: whitespaces;\
start -> terms;\
\
terms -> term terms_s;\
terms_s -> term terms_s | #;\
\
\
term -> add|sub|number|print;\
\
print -> \"print\";\
add -> \"+\";\
sub -> \"-\";\
\
number-> digit number_s;\
number_s -> number_s_ | #;\
number_s_ ->digit number_s;\
digit -> \"0\"|\"1\"|\"2\"|\"3\"|\"4\"|\"5\"|\"6\"|\"7\"|\"8\"|\"9\";\
\
whitespaces -> whitespace whitespaces_s;\
whitespaces_s -> whitespace whitespaces_s| #;\
whitespace -> \" \";")) = true := by decide +kernel

/-! ### steuer_map.rs -/

/-- `test_1` (steuer_map.rs 172-193). -/
example : bothOrders (fun ho => withRules (c% "start -> a|b;\
a -> \"astring\";\
b -> \"bstring\";\
") ho fun pd => steuermapsOk pd ho) = true := by decide +kernel

/-- `test_two_with_same_first` (steuer_map.rs 195-216). -/
example : bothOrders (fun ho => withRules (c% "start -> a a_a;\
a -> \"a\";\
a_a -> \"a\";\
") ho fun pd => steuermapsOk pd ho) = true := by decide +kernel

/-- `test_steuer_map_list` (steuer_map.rs 218-239). -/
example : bothOrders (fun ho => withRules (c% "start      -> list ;\
            list -> element list_s ;\
            list_s -> element list_s| #;\
            element -> \"a\";\
") ho fun pd => steuermapsOk pd ho) = true := by decide +kernel

/-- `test_more_whitespace_shenanigans` and `test_more_whitespace_shenanigans3` (steuer_map.rs 241-304) cannot pass: they never
call `parse_rules`, so the parser data are the new ones, and `get_element_nt_index("start").unwrap()` panics. -/
example : (ParserData.new : ParserData Nat).getElementNtIndex (c% "start") = none := by decide +kernel

end HPP.RepoTests

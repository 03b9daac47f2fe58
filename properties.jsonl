{"id": "C01", "title": "Position equals characters consumed", "statement": "After any sequence of peek / next / next_if / next_if_eq calls on a ParseProcess (at any nesting depth), cur_pos() has grown by exactly the number of characters that were returned, and the returned characters followed by the unread text are the original text: nothing is lost, duplicated or reordered.", "quantifier": "all source texts, all stop/escape settings, all nesting depths, all finite call sequences", "why_tests_cant": "The call sequences, nestings and texts are unbounded; tests sample a few.", "anchors": ["src/peekables.rs: ParseProcess::{new,new_nested,cur_pos,next,peek,next_if,next_if_eq,check_allowed}"]}
{"id": "C02", "title": "peek predicts next on a process without stop character", "statement": "On a ParseProcess created without a stop or escape character, peek never changes what is read later and always returns exactly the character the following next returns.", "quantifier": "all texts, all positions", "why_tests_cant": "Must hold at every point of every text.", "anchors": ["src/peekables.rs: ParseProcess::{peek,next}"]}
{"id": "C03", "title": "A brace section ends at the first unescaped stop character", "statement": "Reading a nested ParseProcess with next until it returns None yields exactly the text up to the first stop character that is not immediately preceded by the escape character (or to the end of the text), and leaves the outer process standing on that stop character. This needs a stop and an escape character that differ (as '}' and backslash do in the code); if they are equal, or one of them is missing, nothing ends the section.", "quantifier": "all texts, all settings of stop and escape character", "why_tests_cant": "Arbitrary texts with arbitrary runs of escapes.", "anchors": ["src/peekables.rs: ParseProcess::{new_nested,next,check_allowed}", "src/rule_parsing.rs: parse_instruction_section"]}
{"id": "C04", "title": "peek and next agree inside a brace section", "statement": "Inside a nested ParseProcess with a stop and an escape character, peek returns the character that the following next returns, also for an escaped stop character.", "quantifier": "all texts and reading histories", "why_tests_cant": "Depends on every interleaving of peeks and reads.", "anchors": ["src/peekables.rs: ParseProcess::{peek,next,check_allowed}"]}
{"id": "C05", "title": "Decimal integers are read exactly or rejected", "statement": "parse_usize / parse_isize read the maximal run of ASCII digits (with an optional leading '-' for isize), return exactly the denoted integer if it fits 64 bits and an error otherwise, never a wrong number, and leave the first non-digit unread; every representable integer written in decimal is read back unchanged.", "quantifier": "all texts; all 64-bit unsigned / signed values", "why_tests_cant": "2^64 values and unbounded digit strings.", "anchors": ["src/parse_funcs.rs: parse_digits, parse_required_digits, parse_usize, parse_isize"]}
{"id": "C06", "title": "Lexical helpers are maximal-munch and fail without consuming", "statement": "parse_whitespace removes exactly the maximal whitespace prefix; parse_var_name reads exactly the maximal identifier (letter, then letters/digits/_); parse_symbol consumes exactly the requested character; parse_var_name and parse_symbol consume nothing when they fail and report the offending character with its position.", "quantifier": "all texts and positions, all Unicode letter classifications", "why_tests_cant": "Arbitrary text.", "anchors": ["src/parse_funcs.rs: parse_whitespace, parse_symbol, parse_var_name"]}
{"id": "C07", "title": "Quoted terminals are taken verbatim", "statement": "Parsing a quoted terminal returns exactly the characters between the opening quote and the first quote not preceded by an active backslash (backslashes are kept), consumes the closing quote and nothing more, and fails with an end-of-text error at the end position when there is no closing quote.", "quantifier": "all texts", "why_tests_cant": "Arbitrary text with arbitrary escapes.", "anchors": ["src/rule_parsing.rs: parse_terminal"]}
{"id": "C08", "title": "Element interning is a bijection", "statement": "After any sequence of ParserData construction calls: asking for the same (name, kind) always yields the same index, different (name, kind) pairs have different indices, a terminal and a non-terminal of the same name are distinct, indices are dense and stable, and looking an index up returns the (name, kind) it was issued for.", "quantifier": "all finite histories of construction calls", "why_tests_cant": "Histories are unbounded.", "anchors": ["src/parser_data.rs: ParserData::{get_or_add_element_key,get_or_add_non_terminal,get_or_add_terminal,get_element,get_element_verbose,get_elements_verbose,get_element_index,get_element_nt_index,get_element_t_index}"]}
{"id": "C09", "title": "Programmatic rules behave like a map of production lists", "statement": "After any history of add_production / set_productions / add_instructions, the productions of a non-terminal are those of its last set_productions followed by all later add_production calls in call order (an empty term list means the empty production), and its instructions are those of the last add_instructions; calls for one index never affect another.", "quantifier": "all finite histories of calls", "why_tests_cant": "Histories are unbounded.", "anchors": ["src/parser_data.rs: ParserData::{add_production,set_productions,add_instructions,get_rule_by_key,get_rule_by_element,get_rule_by_element_verbose}"]}
{"id": "C10", "title": "FIRST sets are exactly the textbook FIRST sets", "statement": "Whenever get_first_sets returns Ok, the set of every rule contains a character c exactly when some sentential form starting with c is derivable from the non-terminal, contains Empty exactly when the empty text is derivable, and never contains Terminate; there is one set for every rule and none for anything else.", "quantifier": "all grammars (recursive, nullable, unreachable, unproductive), all hash iteration orders", "why_tests_cant": "Infinitely many grammars; correctness depends on recursion and memoisation order.", "anchors": ["src/first_sets.rs: get_first_sets, get_set_first_set_of_element, get_first_set_of_element, get_first_set_of_production"]}
{"id": "C11", "title": "FIRST of a sequence", "statement": "first_set_of_partial of a sequence of elements contains c exactly when the sequence derives a form starting with c, and Empty exactly when the sequence is non-empty and derives the empty text.", "quantifier": "all grammars and all element sequences", "why_tests_cant": "Unbounded sequences.", "anchors": ["src/first_sets.rs: first_set_of_partial"]}
{"id": "C12", "title": "FIRST computation terminates exactly on non-left-recursive grammars", "statement": "If every used non-terminal has a rule, get_first_sets terminates with Ok if and only if no non-terminal derives, in one or more steps, a form beginning with itself; on a left-recursive grammar it never returns Ok.", "quantifier": "all grammars, all hash orders", "why_tests_cant": "Non-termination cannot be observed by a test, and the grammar space is infinite.", "anchors": ["src/first_sets.rs: get_first_sets, get_set_first_set_of_element", "src/script_parser.rs: TODO line 24"]}
{"id": "C13", "title": "FOLLOW sets are exactly the textbook FOLLOW sets", "statement": "Whenever get_follow_sets returns Ok (given the FIRST sets), c is in the FOLLOW set of A exactly when some non-terminal that has a rule derives a form in which A is immediately followed by c, and Terminate is in it exactly when the start symbol derives a form ending in A.", "quantifier": "all grammars, all start symbols, all hash orders", "why_tests_cant": "Infinite grammar space and cyclic propagation.", "anchors": ["src/follow_sets.rs: get_follow_sets, graph_marking_for_rightside_elements, make_follow_sets_from_marked_graph"]}
{"id": "C14", "title": "FOLLOW propagation always terminates", "statement": "get_follow_sets returns (Ok or Err) for every grammar, including grammars with cyclic follow dependencies.", "quantifier": "all grammars, all hash orders", "why_tests_cant": "Termination over an infinite space of cyclic graphs.", "anchors": ["src/follow_sets.rs: make_follow_sets_from_marked_graph"]}
{"id": "C15", "title": "Steuer sets", "statement": "get_steuer_sets gives each non-terminal its FIRST characters plus, exactly when it can derive the empty text, its FOLLOW set; it fails only if a nullable non-terminal has no FOLLOW set.", "quantifier": "all FIRST/FOLLOW tables", "why_tests_cant": "All tables.", "anchors": ["src/steuer_sets.rs: get_steuer_sets"]}
{"id": "C16", "title": "Conflict detection is exact", "statement": "Given complete FIRST/FOLLOW tables, building the steuer maps succeeds if and only if, for every non-terminal, the control sets of its alternatives are pairwise disjoint, where the control set of an alternative is: the first character of a leading terminal, the steuer set of a leading non-terminal, FOLLOW for the empty alternative; the resulting map sends a lookahead to exactly the alternative whose control set contains it.", "quantifier": "all grammars, all tables, all hash orders", "why_tests_cant": "Pairs of alternatives over infinitely many grammars.", "anchors": ["src/steuer_map.rs: get_steuermaps, steuermap_of_production, fill_with_steuer_set"]}
{"id": "C17", "title": "Undefined non-terminals are always rejected at construction", "statement": "If any alternative of any rule mentions a non-terminal that has no rule, or the start symbol has no rule, no Parser is constructed.", "quantifier": "all grammars, all hash orders", "why_tests_cant": "Position of the undefined symbol and hash order vary without bound.", "anchors": ["src/script_parser.rs: Parser::new_from_parser_data", "src/follow_sets.rs: graph_marking_for_rightside_elements", "src/first_sets.rs"]}
{"id": "C18", "title": "Construction does not depend on hash order", "statement": "Two runs of parser construction on the same grammar, with whatever HashMap/HashSet iteration orders, either both succeed with parsers that accept the same scripts with the same trees and the same VM effects, or both fail.", "quantifier": "all grammars, all pairs of iteration orders", "why_tests_cant": "RandomState seeds differ on every run; a test sees one order.", "anchors": ["src/first_sets.rs", "src/follow_sets.rs", "src/steuer_sets.rs", "src/steuer_map.rs", "src/script_parser.rs: Parser::new_from_parser_data"]}
{"id": "C19", "title": "Ambiguous grammars are rejected", "statement": "If a Parser is constructed, no text has two different parse trees for the start symbol or for any non-terminal that something (a character or the end of the script) can follow. (A non-terminal that nothing can follow may be ambiguous: it is never expanded by a parse.)", "quantifier": "all grammars, all texts", "why_tests_cant": "Ambiguity is undecidable in general; over all texts.", "anchors": ["src/script_parser.rs: Parser::new_from_parser_data", "src/steuer_map.rs: fill_with_steuer_set"]}
{"id": "C20", "title": "LL(1) grammars are accepted", "statement": "Every grammar that is LL(1) in the textbook sense (and has no left recursion, no undefined symbols, no empty terminal) yields a Parser.", "quantifier": "all grammars", "why_tests_cant": "Infinite grammar space.", "anchors": ["src/steuer_map.rs: steuermap_of_production", "src/steuer_sets.rs: get_steuer_sets"]}
{"id": "C21", "title": "Soundness of parse", "statement": "If parse returns Ok, the part of the script it consumed is derivable from the start symbol of the grammar.", "quantifier": "all constructed parsers, all scripts, all VMs that leave the tree alone", "why_tests_cant": "All grammars times all scripts.", "anchors": ["src/script_parser.rs: Parser::{parse,parse_production,parse_terminal,get_fitting_production}"]}
{"id": "C22", "title": "Completeness of parse", "statement": "Every script in the language of the grammar is accepted: parse returns Ok and consumes the whole script.", "quantifier": "all constructed parsers, all scripts of the language", "why_tests_cant": "All grammars times all scripts; relies on FIRST, FOLLOW and the steuer maps together.", "anchors": ["src/script_parser.rs: Parser::{new_from_parser_data,parse,parse_production}"]}
{"id": "C23", "title": "A successful parse consumes the whole script", "statement": "If parse returns Ok, the whole script is in the language of the grammar (no unread trailing text).", "quantifier": "all constructed parsers, all scripts", "why_tests_cant": "All scripts with arbitrary trailing text.", "anchors": ["src/script_parser.rs: Parser::parse"]}
{"id": "C24", "title": "parse terminates on every script", "statement": "For every constructed parser and every script, parse returns (Ok or Err).", "quantifier": "all constructed parsers, all scripts", "why_tests_cant": "Non-termination cannot be tested.", "anchors": ["src/script_parser.rs: Parser::parse_production"]}
{"id": "C25", "title": "The returned tree is the derivation tree", "statement": "On Ok the returned tree has root NodeId(0,0); each non-terminal node has empty data and one child per element of the chosen alternative in order; each terminal child carries the terminal text; the leaf texts concatenated in order are the consumed script text.", "quantifier": "all constructed parsers, all scripts", "why_tests_cant": "All shapes of trees.", "anchors": ["src/script_parser.rs: Parser::parse_production", "src/tree.rs: Tree::{add_node,get_children,get_node}"]}
{"id": "C26", "title": "Instructions run once per finished node, in post-order", "statement": "The VM executes the instructions of a rule exactly once for each parsed occurrence of its non-terminal, in rule order, after all instructions of its children and before those of later siblings, with the id of that occurrence's tree node.", "quantifier": "all constructed parsers, all scripts, all VMs that leave the tree alone", "why_tests_cant": "All execution histories.", "anchors": ["src/script_parser.rs: Parser::{parse_production,run_instructions}"]}
{"id": "C27", "title": "Error positions are exact", "statement": "When parse fails with UnexpectedCharError{chr,pos}, chr is the script's character number pos (or '#' with pos = length at the end of the script); when it fails with EndOfCharsError{pos}, pos is the script length.", "quantifier": "all parsers, all scripts", "why_tests_cant": "All failing scripts.", "anchors": ["src/script_parser.rs: Parser::{get_fitting_production,parse_terminal}", "src/errors.rs: ParserError"]}
{"id": "C28", "title": "Viable prefix property", "statement": "Whether parse succeeds or fails, the text consumed so far is the beginning of a form derivable from the start symbol; a failing parse never reads past the first character that cannot continue such a form.", "quantifier": "all constructed parsers, all scripts", "why_tests_cant": "All failing scripts.", "anchors": ["src/script_parser.rs: Parser::parse_production"]}
{"id": "C29", "title": "Only syntax errors after construction", "statement": "For a constructed parser, parse never panics and never returns a grammar, tree, internal or 'impossible' error: only UnexpectedCharError or EndOfCharsError.", "quantifier": "all constructed parsers, all scripts, all VMs that neither panic nor edit the tree", "why_tests_cant": "All scripts.", "anchors": ["src/script_parser.rs: Parser::{parse,parse_production}"]}
{"id": "C30", "title": "The start index given at construction is the start symbol", "statement": "A parser built with new_from_parser_data(data, start_idx, vm) parses scripts from the non-terminal start_idx.", "quantifier": "all grammars, all start indices", "why_tests_cant": "All grammars.", "anchors": ["src/script_parser.rs: Parser::{new_from_parser_data,parse}"]}
{"id": "C31", "title": "The expected list of an unexpected-character error is exact", "statement": "When no alternative fits, the expected text of the error lists exactly the lookaheads for which some alternative of the current non-terminal would have been chosen.", "quantifier": "all parsers, scripts, hash orders", "why_tests_cant": "All scripts and orders.", "anchors": ["src/script_parser.rs: Parser::get_fitting_production"]}
{"id": "C32", "title": "Tree arena refines an ordered forest (no removals)", "statement": "After any history of add_node calls: every returned id resolves to the data it was created with; get_children lists exactly the nodes added under it in insertion order; get_descendants lists every proper descendant exactly once; get_nth_child / get_by_path_or_none select by position; adding under an unknown id fails and changes no existing node.", "quantifier": "all finite add_node histories", "why_tests_cant": "Unbounded histories.", "anchors": ["src/tree.rs: Tree::{new,add_node,get_node,get_children,get_descendants,get_nth_child,get_nth_child_or_none,get_by_path_or_none,node_exists}"]}
{"id": "C33", "title": "Node ids never alias", "statement": "For any history of add_node and remove_branch calls, an id never resolves (get_node, get_node_mut) to a node other than the one it was issued for.", "quantifier": "all finite add/remove histories", "why_tests_cant": "Unbounded histories with slot reuse.", "anchors": ["src/tree.rs: Tree::{add_node,remove_branch,get_node,get_node_mut}"]}
{"id": "C34", "title": "Removed nodes are gone", "statement": "After remove_branch(id) succeeds, get_node fails for id and for all its descendants, and the parent's children are the previous ones without id.", "quantifier": "all add/remove histories", "why_tests_cant": "Unbounded histories.", "anchors": ["src/tree.rs: Tree::{remove_branch,get_node,get_children}"]}
{"id": "C35", "title": "Removal does not damage other nodes", "statement": "After any history of add_node and remove_branch, every node that was added and neither it nor an ancestor removed is still retrievable, and children can be added to it.", "quantifier": "all add/remove histories", "why_tests_cant": "Unbounded histories with slot reuse.", "anchors": ["src/tree.rs: Tree::{remove_branch,add_node,free_node_indexes}"]}
{"id": "C36", "title": "The graph is a map from (node, edge id) to target", "statement": "After any history of add_node / add_edge / try_add_edge_with_id: find_node_index(n, id) returns the target of the edge inserted at (n, id) and None if there is none; try_add_edge_with_id returns false and changes nothing exactly when (n, id) is taken; add_edge uses the id one above the largest id used at n (0 if none); successors lists exactly the targets in decreasing id order.", "quantifier": "all finite histories", "why_tests_cant": "Unbounded histories; linked-list order invariants.", "anchors": ["src/simple_graph.rs: Graph::{add_node,add_edge,try_add_edge_with_id,find_node_index,successors,connected_edges}"]}
{"id": "C37", "title": "Path lookup is iterated edge lookup", "statement": "find_node_index_by_path(n, ids) is the node reached by following the edge ids one after the other, None as soon as one is missing, and the start for the empty path.", "quantifier": "all graphs reachable by the API, all paths", "why_tests_cant": "Unbounded paths.", "anchors": ["src/simple_graph.rs: Graph::{find_node_index_by_path,find_node,find_node_by_path}"]}
{"id": "C38", "title": "Merging graphs preserves both", "statement": "add_graph_at_node(g, this, other) keeps every edge lookup of the host, adds every lookup of g with node indices shifted by the host's node count, adds exactly one new edge this -> other+offset, and keeps all node data.", "quantifier": "all pairs of API-built graphs", "why_tests_cant": "Unbounded graphs.", "anchors": ["src/simple_graph.rs: Graph::add_graph_at_node"]}
{"id": "C39", "title": "Named graph: names are unique and edges connect named nodes", "statement": "In any history of the named graph, add_node fails exactly for a name already present and then changes nothing, add_edge fails exactly when an end point has no name, get_node(name) returns the data stored under that name.", "quantifier": "all finite histories", "why_tests_cant": "Unbounded histories.", "anchors": ["src/named_graph.rs: GraphNamedNodes::{add_node,add_edge,get_node,get_node_mut,successors,successor_indices,get_node_by_index}"]}
{"id": "C40", "title": "Every well-formed rule text is accepted with its meaning", "statement": "Every text that follows the documented rule syntax (rules, alternatives, quoted terminals, '#', $[IGNORE:..] overrides, { } sections, free whitespace between tokens) is accepted and yields exactly the elements, productions, instructions and ignore overrides it denotes.", "quantifier": "all rule texts of the concrete syntax, all layouts, all VMs that consume their section", "why_tests_cant": "Infinite set of texts.", "anchors": ["src/rule_parsing.rs: RuleParser::{parse_rules,parse_rule,parse_possible_productions,parse_production,parse_element,parse_overrides,parse_instruction_section}"]}
{"id": "C41", "title": "Only well-formed rule text is accepted", "statement": "If parsing a rule text succeeds, the text follows the rule syntax (so malformed text is never silently accepted).", "quantifier": "all texts", "why_tests_cant": "All malformed texts.", "anchors": ["src/rule_parsing.rs: RuleParser::parse_rules"]}
{"id": "C42", "title": "The $IGNORE directive works", "statement": "A rule text may contain the documented directive '$IGNORE: name;', which makes the named production the default ignore of the following rules.", "quantifier": "all rule texts with a directive", "why_tests_cant": "All texts.", "anchors": ["readme.md: Special Directives", "src/rule_parsing.rs: RuleParser::{parse_rules,parse_rule}", "src/parser_data.rs: ParseRules::ignore"]}
{"id": "C43", "title": "Ignore weaving inserts the ignore element exactly between neighbours", "statement": "For a rule with an ignore override that is not itself part of the ignore production, every alternative x1 x2 .. xn becomes x1 i x2 i .. i xn (n elements and n-1 ignores, the empty alternative stays empty); rules that the ignore production uses (directly or indirectly) are left unchanged and lose their override.", "quantifier": "all rule sets", "why_tests_cant": "All alternatives and all rule sets.", "anchors": ["src/rule_parsing.rs: RuleParser::{edit_rules,weave_in_ignorers,weave_in_ignorers_single_production}"]}
{"id": "C44", "title": "The derivative check is reachability and terminates", "statement": "check_is_derivative(left,right) terminates on every (also cyclic) rule set and, when all reachable symbols have rules, answers true exactly when right is left or is used directly or indirectly by left's productions.", "quantifier": "all rule sets including cyclic ones", "why_tests_cant": "Cyclic graphs of any size.", "anchors": ["src/rule_parsing.rs: check_is_derivative, _check_is_derivative"]}
{"id": "C45", "title": "Repeated rules merge", "statement": "If a rule name is defined several times in a text, its productions are all the alternatives in text order; the instructions and the ignore override are those of the first definition.", "quantifier": "all rule texts", "why_tests_cant": "Any number and order of repetitions.", "anchors": ["src/rule_parsing.rs: RuleParser::merge_rule"]}
{"id": "C46", "title": "Rule parsing terminates on every text", "statement": "parse_rules returns (Ok or Err) for every text and every VM that only reads its section.", "quantifier": "all texts", "why_tests_cant": "Non-termination cannot be tested.", "anchors": ["src/rule_parsing.rs: RuleParser::parse_rules"]}
{"id": "C47", "title": "Escaped quotes denote quotes", "statement": "A terminal written with \\\" in a rule text matches a plain quote in a script.", "quantifier": "all rule texts", "why_tests_cant": "All texts.", "anchors": ["src/rule_parsing.rs: parse_terminal", "src/script_parser.rs: Parser::parse_terminal"]}
{"id": "C48", "title": "The VM sees exactly its section", "statement": "For every rule with a { } section the VM's parse_instructions is called once with the rule's name and a process whose text is the section up to the closing unescaped brace, without leading whitespace.", "quantifier": "all rule texts", "why_tests_cant": "All section texts.", "anchors": ["src/rule_parsing.rs: RuleParser::parse_instruction_section"]}
{"id": "C49", "title": "StackVm instruction text round-trips", "statement": "Every list of StackVm instructions with constants in range, written as 'Name;' or 'Name const;', is parsed back to the same list.", "quantifier": "all instruction lists", "why_tests_cant": "Infinite set of programs.", "anchors": ["src/vms/stack_vm.rs: StackVm::parse_instructions"]}
{"id": "C50", "title": "StackVm rejects what it does not understand", "statement": "An unknown instruction name, or a constant that does not fit, makes StackVm::parse_instructions fail.", "quantifier": "all section texts", "why_tests_cant": "All typos.", "anchors": ["src/vms/stack_vm.rs: StackVm::parse_instructions"]}
{"id": "C51", "title": "Stack underflow is reported and harmless", "statement": "An instruction that needs an operand on an empty stack sets the error code to 1 and changes nothing else; the error code is never reset by any instruction.", "quantifier": "all VM states, all instruction sequences", "why_tests_cant": "All execution histories.", "anchors": ["src/vms/simple_stack_vm.rs: execute_instruction", "src/vms/stack_vm.rs: execute_instruction"]}
{"id": "C52", "title": "Numbers are evaluated in decimal", "statement": "Running the number rule of the example grammars on any digit string pushes exactly its decimal value and nothing else, provided it fits the machine word.", "quantifier": "all digit strings, any previous stack", "why_tests_cant": "Unbounded digit strings.", "anchors": ["examples/simple_stack_based_math.txt", "examples/stack_based_math.txt", "src/vms/simple_stack_vm.rs", "src/vms/stack_vm.rs"]}
{"id": "C53", "title": "The calculator examples compute reverse Polish notation", "statement": "For every script of numbers, +, - and print separated by single blanks, the example parser leaves exactly the stack and prints exactly the values of reverse-Polish evaluation, as long as no intermediate value leaves the machine word and operands are present.", "quantifier": "all scripts of the example language", "why_tests_cant": "Infinite set of scripts.", "anchors": ["examples/simple_stack_based_math.txt", "examples/stack_based_math.txt", "examples/rust_defined_rules.rs", "src/script_parser.rs", "src/vms/simple_stack_vm.rs", "src/vms/stack_vm.rs"]}
{"id": "C54", "title": "CountingVm counts", "statement": "With CountingVm, a successful parse increases the state by exactly the number of parsed occurrences of rules that have an instruction section.", "quantifier": "all grammars, scripts, initial counts", "why_tests_cant": "All scripts.", "anchors": ["src/vms/counting_vm.rs", "src/script_parser.rs: Parser::run_instructions"]}
{"id": "C55", "title": "NullVm has no effect", "statement": "With NullVm the state is never changed and whether parse succeeds does not depend on it.", "quantifier": "all grammars, scripts, states", "why_tests_cant": "All scripts.", "anchors": ["src/vms.rs: NullVm"]}
{"id": "C56", "title": "Subtraction below zero is handled", "statement": "A calculator script whose intermediate result is negative does not crash the host program.", "quantifier": "all scripts, both stack VMs", "why_tests_cant": "All scripts.", "anchors": ["src/vms/simple_stack_vm.rs: Instruction::Sub", "src/vms/stack_vm.rs: Instruction::Sub"]}
{"id": "C57", "title": "Data built through the interface is well-formed", "statement": "Every ParserData built by any history of get_or_add_terminal / get_or_add_non_terminal / add_production / set_productions / add_instructions calls that only use indices issued before satisfies the consistency conditions the parser construction relies on (rules belong to non-terminals, elements exist, the empty production is stored as such), and the index of a requested 'start' is the only start symbol.", "quantifier": "all histories of construction calls using issued indices", "why_tests_cant": "it is an invariant over all call histories", "anchors": ["src/parser_data.rs: ParserData"]}
{"id": "C58", "title": "Errors of rule parsing point to their cause", "statement": "If parsing a rule text fails, the error names the offending character and its position in the text, or the end of the text, or a misplaced element inside the text; or it is the error the VM reported for a section; or it reports an undefined name used by an ignore production in a text that is otherwise well-formed.", "quantifier": "all rule texts, all VMs that only read their section, all hash orders", "why_tests_cant": "Positions must be right for every malformed text of any length, also inside nested sections.", "anchors": ["src/rule_parsing.rs: RuleParser::parse_rules", "src/parse_funcs.rs", "src/errors.rs: ParserError"]}
{"id": "C59", "title": "A parser built from a text accepts what the text says", "statement": "A parser built with Parser::new_from_text accepts, reading everything, every script that the written rules spell (names replaced by alternatives, ignore elements allowed between neighbours where an override says so), and whatever it accepts begins with such a script; such a parser exists exactly if the text is well-formed, mentions start and its grammar is LL(1)-acceptable.", "quantifier": "all rule texts, scripts, VM states, hash orders, VMs that do not edit the tree", "why_tests_cant": "Ranges over all grammars and all scripts at once.", "anchors": ["src/script_parser.rs: Parser::new_from_text, Parser::parse", "src/rule_parsing.rs"]}
{"id": "C60", "title": "Only the machine can make a parse panic", "statement": "Parser::parse of a script of the language returns Ok unless one of the instructions of the script's own rules panics when executed; with any VM whose instructions do not panic, parse never panics on any text.", "quantifier": "all parsers built, all scripts of the language, all texts, all VM states, all hash orders, VMs that do not edit the tree", "why_tests_cant": "Absence of panics over all grammars, scripts and machine states.", "anchors": ["src/script_parser.rs: Parser::parse, parse_production, run_instructions", "src/vms.rs: VM"]}
{"id": "C61", "title": "Conditional reads agree with unconditional reads", "statement": "On a parse process nested to any depth, next_if(f) returns the character next() would return, with the same effect, if that character satisfies f, and otherwise returns nothing; next_if_eq(c) is next_if(== c); peek_mut() exposes the next character of the underlying text.", "quantifier": "all texts, all nestings of processes, all stop and escape characters, all predicates", "why_tests_cant": "Ranges over every predicate, text and nesting depth.", "anchors": ["src/peekables.rs: TPeekable, ParseProcess::next_if, next_if_eq, peek_mut, PeekableWrapper"]}
{"id": "C62", "title": "One character of lookahead", "statement": "A parse depends only on the characters it consumes and the first unread one: if Parser::parse stops leaving x followed by more text unread, replacing the text after x changes neither the result, nor the tree, nor the VM state, nor the position.", "quantifier": "all parsers, scripts, VMs, VM states, hash orders and call depths", "why_tests_cant": "Quantifies over all continuations of all scripts.", "anchors": ["src/script_parser.rs: Parser::parse, parse_production, get_fitting_production", "src/peekables.rs: ParseProcess::peek"]}
{"id": "C63", "title": "Names, numbers and order do not matter", "statement": "Two grammars that differ only in the numbering of elements, the names of non-terminals (other than start) and the order in which rules and alternatives are listed are both accepted or both refused, and the parsers built from them give on every script the same result, tree, VM effects and unread text.", "quantifier": "all grammars, all renumberings and reorderings, all scripts, VMs, hash orders", "why_tests_cant": "Ranges over all pairs of equivalent grammars and all scripts.", "anchors": ["src/parser_data.rs: ParserData", "src/script_parser.rs: Parser::new_from_parser_data, Parser::parse", "src/steuer_map.rs"]}
{"id": "C64", "title": "All lookups of grammar data agree", "statement": "After any history of calls building a ParserData, every lookup tells the same story: get_element, get_element_data, get_elements_verbose (which never panics) and the indices by name all agree with get_element_verbose, and the rule of an element is the same by index, by element and by name; no ignore production or kept data appears.", "quantifier": "all finite sequences of public construction calls, all indices and names", "why_tests_cant": "Ranges over all call histories.", "anchors": ["src/parser_data.rs: ParserData::get_element, get_element_data, get_element_verbose, get_elements_verbose, get_rule_by_element, get_rule_by_element_verbose, get_rule_by_key"]}
{"id": "C65", "title": "Machine arithmetic against unlimited numbers", "statement": "A release build of StackVm or SimpleStackVm behaves on every text like the same machine with numbers of unlimited size, every number being reduced modulo 2^64 (outcome, tree, unread text and error register being equal). With overflow checks SimpleStackVm panics exactly when a computed number leaves the unsigned range and is exact otherwise; StackVm with overflow checks and without Pow panics exactly when a sum or difference leaves the signed range and is exact otherwise, and with Pow panics or is right modulo 2^64. The constants of parsers made from rule texts are always in range.", "quantifier": "all parsers with 64-bit constants, all texts, start states, hash orders and call depths", "why_tests_cant": "Ranges over all programs of the machine, texts and states.", "anchors": ["src/vms/stack_vm.rs: execute_instruction", "src/vms/simple_stack_vm.rs: execute_instruction", "src/script_parser.rs: Parser::parse"]}
{"id": "C66", "title": "Release builds never panic while parsing", "statement": "Parsing with StackVm or SimpleStackVm in a build without overflow checks never panics, for every accepted grammar or rule text, every script and every start state, and the only errors are an unexpected character or the end of the text.", "quantifier": "all accepted grammars and rule texts, scripts, states, hash orders and call depths", "why_tests_cant": "Ranges over all grammars, instruction sections and scripts.", "anchors": ["src/vms/stack_vm.rs: execute_instruction", "src/vms/simple_stack_vm.rs: execute_instruction", "src/script_parser.rs: Parser::parse", "src/tree.rs: Tree::get_by_path_or_none"]}
{"id": "C67", "title": "Recursion depth", "statement": "Computing FIRST sets of a complete grammar without left recursion never recurses deeper than the number of rules plus one, and parse never recurses deeper than (script length + 1) times the number of rules plus one. On a script of the language the depth parse needs is exactly the height of its parse tree, so no fixed depth suffices for all scripts: n nested brackets need depth n+1.", "quantifier": "all accepted grammars, scripts, VMs, hash orders and depths", "why_tests_cant": "A bound on recursion ranges over all grammars and unboundedly long scripts.", "anchors": ["src/first_sets.rs: get_first_sets", "src/script_parser.rs: Parser::parse, parse_production"]}
{"id": "C68", "title": "Exactly which scripts are accepted", "statement": "parse returns Ok leaving a given rest unread exactly if predictive top-down reading (always expanding the leftmost non-terminal by the alternative whose control set contains the next character or the end) of the start symbol leaves that rest; tree and rest are determined by the script, every other script gets a syntax error, and text is left unread only if no sentence begins with the consumed part and the next character.", "quantifier": "all accepted grammars, all scripts including ones with trailing text, VMs that keep the tree and do not panic, hash orders, call depths", "why_tests_cant": "Ranges over all grammars and scripts; an equivalence.", "anchors": ["src/script_parser.rs: Parser::parse, parse_production, get_fitting_production, parse_terminal"]}
{"id": "C69", "title": "The command-line program", "statement": "henriks-parsing-project <rules> <script> exits normally exactly if both files can be read, parse_rules accepts the first, the grammar is acceptable from start and the script can be read top-down from start; then the script begins with a text spelled by the rules, and a script wholly spelled by the rules is always accepted. In every other case it panics or exhausts the stack; with fewer than two arguments or unreadable files it panics; further arguments do not matter.", "quantifier": "all argument lists, file contents, hash orders, call depths", "why_tests_cant": "Ranges over all pairs of files.", "anchors": ["src/main.rs: main", "src/script_parser.rs: Parser::new_from_text, Parser::parse", "src/vms.rs: NullVm"]}
{"id": "C70", "title": "Error messages tell the error", "statement": "The text of a syntax error determines the error (kind, character, position in decimal, expected text); the list of expected lookaheads can be read back from it even if ';' is expected; the message of a failed parse names the offending character and its position; the texts of grammar errors determine kind and index or position, those of tree errors, node ids and set members determine the value. Every message has the documented wording.", "quantifier": "all errors, all grammars and failing scripts", "why_tests_cant": "Injectivity over all errors and all numbers.", "anchors": ["src/errors.rs: fmt::Display for ParserError, GrammarError", "src/tree.rs: fmt::Display for TreeError, NodeId", "src/sets.rs: fmt::Display, Into<String>", "src/script_parser.rs: get_fitting_production"]}
{"id": "C71", "title": "Errors of grammar analysis name their cause", "statement": "On well-formed grammar data, every error of get_first_sets is MissingProduction of a non-terminal that is used and has no rule; every error of get_follow_sets says that the start symbol has no rule or names a used non-terminal without rule; every error of get_steuermaps is SteuerSetsNotDistinct naming a rule with two alternatives that would both be chosen on the lookahead it names, identifying the later one. None of the three panics except get_steuermaps for an alternative beginning with the empty terminal. Parser::new_from_parser_data returns (a parser or a panic) for every grammar without left recursion, and for complete left-recursive grammars never returns.", "quantifier": "all well-formed grammar data, start symbols and hash orders", "why_tests_cant": "every grammar with any mixture of mistakes, in every hash iteration order", "anchors": ["src/errors.rs GrammarError", "src/first_sets.rs get_first_sets", "src/follow_sets.rs get_follow_sets", "src/steuer_map.rs get_steuermaps, fill_with_steuer_set", "src/script_parser.rs Parser::new_from_parser_data"]}
{"id": "C72", "title": "Layout, order and names in a rule text do not matter", "statement": "Of two rule texts that say the same -- the white space differs, the rules are listed in another order (keeping the order among several definitions of one name), the alternatives of a rule are listed in another order, names other than start are replaced one-to-one -- either both give a parser or none does, and the two parsers behave alike on every script: same outcome (expected characters in an error up to order), same unread text, same final VM state.", "quantifier": "all pairs of equivalent rule texts, all VMs, scripts, VM states, hash orders and call depths", "why_tests_cant": "there are infinitely many texts and rearrangements, and infinitely many scripts to compare on", "anchors": ["src/rule_parsing.rs parse_rules, parse_rule, merge_rule, edit_rules", "src/script_parser.rs Parser::new, Parser::parse"]}
{"id": "C73", "title": "Calling parse_rules again changes nothing", "statement": "After parse_rules has succeeded on a RuleParser, further calls succeed, leave the text position and the elements as they are, and leave the grammar as it is. False of the code: the rewriting that inserts ignore elements is applied again on each call, so overridden rules gain further ignore elements, which can make a buildable grammar ambiguous.", "quantifier": "all rule texts, VMs that only read their section, hash orders and numbers of further calls", "why_tests_cant": "every text and every number of repeated calls", "anchors": ["src/rule_parsing.rs RuleParser::parse_rules, edit_rules"]}
{"id": "C74", "title": "A failed parse_rules loses nothing it read", "statement": "When parse_rules fails, the text before the first thing that is not a rule consists of rules and the RuleParser's data hold exactly these rules as written (no ignore element inserted); or the whole text was read and an ignore production uses an undefined name: then the data hold all rules as written and calling again fails again and changes nothing.", "quantifier": "all rule texts on which parse_rules fails, all VMs that only read their section, all hash orders", "why_tests_cant": "every place and kind of failure in every text, in every iteration order", "anchors": ["src/rule_parsing.rs RuleParser::parse_rules, edit_rules, parse_rule"]}
{"id": "C75", "title": "A rule text has one meaning only", "statement": "The rule text syntax is unambiguous: a text that can be read as a list of rules can be read as one list only, and a rule at the start of a text determines where it ends.", "quantifier": "all texts, all VMs' section syntaxes, all lists of rules", "why_tests_cant": "unambiguity is a statement about all pairs of readings of all texts", "anchors": ["src/rule_parsing.rs parse_rules, parse_rule, parse_production, parse_element", "src/vms/stack_vm.rs parse_instructions"]}
{"id": "C76", "title": "Every grammar built by calls can be written as a rule text", "statement": "For every grammar built through the programming interface (get_or_add_*, add_production, set_productions, add_instructions) whose names are names, whose terminals can stand in quotes and whose rules have at least one alternative, the plainest text of its rules is accepted by parse_rules as exactly these rules, gives a parser if and only if the grammar data do, and that parser behaves alike on every script. Conversely only such names and terminals ever come out of a rule text, and every rule has an alternative.", "quantifier": "all histories of builder calls, all VMs with a section text for their instructions (StackVm: all instruction lists), all scripts, VM states, hash orders", "why_tests_cant": "all grammars, and for each all scripts", "anchors": ["src/rule_parsing.rs parse_rules, parse_rule, parse_production, parse_element", "src/parser_data.rs get_or_add_element_key, add_production, set_productions, add_instructions", "src/script_parser.rs Parser::new, Parser::new_from_parser_data"]}
{"id": "C77", "title": "Reading a rule text into prepared grammar data, with a default ignore element", "statement": "If the public parser_data of a RuleParser is filled before parse_rules is called (elements requested, any rules, any default ignore element parse_rules.ignore), then a rule text is read into it: known elements keep their numbers and new ones follow in order of mention; alternatives are appended to rules that are there, which keep their instructions and ignore element; a new rule takes the instructions of its first definition and, as ignore element, the name given by $[IGNORE:name], none for $[IGNORE:#], and the default if it has no override or an unknown one. Then ignore elements are woven in; the call fails after reading only if an ignore element uses something without a rule. Whatever text is accepted follows the syntax; the call always returns.", "quantifier": "all prepared data in order (rules of non-terminals, mentioned elements exist), all defaults, all rule texts, VMs, hash orders", "why_tests_cant": "all texts and all prepared data", "anchors": ["src/rule_parsing.rs RuleParser.parser_data, parse_rules, parse_rule, parse_overrides, merge_rule, edit_rules", "src/parser_data.rs ParseRules.ignore"]}
{"id": "C78", "title": "Tree calls never panic", "statement": "After any history of add_node and remove_branch calls, with any ids (issued, removed, or from elsewhere), add_node, get_node, get_node_mut, get_nth_child, get_nth_child_or_none and get_by_path_or_none always return, remove_branch never panics, get_children and get_descendants panic exactly for ids whose slot was never handed out, and an id that was never issued is refused by every lookup.", "quantifier": "all add/remove histories in any order, all ids", "why_tests_cant": "Unbounded histories with slot reuse; an out-of-range index can hide behind any interleaving.", "anchors": ["src/tree.rs: Tree::{add_node,remove_branch,get_children,get_descendants,get_nth_child,get_by_path_or_none,node_exists}"]}
{"id": "C79", "title": "Tree traversals end", "statement": "After any history of add_node and remove_branch calls with ids that were issued and not removed, get_children, get_descendants and remove_branch come to an end.", "quantifier": "all add/remove histories", "why_tests_cant": "Non-termination on a cyclic sibling list arises only in particular interleavings.", "anchors": ["src/tree.rs: Tree::{get_children,get_descendants,remove_branch,free_node_indexes}"]}
{"id": "C80", "title": "A failed tree call changes nothing", "statement": "After any history of add_node and remove_branch calls, a remove_branch or add_node call that returns an error leaves the tree as it was: everything reads the same and no id that was refused before is accepted afterwards.", "quantifier": "all add/remove histories, all ids", "why_tests_cant": "The effect of an early return after a partial update shows only in particular histories.", "anchors": ["src/tree.rs: Tree::{add_node,remove_branch,free_node_indexes}"]}
{"id": "C81", "title": "Reading a rule text rule by rule", "statement": "After any sequence of parse_rules, parse_rule, parse_possible_productions and parse_production calls on one rule parser, successful or failed, the unread input is exactly the rest of the given text with the matching position, the elements stay numbered without gaps or repetitions and the default ignore element is unchanged; from there parse_rule takes exactly one rule off the front of the rest, returns the number of the rule's name and its meaning over the elements known so far plus those it mentions in order of first mention, leaves the text after the rule, and does not touch the stored rules; it succeeds only if the rest starts with a rule; and every such call returns a rule part or an error pointing into the text (or coming from the embedded language), without panicking.", "quantifier": "all rule texts, all prepared data, all embedded languages that only read, all call sequences", "why_tests_cant": "The state between the calls depends on all earlier calls and on how much text they consumed, including failed ones.", "anchors": ["src/rule_parsing.rs: RuleParser::{parse_rules,parse_rule,parse_possible_productions,parse_production}"]}
{"id": "C82", "title": "Reading single alternatives", "statement": "After any sequence of reading calls on one rule parser, parse_production takes exactly one alternative off the front of the rest, parse_possible_productions a list of them, up to the next '|', '{' or ';' (resp. '{' or ';'), returns their meaning, and leaves the text after them; and they succeed only if the rest starts with such text.", "quantifier": "all rule texts, all prepared data, all call sequences", "why_tests_cant": "Ranges over every text and every history of earlier calls.", "anchors": ["src/rule_parsing.rs: RuleParser::{parse_possible_productions,parse_production,parse_element,parse_terminal}"]}
{"id": "C83", "title": "Parsing with any virtual machine", "statement": "Whatever the VM does in execute (it gets the tree mutably): parse returns Ok with tree t, final state s' and unread text exactly if the script is read top-down as a parse tree and walking this parse tree -- adding each node when it is reached, executing the instructions of a rule once, in rule order, with the node's id, when all its children are done -- leads from the empty tree and the given state to t and s'. The outcome and the unread text are those of a VM that leaves the tree alone, unless the parse panics or fails with a tree error; and if the VM edits the tree only through its functions and does not panic itself, the parse does not panic because of it.", "quantifier": "all constructed parsers (resp. all parsers), all VMs, all scripts and states", "why_tests_cant": "Ranges over all implementations of the VM trait and all scripts.", "anchors": ["src/script_parser.rs: Parser::{parse,parse_production,run_instructions}", "src/vms.rs: VM::execute", "src/tree.rs: Tree"]}
{"id": "C84", "title": "Virtual machines that add to the tree", "statement": "A VM that does not panic and that, for all nodes but the root, only adds nodes to the tree and changes node data, does not influence whether parse succeeds, which error it returns, and how much is read: every script of the language is accepted and the only errors are unexpected character and end of text.", "quantifier": "all such VMs, all parsers, scripts and states", "why_tests_cant": "Ranges over all implementations of the VM trait and all scripts.", "anchors": ["src/script_parser.rs: Parser::{parse,parse_production,run_instructions}", "src/tree.rs: Tree::{add_node,get_node_mut,node_exists}"]}
{"id": "C85", "title": "Virtual machines that prune the tree", "statement": "A VM that only removes branches of finished children of the node it is executed for does not influence whether parse succeeds, and the returned tree shows the rest of the parse tree.", "quantifier": "all such VMs, all scripts and states", "why_tests_cant": "Ranges over all implementations of the VM trait and all scripts; the damage depends on which slots are reused.", "anchors": ["src/script_parser.rs: Parser::{parse,parse_production,run_instructions}", "src/tree.rs: Tree::{remove_branch,add_node,free_node_indexes}"]}
{"id": "C86", "title": "Work is linear in the script", "statement": "For every parser there is a constant K, depending on the grammar only, such that parsing a script of n characters, with any virtual machine and whether or not the script is accepted, executes at most K(n+1) instructions, and a returned tree has at most K(n+1) nodes. An explicit constant is L (B+1)^R (1 + R B n) for R rules with at most B elements per alternative and L instructions per rule; the exponential dependence on the number of rules is real: some grammars with n+1 rules make a tree of 2^(n+1)-1 nodes for the empty script.", "quantifier": "all constructed parsers, virtual machines, states, scripts (accepted or not), call depths and hash orders", "why_tests_cant": "a growth rate is a statement about all lengths; a test sees finitely many, and long chains of empty derivations hide in particular grammars", "anchors": ["src/script_parser.rs: Parser::parse, parse_production", "src/vms.rs: VM::execute_instruction"]}
{"id": "C87", "title": "The size of the grammar bounds the construction", "statement": "The propagation loop of get_follow_sets runs at most as many rounds as there are rules. For a grammar without left recursion a recursion depth (and number of rounds) of one more than the number of rules suffices for Parser::new_from_parser_data to return, with a parser exactly if the grammar is acceptable (every used non-terminal has a rule, no leading empty terminal, disjoint control sets); so construction within this bound decides acceptability.", "quantifier": "all well-formed grammar data, start indices and hash iteration orders", "why_tests_cant": "a bound on a fixed-point loop concerns every grammar and every hash order; tests only show that some grammars finish", "anchors": ["src/follow_sets.rs: get_follow_sets, make_follow_sets_from_marked_graph", "src/first_sets.rs: get_first_sets", "src/script_parser.rs: Parser::new_from_parser_data"]}
{"id": "C88", "title": "Rules that are not needed do not matter", "statement": "Leaving out rules that the remaining rules (among them that of `start`) do not mention changes nothing: a parser is built from the grammar or the rule text with them exactly if one is built without them, and the two parsers give the same result on every script.", "quantifier": "all grammars and rule texts, all self-contained subsets of their rules containing `start`, all scripts, virtual machines and hash orders", "why_tests_cant": "The claim relates two grammars for every grammar, every choice of rules and every script.", "anchors": ["src/follow_sets.rs: get_follow_sets", "src/steuer_map.rs: get_steuermaps", "src/script_parser.rs: Parser::new_from_text, Parser::parse"]}
{"id": "C89", "title": "The stack limit is not observable", "statement": "How deep calls may be nested and how long loops may run decides only whether an operation gets to its end: if parsing, building a parser, computing the sets, listing children or descendants or removing a branch gets to its end within some limit, it ends in the same way (result and all effects) within every larger limit; every parse with a constructed parser has exactly one outcome.", "quantifier": "all parsers, grammars, rule texts, scripts, trees, virtual machines, hash orders and limits", "why_tests_cant": "It compares all pairs of limits on all inputs.", "anchors": ["src/script_parser.rs: Parser::parse, parse_production", "src/first_sets.rs: get_first_sets", "src/follow_sets.rs: make_follow_sets_from_marked_graph", "src/tree.rs: get_children, get_descendants, remove_branch"]}
{"id": "C90", "title": "Only the meaning of a rule text matters: definitions may be split and merged", "statement": "If two rule texts define the same names with the same alternatives (all definitions of a name taken together, in any order), the same override and the same instructions in force (those of the first definition of the name), up to a renaming that keeps `start`, then Parser::new_from_text succeeds on both or on none, and the two parsers give on every script, VM and VM state the same result, leave the same text unread and the VM in the same state. In particular some alternatives of a definition can be moved to a later definition of the same name.", "quantifier": "all pairs of rule texts with the same meaning, all hash orders, all scripts, VMs, VM states and call depths", "why_tests_cant": "It compares infinitely many ways to divide the alternatives of infinitely many grammars into definitions, on every script.", "anchors": ["src/rule_parsing.rs parse_rules, merge_rule", "src/script_parser.rs Parser::new_from_text, Parser::parse"]}
{"id": "C91", "title": "Growing a grammar is conservative", "statement": "Take a rule text (or grammar data) and add alternatives to its definitions, at any place, or whole new definitions, leaving the overrides and instructions of the names it defines as they are (and without making an ignore element use a rule it is woven into). Then: every sentence of the old grammar is one of the new; if Parser::new_from_text (or new_from_parser_data) succeeds on the new one and the old one is complete (every name mentioned is defined, start included), it succeeds on the old one; and if both parsers exist, every script the old one parses is parsed by the new one with the same tree, the same text left unread and the same final VM state, whatever the VM.", "quantifier": "all grammars and all extensions of them, all hash orders, all scripts (accepted wholly or up to unread text), VMs, VM states and call depths", "why_tests_cant": "It relates infinitely many pairs of grammars on every script; a test can only try some extensions on some scripts.", "anchors": ["src/rule_parsing.rs RuleParser::parse_rules, merge_rule, edit_rules", "src/script_parser.rs Parser::new_from_text, Parser::new_from_parser_data, Parser::parse", "src/steuer_map.rs get_steuermaps"]}
{"id": "C92", "title": "Ignored text may stand between tokens and nothing else is skipped", "statement": "For a parser built from a rule text with $[IGNORE:..] overrides: (1) what it has read when it accepts a script is a token sequence of the rules as they are written (overrides aside) with nothing put in except texts that the override names stand for, never inside a token; (2) if the override names can stand for nothing, every script of the rules as written, without any ignored text, is parsed and read completely; (3) if start and all names it uses are overridden with the same name j, which uses none of them and can stand for nothing, then any texts that j stands for may stand between neighbouring tokens: the script is parsed and read completely.", "quantifier": "all rule texts from which a parser is built, all token sequences of their rules, all ways to put ignored text between them, all VMs (that keep the tree and do not fail, in (2) and (3)), hash orders and VM states", "why_tests_cant": "Infinitely many grammars, token sequences and ways to insert ignored text.", "anchors": ["src/rule_parsing.rs RuleParser::edit_rules, weave_in_ignorers, weave_in_ignorers_single_production", "src/script_parser.rs Parser::new_from_text, Parser::parse", "readme.md Special Directives"]}
{"id": "C93", "title": "Simple grammars always give a parser", "statement": "Take a rule text in which every name mentioned is defined, start is defined, and every alternative begins with a terminal that is not empty. Parser::new_from_text gives a parser from it if and only if no two alternatives of the same name (over all its definitions) begin with the same character; overrides make no difference.", "quantifier": "all rule texts of that form, all hash orders, all VMs that consume their sections", "why_tests_cant": "Infinitely many grammars.", "anchors": ["src/script_parser.rs Parser::new_from_text", "src/steuer_map.rs get_steuermaps", "src/rule_parsing.rs RuleParser::parse_rules"]}
{"id": "C94", "title": "Reading one element is fully determined", "statement": "RuleParser::parse_element, called with any text ahead, always returns; a '#' gives the empty-alternative sign and one character is read; a quoted text up to its first active closing quote gives a terminal taken verbatim, read with its quotes; an unclosed quote gives an end-of-text error at the end of the text, everything being read; a letter gives a name, taken as long as possible; any other character gives an unexpected-character error naming it and its position, and the end of the text an end-of-text error, nothing being read. There is no other outcome.", "quantifier": "all texts, all positions, all classifications of non-ASCII characters", "why_tests_cant": "Infinitely many texts; totality and uniqueness of the outcome are universal statements.", "anchors": ["src/rule_parsing.rs RuleParser::parse_element, parse_terminal", "src/parse_funcs.rs parse_var_name"]}
{"id": "C95", "title": "What a parse has done when it does not succeed", "statement": "If Parser::parse returns an error, then the text was read from the left and its parse trees were walked (nodes added, instructions of each finished node executed once, in order) up to one exactly describable place: inside a terminal (a wrong character or the end of the text), before a non-terminal none of whose alternatives has the lookahead in its control set, or at a node that could not be added to the tree because the virtual machine had removed its parent. The error kind, character, position and expected list, the unread text and the state of the virtual machine are those of this place: effects of finished nodes stay, nothing is undone, and no instruction of an unfinished node has been executed. Conversely each such place leads to that error, and parse panics exactly if adding a node or executing the instructions of a finished node panics.", "quantifier": "all well-formed grammars with a parser, all scripts, all virtual machines (including ones that edit the tree or panic), all states, all hash orders, all call depths", "why_tests_cant": "the place of the error and the effects executed before it range over all scripts, grammars and machines; a test fixes one failing script", "anchors": ["src/script_parser.rs parse, parse_production, parse_terminal, get_fitting_production, run_instructions", "src/tree.rs add_node"]}
{"id": "C96", "title": "The tree shows the rules as they are written", "statement": "A user who walks the tree of a parser built from a rule text finds the tree of the script by the rules as written: below a node of a name with an IGNORE override (that does not use the name) every second child belongs to ignored text and the others, in order, to the elements of a written alternative; below all other nodes the children are the elements of a written alternative. Leaving the ignored children out gives a tree of the written rules whose leaves are tokens, and the text read is these tokens with ignored text in between. If ignored text is optional there is only one such tree for given tokens: layout does not influence it, and with one ignore element everywhere each written tree is found for every layout of its tokens.", "quantifier": "all rule texts that give a parser, all scripts, all virtual machines that do not edit the tree, all hash orders, all call depths", "why_tests_cant": "ranges over all grammars, scripts and layouts, and uniqueness of the written tree is a statement about all trees", "anchors": ["src/rule_parsing.rs edit_rules, check_is_derivative", "src/script_parser.rs parse, parse_production", "src/tree.rs get_children"]}
{"id": "C97", "title": "An instruction section is read like a text of its own", "statement": "The process that a VM's parse_instructions receives behaves, on a section body without '}' that does not end in a backslash, exactly like a process over the body alone at the same position: every sequence of peek, next, next_if, next_if_eq, cur_pos, parse_whitespace, parse_digits, parse_required_digits, parse_usize, parse_isize, parse_symbol and parse_var_name calls, whatever it does with the answers, gets the same answers and errors and reads the same characters. So a VM built from these calls accepts {body} in a rule text exactly if its parser reads all of body when run on body alone.", "quantifier": "all programs of reading calls, all such bodies, all texts after the section, all positions", "why_tests_cant": "there are infinitely many section parsers and bodies; the two processes are different types with different code paths (nested stop/escape checks on every call)", "anchors": ["src/peekables.rs ParseProcess::new_nested, check_allowed, peek, next, next_if, next_if_eq", "src/parse_funcs.rs parse_whitespace, parse_digits, parse_required_digits, parse_usize, parse_isize, parse_symbol, parse_var_name", "src/rule_parsing.rs parse_instruction_section"]}
{"id": "C98", "title": "Exactly which nodes an insertion or a removal makes unreadable", "statement": "After any history of add_node and remove_branch calls: a successful add_node makes the new node readable and makes at most one readable node unreadable, namely the one whose id has the same slot number as the new id; a successful remove_branch makes get_node refuse exactly those readable nodes whose key equals the slot number of the removed node or of a listed descendant, and get_node_mut exactly those whose slot number does. Consequently the first of two nodes added after a removal is always lost, and a removal can make an unrelated node unreadable.", "quantifier": "all add/remove histories, all ids", "why_tests_cant": "the damage depends on the whole history of slot reuse; tests only see single histories", "anchors": ["src/tree.rs add_node, remove_branch, get_node, get_node_mut, node_exists"]}
{"id": "C99", "title": "The set builders mean what they say", "statement": "make_memberset(text) is the set of the members the characters stand for ('#' the empty word, '!' the end of the text, any other character itself), make_memberset_no_empty likewise with '#' taken literally; order and repetition of characters do not matter, and a finite set can be written this way exactly if it contains neither '#' nor '!' (resp. not '!') as a character.", "quantifier": "all texts, all finite sets", "why_tests_cant": "infinitely many texts; the limits of what can be written are a negative statement", "anchors": ["src/test_helpers.rs make_memberset, make_memberset_no_empty", "src/sets.rs SetMember, SetMemberWithEmpty"]}
{"id": "C100", "title": "What the calculators do with every script", "statement": "For every script of words (numbers, +, -, print, separated by single blanks), in every state of the stack machine and in builds with and without overflow checks, the example calculators do exactly this, word by word: a number is pushed (with the limits of C52), an operator with two operands replaces them by sum or difference (panicking or wrapping when it does not fit the word), an operator missing an operand sets error code 1 and loses the operand that is there, print with an operand removes and prints it, print on an empty stack sets error code 1 and prints the last operand that was taken (or the number of digits of a later number of several digits). parse returns Ok having read everything, or panics exactly where this evaluation panics.", "quantifier": "all scripts of words of any length with numbers of any number of digits, all states of the machine, both kinds of builds, all three example calculators, all hash orders", "why_tests_cant": "Unboundedly many scripts, states and digit strings; the underflow, overflow and register behaviour depends on the whole history.", "anchors": ["examples/simple_stack_based_math.txt", "examples/stack_based_math.txt", "examples/rust_defined_rules.rs main", "src/vms/simple_stack_vm.rs execute_instruction", "src/vms/stack_vm.rs execute_instruction", "src/script_parser.rs parse"]}
{"id": "C101", "title": "Grammars whose scripts are always read to the end", "statement": "parse may return Ok with text left over (C23). It never does if the start symbol is closed: there is a set of names containing start that stand only at the end of alternatives of these names, and each of their alternatives is empty or ends with such a name (for example an end marker 'start -> list end; end -> #;', also in rule texts with $[IGNORE:..] overrides). Then whatever parse accepts, with any virtual machine, has been read to its end and is in the language; a script outside the language gives a syntax error (or the virtual machine panics). The three calculators are of this kind: they accept only complete scripts of words and answer every other text with a syntax error or a panic of the machine.", "quantifier": "all accepted grammars and rule texts with a closed start symbol, all scripts, virtual machines, states and hash orders", "why_tests_cant": "Whether some continuation of some script is silently left unread ranges over all scripts of all such grammars.", "anchors": ["src/script_parser.rs parse, parse_production", "src/steuer_sets.rs", "src/follow_sets.rs", "examples/simple_stack_based_math.txt", "examples/stack_based_math.txt", "examples/rust_defined_rules.rs main"]}
{"id": "C102", "title": "Exactly what reading alternatives accepts", "statement": "After any sequence of reading calls on one rule parser, parse_production succeeds exactly when the unread text starts (after white space) with '#', or with a sequence of elements followed by (after white space) the end of the text, a character that starts no element, or an unfinished terminal; it returns the meaning of these elements and leaves the text behind them - nothing in the case of an unfinished terminal, which is the only way text gets lost. parse_possible_productions does this for alternatives separated by '|' up to the first one not followed by '|'. In every other case both return an error; they never panic or hang.", "quantifier": "all rule texts, all prepared data, all call sequences, all results", "why_tests_cant": "ranges over every unread text and every history of calls; a test shows single texts", "anchors": ["src/rule_parsing.rs: parse_production, parse_possible_productions, parse_element"]}
{"id": "C103", "title": "Errors in rule texts are found as early as possible", "statement": "An error of parse_rules that does not come from a VM section (or from an undefined name in an ignore production of a text that follows the syntax) is reported at the earliest possible place: everything before the reported place can be continued to a text that follows the syntax, and with the character standing there no continuation can. So a text that is merely unfinished is rejected with an error about the end of the text, and an end-of-text error outside sections means that more text can repair it.", "quantifier": "all rule texts, all hash orders, all VMs whose result on a section depends only on the text up to the first character they leave and that do not lead into dead ends (the four built-in VMs among them)", "why_tests_cant": "The claim compares one run with the runs on all continuations of the text; no finite set of texts shows that a prefix cannot be continued.", "anchors": ["src/rule_parsing.rs: parse_rules, parse_rule, parse_overrides, parse_possible_productions, parse_production, parse_instruction_section", "src/parse_funcs.rs: parse_symbol, parse_var_name"]}
{"id": "C104", "title": "Writing through peek_mut changes the next character and nothing else", "statement": "On a ParseProcess nested to any depth, writing a character through peek_mut replaces the next unread character of the underlying text (even if it is the stop character of a section) and changes nothing else: not the text behind it, not any position, not what the processes know. If the characters before it were read with next alone, the process is from then on exactly the one that had read the same characters from the text with the new character in place. At the end of the text nothing happens.", "quantifier": "all texts, all nestings, stop and escape characters, all states of the processes, all characters written", "why_tests_cant": "The claim is about the whole later behaviour for every text, nesting depth and state.", "anchors": ["src/peekables.rs: TPeekable::peek_mut, PeekableWrapper::peek_mut, ParseProcess::peek_mut, check_allowed"]}
{"id": "C105", "title": "Between rules only white space may stand", "statement": "Wherever in a rule text, after any number of well-formed rules (none included) and white space, a character stands that is neither white space nor alphabetic, rule parsing fails, and the error names exactly that character, its offset in the text and that an alphabetic character was expected. In particular there are no comments: a text with `// ...` before, between or after its rules is rejected at the first slash.", "quantifier": "all rule texts, all such characters and all text behind them, all VMs whose instruction reader only reads, all hash orders", "why_tests_cant": "The claim ranges over all rule texts and everything that may follow the character.", "anchors": ["src/rule_parsing.rs: RuleParser::parse_rules, parse_rule", "src/parse_funcs.rs: parse_var_name, parse_whitespace"]}
{"id": "C106", "title": "Arithmetic expressions in reverse Polish notation are evaluated", "statement": "Take any arithmetic expressions over sums, differences and decimal numbers, written in reverse Polish notation, each followed by print. The example calculators print exactly the values of the expressions, in order, and leave the stack and error code as they were, whatever is on the stack, if all intermediate values fit the machine word. In builds without overflow checks they always print the values modulo 2^64 (as two's complement words for StackVm), even if intermediate values do not fit; in builds with overflow checks they panic exactly if some part of some expression has a value that does not fit (numbers of at most 20, for StackVm 19, digits).", "quantifier": "all lists of expressions of any size and depth, all machine states, both kinds of builds, all hash orders, all three example calculators", "why_tests_cant": "The claim ranges over all expressions and all machine states.", "anchors": ["examples/simple_stack_based_math.txt", "examples/stack_based_math.txt", "examples/rust_defined_rules.rs", "src/vms/simple_stack_vm.rs: execute_instruction", "src/vms/stack_vm.rs: execute_instruction"]}
{"id": "C107", "title": "Parsers for simple grammars accept what begins with a sentence", "statement": "A parser built from a rule text in which every alternative begins with a (non-empty) terminal accepts a script, leaving rest unread, exactly if the script is a text the rules spell followed by rest; no text the rules spell begins with another one. In particular a text start -> \"..\" \"..\" | \"..\" ..; whose choices begin with different characters always gives a parser, and this parser accepts exactly the scripts that begin with one of the choices (the example in the library's documentation is one).", "quantifier": "all such rule texts, all scripts and rests, all VMs that keep the tree and do not fail, all hash orders", "why_tests_cant": "The claim is an equivalence over all scripts and all such grammars.", "anchors": ["src/script_parser.rs: Parser::new_from_text, Parser::parse", "src/steuer_map.rs: get_steuermaps", "src/lib.rs: documentation"]}
{"id": "C108", "title": "The example programs and the readme", "statement": "Each of the three example programs, run where its rule file can be read, exits normally having printed 2 and ok (and Parsing successful! in the program that builds its rules in Rust), for every iteration order of the hash maps and both kinds of builds; without the rule file the two that need it panic. The rule file shown in the readme gives exactly the same parser as examples/simple_stack_based_math.txt.", "quantifier": "all hash orders, character classes, both kinds of builds, all sufficiently large call depths", "why_tests_cant": "A test run sees one iteration order of the hash maps and one kind of build.", "anchors": ["examples/simple_stack_based_math.rs: main", "examples/stack_based_math.rs: main", "examples/rust_defined_rules.rs: main", "readme.md"]}
{"id": "C109", "title": "New machines, and what parsing never touches", "statement": "The states made by create_new_state of the two stack machines have an empty stack, and printing either register or the error code of a new machine prints 0; CountingVm counts from 0: after a successful parse with a new counter the state is the number of parsed names that have an instruction section (modulo 2^64). Whatever the parser, the script, the state and the outcome of a parse, what had been printed before is the beginning of what has been printed after it, and StackVm's instruction counter and instruction list are unchanged.", "quantifier": "all parsers, scripts, machine states and outcomes (failures and panics included), both kinds of builds, all hash orders", "why_tests_cant": "The claim holds over every sequence of instructions a parse can run, and for failing parses too.", "anchors": ["src/vms/simple_stack_vm.rs: create_new_state, execute_instruction", "src/vms/stack_vm.rs: create_new_state, execute_instruction", "src/vms/counting_vm.rs: create_new_state"]}
{"id": "C110", "title": "What running a script does is told by the rule text", "statement": "For a parser built from a rule text: a successful parse does to the state of the virtual machine exactly what the written rules say. Reading a terminal does nothing; reading a name performs one of its alternatives (with ignored text woven in) and then executes the instructions of the name's first definition, once, in order, with the tree node of that occurrence, which shows the trees of the alternative. Conversely, if a script can be performed by the written rules from one state to another, and the instructions look only at what their own node shows (as those of the four machines of the library do), then parse accepts the script, reads all of it, shows that tree and ends in that state, without panic. There is only one way to perform a script.", "quantifier": "all rule texts that give a parser, all scripts, all virtual machines that leave the tree alone (conversely: that look only at their node), all states, hash orders and sufficient call depths", "why_tests_cant": "ranges over all rule texts, scripts and machines", "anchors": ["src/script_parser.rs: Parser::new_from_text, Parser::parse, parse_production", "src/rule_parsing.rs: RuleParser::parse_rules, merge_rule", "src/vms.rs: VM"]}
{"id": "C111", "title": "A syntax error is at the end of the longest completable beginning", "statement": "If every name of the rules stands for some text and Parser::parse returns a syntax error, then, whatever the virtual machine does, the position in the error is the length of the longest beginning of the script that can be completed to a text of the language, and the script is not in the language. So two parsers for the same language that both reject a script report the same position, however the rules are written.", "quantifier": "all grammars with a parser whose names all stand for some text, built from data or from a rule text; all scripts; all virtual machines; all hash orders and call depths", "why_tests_cant": "It quantifies over all completions of all beginnings of all scripts.", "anchors": ["src/script_parser.rs: Parser::parse", "src/errors.rs: ParserError"]}
{"id": "C112", "title": "An unexpected-character error lists the characters that can come next", "statement": "The expected text of an unexpected-character error lists exactly the characters (or the end) that can stand at that position after the text before it.", "quantifier": "all grammars with a parser whose names all stand for some text, all scripts, all virtual machines, all hash orders and call depths", "why_tests_cant": "It quantifies over all completions of all beginnings of all scripts.", "anchors": ["src/script_parser.rs: Parser::parse, Parser::get_fitting_production", "src/parse_funcs.rs", "src/steuer_map.rs"]}
{"id": "C113", "title": "What the calculators say about a text that is no script", "statement": "Given a text that is not a sequence of words separated by single blanks, the calculator examples (simple_stack_based_math, stack_based_math, rust_defined_rules) report a syntax error, unless the machine panics first. The error names the place where the text ceases to be the beginning of such a sequence: inside an unfinished 'print' at the end of the text it says that the text has ended; otherwise it names the character found there (# at the end of the text), its position and exactly what can come next: figures, +, - and p where a word begins, the next letter inside print, figures, a blank or the end after a figure, a blank or the end after another word. The text determines the message up to the order of the list.", "quantifier": "all texts, all states of the machines, both kinds of builds, all hash orders and call depths", "why_tests_cant": "there are infinitely many texts, and the claim that exactly the listed characters can come next is about all continuations", "anchors": ["examples/simple_stack_based_math.rs", "examples/stack_based_math.rs", "examples/rust_defined_rules.rs", "src/script_parser.rs: Parser::parse, parse_terminal"]}
{"id": "C114", "title": "The lexical helpers are honest in every section", "statement": "On a ParseProcess nested to any depth, with any stop and escape characters and after any history, parse_whitespace, parse_digits, parse_usize, parse_isize, parse_symbol and parse_var_name always return, without panic: a success returns exactly the characters taken (their value), all of the right kind, with all positions moved by their number; an error is EndOfChars or UnexpectedChar, truthful about the position and the next character, or (for numbers) Impossible. The exceptions stem from escaped stop characters: parse_digits and parse_var_name may then report EndOfChars, and parse_symbol and parse_var_name may succeed without taking the stop character.", "quantifier": "all processes at all nesting depths, in all states, with all stop and escape characters; all texts", "why_tests_cant": "Ranges over every nesting, text, choice of stop and escape characters and reading history.", "anchors": ["src/parse_funcs.rs: parse_whitespace, parse_digits, parse_required_digits, parse_usize, parse_isize, parse_symbol, parse_var_name", "src/peekables.rs: ParseProcess::{peek,next,check_allowed}"]}
{"id": "C115", "title": "What a script that is not accepted has done is told by the rule text", "statement": "For a parser built from a rule text, with any machine that leaves the tree alone: if parse fails, then the characters read before the error were run by the written rules up to a place inside a terminal or before a name; every name finished by then was performed once and in order, no instruction of an unfinished name was executed, and nothing was undone, so that the state of the machine is the one of that place. The error is the one of that place: its position is the number of characters read, and it names the expected character (or the end of the text) or a list of lookaheads that has every character with which a text of the name can begin but not the next one. If parse panics, then an instruction of a name that was just finished panicked. For scripts up to any length and enough fuel there is no fourth way.", "quantifier": "all rule texts, machines that leave the tree alone, scripts, states, hash orders, fuels", "why_tests_cant": "Ranges over every grammar, script and machine; the effects left behind by a failed parse depend on where it broke off.", "anchors": ["src/script_parser.rs: Parser::parse, parse_production, run_instructions, parse_terminal", "src/rule_parsing.rs: parse_rules", "src/vms.rs: VM"]}
{"id": "C116", "title": "Errors inside the sections of StackVm are reported at the earliest possible place, too", "statement": "Every error of rule parsing with StackVm, whether it arises inside an instruction section or outside, names the earliest possible place: what stands before the place can still be continued to a rule text that follows the syntax (its sections being StackVm programs), and with the character that stands there no continuation can. A section that is closed in the middle of an instruction is reported as an unexpected end at the closing brace. The only exceptions are a constant that does not fit into 64 bits, which is reported without a place and only if the text really has one, and an undefined name in an ignore production of a text that follows the syntax. A text that is merely unfinished is therefore never reported as wrong at a character.", "quantifier": "all rule texts, all character tables in which white space is no letter or digit, all hash orders, checked and unchecked builds; the general theorem for all VMs that read and fail in turn", "why_tests_cant": "the claim is about all continuations of all prefixes of all texts", "anchors": ["src/vms/stack_vm.rs: parse_instructions", "src/parse_funcs.rs: parse_usize, parse_var_name, parse_symbol", "src/rule_parsing.rs: parse_rules, parse_rule"]}
{"id": "C117", "title": "The calculator written as a rule file and the one built by calls are the same calculator", "statement": "The parser of examples/stack_based_math, whose rules are read from a file, and the parser of examples/rust_defined_rules, whose rules are put together by calls of ParserData, cannot be told apart: on every input, with every VM and every VM state, both end with the same tree, the same error (up to the order in which the expected characters are listed) or the same panic, leave the same part of the input unread and the VM in the same state.", "quantifier": "all input texts (calculator scripts or not), all VMs and VM states, all hash orders of the four runs, all recursion budgets, checked and unchecked builds", "why_tests_cant": "equality on all inputs; the two examples number their elements differently and store them in differently ordered maps", "anchors": ["examples/stack_based_math.rs, examples/stack_based_math.txt", "examples/rust_defined_rules.rs", "src/script_parser.rs: new_from_text, new_from_parser_data, parse"]}
{"id": "C118", "title": "Of an instruction section, only its effect matters", "statement": "Take two grammars that are the same except for their instruction sections - written for different virtual machines, with different instructions and states. Either a parser can be made from both or from none. If, for every rule, the sections of the two have the same effect (started with the same tree and node and with related states, both panic, or both finish with the same tree and related states), then on every script the two parsers do the same: both panic, or both give the same tree or the same error (up to the order of the expected list), leave the same text unread and the machines in related states. For machines that leave the tree alone and never panic - such as the four machines of the project when compiled without overflow checks - the sections have no influence on result and unread text at all; in particular the SimpleStackVm calculator and the StackVm calculator accept the same scripts with the same trees and reject the others with the same errors.", "quantifier": "all pairs of grammars with the same syntax (data or rule text), all pairs of virtual machines, all relations between their states, all sections, scripts, initial states, hash orders and call depths", "why_tests_cant": "a test compares two particular machines on particular scripts; the claim is about every pair of machines and every script", "anchors": ["src/script_parser.rs: new_from_text, new_from_parser_data, parse", "src/script_parser.rs: parse_production", "examples/simple_stack_based_math.rs", "examples/stack_based_math.rs"]}
{"id": "C119", "title": "Without overflow checks SimpleStackVm and StackVm compute the same words", "statement": "Take two grammars that are the same except that the one has instructions of SimpleStackVm and the other the same instructions of StackVm, with no terminal that begins with a minus sign and no terminal that is a number of 2^63 or more. Compiled without overflow checks, and started in states that hold the same 64-bit words (unsigned in the one machine, two's complement in the other), the two parsers do the same on every input: the same tree or the same error (up to the order of the expected characters), the same text unread, the same error register, and stack, registers and printed numbers with the same words. So the three calculators of the examples print the same words on every text, be it a script or not.", "quantifier": "all such pairs of grammars, all inputs, all pairs of states with the same words, hash orders and call depths", "why_tests_cant": "the machines use different integer types, different number readers and (for the two example files) different sections; a test compares them on some scripts, mostly without overflow", "anchors": ["src/vms/simple_stack_vm.rs: execute_instruction", "src/vms/stack_vm.rs: execute_instruction", "src/script_parser.rs: parse_production", "examples/simple_stack_based_math.rs", "examples/stack_based_math.rs", "examples/rust_defined_rules.rs"]}
{"id": "C120", "title": "A calculator script may be run in pieces", "statement": "Cut a calculator script (words separated by single blanks) at any blank, run the first piece, and then the second piece from the state in which the first left the machine. This does the same as running the whole script at once, for all three example calculators, in every build and from every state: the whole panics exactly if one of the two runs does, and otherwise all three runs succeed having read everything, and stack, first register, error code and printed numbers are the same in the end.", "quantifier": "all scripts of words, all places to cut them, all machine states, both kinds of builds, all hash orders, all three example calculators", "why_tests_cant": "the claim is about every script, every cut and every state a session can be in, including those with missing operands, error codes and overflow", "anchors": ["src/script_parser.rs: parse", "src/vms/simple_stack_vm.rs: execute_instruction", "src/vms/stack_vm.rs: execute_instruction", "examples/simple_stack_based_math.rs", "examples/stack_based_math.rs", "examples/rust_defined_rules.rs"]}
{"id": "C121", "title": "An end marker can be added to every grammar", "statement": "Parsing accepts scripts with unread text at the end (C23). Every grammar can be changed so that this does not happen: rename `start` to a new name g and add the rules `start -> g h;` and `h -> #;`, h being a new name. The changed rules give a parser exactly when the original ones do. A script is accepted by the changed parser exactly if the original parser accepts it and reads it to its end; the final VM state is then the same and the tree is the original one below one more node, followed by a leaf-less node for h. Where the original parser succeeds leaving text unread, the changed one reports the first unread character at its position, and, if something was read before it, names the end of the script as what was expected. So the changed parser decides, for every script, whether the original rules spell it: Ok if they do, a syntax error if not (with a VM that does not panic). This holds for VMs that leave the tree alone and see of it only what their node shows, as the four machines of the library do.", "quantifier": "all rule texts and their versions with an end marker, with and without overrides and sections, all new names, all scripts, VM states, call depths and hash orders, all VMs with the stated property", "why_tests_cant": "the equivalence is claimed for every grammar and every script; it depends on how the added rules change FIRST, FOLLOW and the control sets of all other rules", "anchors": ["src/script_parser.rs: Parser, new_from_text, parse", "src/rule_parsing.rs: parse_rules, edit_rules", "src/follow_sets.rs", "src/steuer_sets.rs"]}
{"id": "C122", "title": "Giving a part of alternatives a name of its own", "statement": "Take a grammar, as rule text or as grammar data, and a sequence of elements, the first of which cannot stand for the empty text, and write a new name, defined by one rule for exactly this sequence and without instructions, in some of the places where the sequence stands (in rule texts: of rules without an $[IGNORE:..] override). Every other name still stands for the same texts; a parser is built from the changed grammar exactly when one is built from the original one. Every script accepted by the one parser is accepted by the other (with the name possibly at a greater call depth), leaving the same text unread and the machine in the same final state, and the trees differ only in that the children of the nodes for the new name stand in their place. If the machine never panics, both parsers end in the same way on every script (accept, or report a syntax error) once the call depth suffices. If every name stands for some text, a syntax error that both report is at the same position. For parsing this is claimed for VMs that leave the tree alone and see of a node only the texts of its children, as the four machines of the library do, where the rules that mention the new name have only instructions that do not look at the tree (any but PushFromTree).", "quantifier": "all rule texts (with the name used in rules that have no override) and all well-formed grammar data, all versions of them with such a name, all scripts, VM states, call depths and hash orders, all VMs with the stated property", "why_tests_cant": "the equivalence is claimed for every grammar, every part of its alternatives and every script; it depends on FIRST, FOLLOW and control sets of all other rules staying compatible", "anchors": ["src/lib.rs: Parser, new_from_parser_data", "src/script_parser.rs: parse", "src/parser_data.rs: ParserData, add_production", "src/follow_sets.rs", "src/steuer_sets.rs", "src/lib.rs: new_from_text"]}
{"id": "C123", "title": "Scripts that are sequences of statements may be run in pieces", "statement": "Take a parser built from a rule text in which every alternative of start is empty or ends in start itself (an $[IGNORE:..] override is allowed) and start has no instructions, as in start -> assignment start | output start | #. If one script is accepted and read to its end, and a second one, run from the state in which the first left the machine, is too, then the two scripts written one after the other are accepted as one script and read to the end, with the same final state; the tree is the tree of the first with the tree of the second in place of its last node. The same holds for any number of scripts run in turn. If the machine never panics, this holds for any two scripts the rules spell: all three runs succeed. Conversely, if two scripts the rules spell are accepted as one and read to the end, they are accepted one after the other with the same final state: cutting a script brings no panic. For VMs that leave the tree alone and see of it only what their node shows, as the four machines of the library do.", "quantifier": "all rule texts of this kind that give a parser, all pairs of scripts, all VM states, hash orders and sufficient call depths, all VMs with the stated property", "why_tests_cant": "the claim is for every grammar of this kind and every place where a script may be cut; it depends on one character of lookahead deciding the same at the end of a script as before a further statement", "anchors": ["src/lib.rs: Parser, new_from_text", "src/script_parser.rs: parse, parse_production", "src/vms.rs: VM"]}

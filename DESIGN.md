# Design: a Lean 4 model of HenriksParsingProject

Everything lives in `/verif/lean/Verif`:

* `Model/*.lean`  – the code, function by function (each definition cites file and lines);
* `Spec/*.lean`   – small, independent specifications (derivations of a context-free grammar, parse
  trees, reachability, concrete rule syntax, RPN evaluation); nothing here mentions model functions
  other than the plain data types;
* `Proofs/*.lean` – helper lemmas;
* `Props/*.lean`  – the property theorems (one section per property id, non-vacuity `example`s beside them).
* `Props/Cases/*.lean` – further concrete cases meeting the hypotheses of the theorems (parsing, calculators);
* `RepoTests/*.lean` – a check of the model against the project's own expectations: the 86 active `#[test]`s of the crate replayed
  on the model by the kernel (several under two different hash orders). These are tests of the *model*, not proofs of
  properties. 76 of them hold in the model as written. The other 10 cannot pass in the pinned code, and the model agrees:
  8 use the top-level `$IGNORE:` directive, which `parse_rules` rejects (C42) (steuer_sets `test_more_whitespace_shenanigans`,
  script_parser `test_script_parser_discarder` 1-4, rule_parsing `test_rule_parser_discarder` 1-3), and 2 (steuer_map
  `test_more_whitespace_shenanigans`, `…3`) never call `parse_rules`, so they unwrap a `None`; for these the model's rejection is shown.

## Trusted base

* Lean 4.33 kernel; the only axioms allowed are `propext`, `Classical.choice`, `Quot.sound`
  (checked with `#print axioms` by the gate). No axioms of our own, no compiled evaluation.
* The reading of the Rust source (nothing is run). Every model definition cites the lines it models.
* Rust facts assumed: `char` = Unicode scalar value = Lean `Char`; `String` = sequence of chars;
  `HashMap`/`HashSet` behave as finite maps/sets whose iteration order is *arbitrary*; `Vec` = list;
  `Peekable<Chars>` yields the characters in order; `usize` = 64 bit.

## Modelling decisions

* **Outcomes.** `Res ε α = ok | err | panic | timeout`. A Rust `panic!`/`unwrap`/index failure is `panic`.
  Recursion and `while` loops that are not structurally decreasing take a `fuel` argument (= bound on
  call depth / iterations); `timeout` = "has not returned yet". "Terminates" is `∃ fuel, ≠ timeout`,
  "diverges" is `∀ fuel, = timeout`.
* **Hash order.** Maps and sets are duplicate-free lists; each iteration over a hash container goes
  through a `HashOrder` oracle which may return any permutation, separately per iteration site. All theorems
  quantify over all oracles. An oracle gives equal contents at the same site the same order within one call; in Rust two
  different containers with equal contents may be visited in different orders. This can only concern site 8 (the sets of two
  alternatives put into control maps) and site 9 (the message of a parse error): the other sites visit one and the same
  container. At site 8 the order of a set is observable only through the element named in the conflict error, which ends the
  construction, and at site 9 through the message of the error that ends the parse, so each call observes at most one of these
  orders, and the oracle makes all of its values possible.
* **Text.** `List Char`. `char::is_alphabetic` / `is_numeric` outside ASCII are free parameters
  (`CharClass`), inside ASCII they are fixed; `is_whitespace` is the full Unicode White_Space list.
* **Indices and positions** are `Nat` (no 64-bit overflow of vector lengths/positions); VM arithmetic *is*
  64-bit with explicit overflow (checked build → panic, unchecked build → wrap-around).
* **Mutation** becomes state passing. A nested `ParseProcess` borrowing an outer one is a value containing it.
* **VM trait** = a structure of two functions (`parse_instructions`, `execute_instruction`) and an initial state.
  `println!` is an output log in the state.

## Modelled / not modelled

Modelled: `peekables.rs`, `parse_funcs.rs`, `sets.rs` (data types), `parser_data.rs`, `first_sets.rs`,
`follow_sets.rs`, `simple_graph.rs`, `named_graph.rs`, `steuer_sets.rs`, `steuer_map.rs`, `rule_parsing.rs`,
`script_parser.rs`, `tree.rs`, `vms.rs` and all four VMs, the three example grammars, `main.rs`, `test_helpers.rs`, the `Display` texts of
`errors.rs` and of the data types.
Not modelled: the derived and hand-written `fmt::Debug` texts, memory/stack exhaustion,
atomics (`Tree::counter` is only used single-threaded through `&mut`), a failing standard output (`println!` would panic).
`kernel_rfl` (Proofs/CalcData) is `exact Eq.refl _` elaborated without unification search: the kernel alone checks the
equation by evaluation (no compiled code); `decide +kernel` likewise.

## Plan per property

| id | model | proof |
|----|-------|-------|
| C01–C04 | `Model/Peekables` (`Proc`, arbitrary nesting) | induction on the call sequence and nesting; C04 is false of the code: refuted by witness, true part proved as `_partial` |
| C05–C06 | `Model/ParseFuncs` | induction on the text against `takeWhile`/`dropWhile` and positional value |
| C07, C47 | `Model/RuleParsing.parseTerminal` | induction on the text; C47 false: refuted for all grammars read from text |
| C08–C09 | `Model/ParserData` | invariant by induction over operation lists; refinement to functions |
| C10–C12 | `Model/First`, `Spec/Cfg` (sentential derivations) | partial correctness by induction on fuel with a memo invariant; termination by accessibility of the left-corner relation |
| C13–C14 | `Model/Graph`, `Model/Follow` | graph refinement + least fixpoint; measure for the loop; equivalence with derivations |
| C15–C17, C20 | `Model/Steuer` | exact characterisation of success; C20 false: refuted by an LL(1) witness, partial: "strong" LL(1) grammars accepted |
| C18 | whole construction under two oracles | corollary of the exact characterisations |
| C19, C21–C31 | `Model/Script`, `Model/Tree` | induction on fuel / parse trees; C23, C30 false: refuted, partial versions proved |
| C32–C35 | `Model/Tree` | arena invariant; C34, C35 false in general: refuted, partial versions |
| C36–C39 | `Model/Graph` | linked-chain invariant, refinement to a finite map |
| C40–C46, C48 | `Model/RuleParsing`, `Spec/RuleText`, `Spec/Reading`, `Spec/Edit`, `Spec/Construction` | inductive concrete syntax, both directions; merge/edit refinement; C42 refuted |
| C49–C56 | `Model/VMs`, `Model/Examples`, `Spec/StackText`, `Spec/Calc` | round trip by induction; end-to-end with the real example grammars; C50, C52, C56 refuted in part |
| C57–C59 | rule text to parser to script | composition of C40–C48 with C16, C21; `Spec/Woven` for the ignore override |
| C60 | `Parser::parse` with an arbitrary VM | replay of the events of the parse forest |
| C61 | `Model/Peekables` | induction on nesting |
| C62 | `Model/Script` | simulation between runs on two continuations, induction on fuel |
| C63 | construction + parsing of two grammars | transport of derivations along the renumbering, then lock-step simulation |
| C64 | `Model/ParserData` | the interning invariant of C08 over construction histories |
| C65 | `Model/VMs` against `Spec/Ideal` (unlimited integers) | one-instruction simulation per machine and build kind, lifted to whole parses (`Proofs/VmSim`) |
| C66 | `Model/VMs`, `Model/Script`, `Model/Tree` | the tree of a parse always has an insertion history, so looking at it cannot panic; then C29 |
| C67 | `Model/First`, `Model/Script` with their depth parameter | chains of left corners have no repetition, hence at most as many members as rules; between consumed characters likewise; exactness from C68 |
| C68 | `Model/Script` against `Spec/TopDown` | soundness by induction on the depth, completeness by induction on the reading |
| C69 | `Model/Main` (arguments, an abstract file reader, `NullVm`) | composition of C59, C67, C68 |
| C70 | `Model/Display` | digits cannot run into the following text; prefix comparison by cases |
| C71 | `Model/First`, `Model/Follow`, `Model/Steuer`, `Spec/GrammarErr` | every error traced to its cause through the loops; the names of the follow graph are the rules; keys of the map come from earlier alternatives; left-corner chains bound the depth also with undefined symbols |
| C72 | `Model/RuleParsing`, `Model/Script`, `Spec/SameRules` | both texts denote grammar data (C40); the data differ by the renumbering that sends an element to the number of the renamed element; then C63. A built parser shows that ignore productions are defined, so no hypothesis about them is needed |
| C73 | `Model/RuleParserApi` (`parse_rules` as an operation on the parser object, including what stays in the object after an error) | false in general (`C73_refuted`, a concrete text; after the second call no parser can be built). Proved: further calls succeed and keep text position, elements and rules without override; with no override in force nothing changes; exact effect of the second call on an overridden rule |
| C74 | same | soundness of the rule loop up to the failing rule; the editing step works on copies, so its failure leaves the data as read, and fails again for every hash order |
| C75 | `Spec/RuleText` only, through the reader model | both readings are accepted by the (deterministic) reader, which yields its keys, rule and remaining text; keys determine the written rule |
| C76 | `Spec/Printing` (a printer, not part of the code), `Model/RuleParsing` | the printed text is in the syntax (structural); reading it gives data equal up to the renumbering element ↦ position of its key in the text, elements no rule uses dropped; then C63 (generalised to unused elements). Limits from C41 |
| C77 | `Spec/Prepared` (syntax with what an override says, `ReadInto`), `Model/RuleParserApi` | the invariant of C40/C41 generalised from the empty start to any data with consistent element tables (`IntoOk`), completeness and soundness of the loop; weaving by the spec of `edit_rules` |
| C78 | `Model/Tree` | invariant over arbitrary call histories (`TRun`): every stored index denotes a slot that was handed out |
| C79 | `Model/Tree` | false of the code: nine successful calls make a sibling list cyclic (refuted for every number of steps); proved for removals after insertions |
| C80 | `Model/Tree` | remove_branch: proved; add_node: false of the code (the popped slot index is lost, so removed nodes come back), refuted, and the part that holds proved for every tree |
| C81 | `Model/RuleParsing`, `Model/RuleParserApi`; `Spec/Parts` (call histories) | invariant over call histories, then the completeness and soundness of the rule reader from any such state |
| C82 | as C81 | the reading direction proved; the converse is false of the code (an unfinished terminal is swallowed with the rest of the text): refuted, and proved whenever some text is left |
| C83 | `Model/Script`, `Model/Tree`; `Spec/Walk` | soundness and completeness of the walk by induction on depth and on the top-down derivation; simulation by a parse without tree and VM |
| C84 | as C83 | invariant: no free slot, links inside, existing nodes stay |
| C85 | as C83 | false of the code (slots are freed twice): refuted twice (a tree error for a valid script; Ok with text missing in the tree); proved: same outcome or a tree error, and pruning at the end is harmless |
| C86 | Parser.parse with a metered VM (`Meters`), Forest.size | induction on the call depth with a potential: chains of left corners are bounded by the number of rules because accepted grammars are not left recursive; trees by induction on `IsForest`; lower bound by a parametric grammar family shown Acceptable |
| C87 | propagate, getFirstSets, newFromParserData with their fuel | invariant: after k rounds every member still missing somewhere has reached more than k nodes (rounds are simultaneous, so a change in a round means a change in all earlier ones) |
| C88 | Unneeded rules (Spec/Unused `Restricted`, `SelfContained` on texts) | false of the code: FOLLOW counts what unneeded rules put behind a symbol, so they can prevent construction (C88_construction_refuted) and make trailing text acceptable (C88_parse_refuted). Proved: without them a parser is still built, the language is the same, every successful parse stays successful with the same tree, state and rest when they are added, every rejected script is rejected at the same place when they are removed (monotonicity of derivations and control sets, C83, C28) |
| C89 | the fuel arguments of all modelled functions | a result order (`timeout` below everything) respected by every operation, by induction on the limit; with C24 one outcome per parse |
| C90 | `parseRules`/`editRules` (RuleParsing), `Parser.newFromText`, `Parser.parse`; spec `SameMeaning` (Spec/SameMeaning) | both texts mean woven grammars that are renumberings of each other (`SameMeaning.renumbered`), then C63 |
| C91 | `Parser.newFromParserData`, `Parser.newFromText`, `Parser.parse`; spec `Extends`, `ExtendsRules`, `Complete` (Spec/Extend) | derivations, FIRST/FOLLOW/control members and top-down walks are monotone (`Ext.*`); disjointness transfers down by C16; texts via C90 to a text that has the old one as a prefix |
| C92 | `parseRules`/`editRules`, `Parser.newFromText`, `Parser.parse`; spec `Tokens`, `Sprinkled`, `Separated`, `AllIgnore` (Spec/Ignoring) | induction on `Spells` with the relation `Put` (ignore names put in) and back by induction on `Tokens`; connected to the parser by C21/C22 |
| C93 | `Parser.newFromText`; spec `LeadsEverywhere`, `LeadsDiffer` (Spec/Simple) | control sets of such alternatives are single characters (`control_lead`), no left corners, then C16; weaving keeps the first element (`leadChar_between`) |
| C94 | `parseElement`, `parseQuoted`, `parseVarName` (RuleParsing, ParseFuncs); spec `ElemOutcome` (Spec/Element) | case analysis on the text ahead, C07 for quotes; both directions of the iff from totality of the specification |
| C95 | Spec/Failing.lean `Stops` (where reading stops, with the trees walked before) and `Stop.Shows` (the error, unread text and state of a stop) | induction over the call depth and the elements (Proofs/Failing.lean), both directions; C95_walk_or_stop: with C24 nothing else can happen |
| C96 | Spec/TextTree.lean: `WrittenTrees` (trees and tokens by the written rules), `Cleaned` (leaving out every second child of overridden names) | induction over derivation forests (Proofs/TextTree.lean); uniqueness from unambiguity of the woven grammar (C19) |
| C97 | `Peekables`, `ParseFuncs`; `Spec/SectionReading` (programs of reading calls) | relation between the section process and the plain process (`InBody`), every call preserves it with equal answers, then induction over programs |
| C98 | `Tree`, any history (`TRun`) | what one call does to slots, keys and the free list; keys and free slots stay below the counter (invariant by induction over the history) |
| C99 | `TestHelpers` | induction on the text against the image of the characters |
| C100 | Spec/CalcTotal (`calcRun`: total evaluation, no grammar or machine) against Model/VMs, Model/Examples | Proofs/CalcTotal: digit-by-digit value by induction, wrap-around arithmetic modulo 2^64, then induction over words |
| C101 | Spec/Whole (`Closing`, `ClosingNames`) over the grammar data and the written rules | Props/Whole: closing names stay last under derivation, so nothing follows them; induction over the top-down reading (`parse_walk`); calculators by a checked condition on their rules |
| C102 | parseProd, parseAlts of Model/RuleParsing in any state reached by PartRun; AltReads, AltsReads of Spec/Element say what is read | soundness by induction on the fuel of the production loop and the loop over alternatives (the end of the production is recorded: NoMore), completeness by induction on the sequence of elements resp. on AltsReads; both directions together give the equivalence |
| C103 | parseRules; Spec/Earliest: FollowsSyntax, Viable, ReportedAt, ReadsInTurn | every part of the rule parser is shown to depend only on the text up to the first character it leaves, with explicit completions of what was read; completeness of rule reading then excludes continuations; ReadsInTurn proved for the four VMs |
| C104 | `Model/PeekMut`, `Spec/Writing` (the same process over another text) | induction on the nesting depth; reading with next depends only on the character handed out; boundary cases (section end overwritten, peek before the write) proved as separate theorems |
| C105 | `Model/RuleParsing`, `Spec/RuleText` (the texts of rules) | induction on the rule text: each rule is read exactly to its end (completeness of `parseRule` and what it has read), then the name reader fails at the character |
| C106 | `Spec/Postfix` (expressions, values, reverse Polish notation) over the calculators of C53/C100 | induction on the expression, for the evaluation of words and for the total machine |
| C107 | `Spec/Simple`, `Spec/Keywords`, `Spec/Woven` (Spells) | every parse tree of a simple grammar is found by predictive reading whatever follows (induction on trees), then C68; keyword texts: induction on the text |
| C108 | `Model/ExampleMains` | C53 and C106 at the script of the programs, C89 for the limits; the readme text is read by kernel evaluation of the rule parser for every character class |
| C109 | `Model/VMs` | case analysis on the instruction and the invariance of parses under relations that every instruction keeps (`Keeps.parse`); C54 for the counter |
| C110 | big-step semantics `Performs` of scripts by names and written alternatives (Spec/Executing) | the parse forest of C26 and the meaning of the text (C40) give the derivation; conversely the forest of a derivation is the only one (C19) and C60 leaves only its run |
| C111 | Spec/Productive (completable, longest completable beginning, position of an error), the parse model | C28 gives a viable prefix and the first bad character, productivity turns forms into texts; Props/Productive, with a grammar that shows the hypothesis is needed |
| C112 | Spec/Expected (what can come next, grammars whose FOLLOW sets fit everywhere), the parse model | refuted in both directions by a concrete grammar with an optional part; proved exactly for grammars in which the FOLLOW set of a name that can be empty fits wherever the name stands (in particular if nothing is empty), by induction on the stop of the parse, comparing it with a top-down reading of another text with the same beginning; in general each listed lookahead is possible or is a FOLLOW lookahead of a name that can be empty |
| C113 | Spec/CalcNext (beginnings of words, what can come next in a word, the message), the parse model on the example grammars | C111 and C112 for the example grammars: their names are productive and their FOLLOW sets fit wherever the names stand, by a local condition (Proofs/Fits) whose soundness is proved by induction on leftmost derivations and that is checked in the kernel from the FIRST and FOLLOW sets computed by the model; what can come next in a sequence of words by case analysis of the last word; the two kinds of errors are told apart by an invariant of the derivations (letters inside print never come first) and by induction on the stop |
| C114 | Model/ParseFuncs on `Nest n` (any depth, any state) | induction on the loop bound; `next` after `peek` returns the same character unless it is a stop character (`next_of_peek`); the end of a section stays the end (`end_stays`) |
| C115 | Spec/Breaking (`Breaks`, `Why.Reports`) over the written rules and `Performs` of C110 | induction on `Stops` (C95), with `walk_runs` (a walk is a run of the events) and `performs_of_forest`; the list of lookaheads by `predict_control` |
| C116 | Model/VMs (stackParse), Model/RuleParsing | the reading steps of StackVm are shown to depend only on what they read and the next character (OutL), then lifted through sections and rules with the Ends calculus of C103 |
| C117 | Model/Examples, Model/RuleParsing, Model/Script | the grammar read from the file is computed and shown to be a renumbering of the one built in Rust, then C63 |
| C118 | Model/Script, Model/RuleParsing, Model/VMs, Model/Examples | two grammars with the same elements and alternatives have the same control sets, so the same lookahead maps up to order; a simulation through parse_production keeps process and tree equal and the states related (Proofs/Effects) |
| C119 | Model/VMs, Model/Script, Model/Examples | one instruction of each machine against the same step of the machine with unlimited numbers (C65); sections by induction; whole parses by C118, whose facts about trees now may depend on the texts of the grammar's terminals (Proofs/Words) |
| C120 | Model/VMs, Model/Script, Model/Examples | from the word-by-word description of every run (C100), which composes (Props/Pieces) |
| C121 | Model/Script, Model/RuleParsing | FIRST, FOLLOW and control sets of a grammar and its marked version are compared (Proofs/EndMark), the walks of both are matched, and texts are brought to this case by renaming (Proofs/EndMarkText, Props/EndMark) |
| C122 | Model/Script, Model/Follow, Model/Steuer | grammars with and without the name derive the same forms in both directions and the LL(1) condition is transferred (Proofs/Factor); forests of the one are spliced into forests of the other and executed alike (Proofs/FactorWalk, Props/Factor). Rule texts are brought to this case by renumbering the elements so that the name is the last (Proofs/FactorText, Props/FactorText) |
| C123 | Model/Script, Model/RuleParsing | Spec/Repeats states the form of the rules and the tree; performances by the written rules (C110) are continued by induction, with trees that show a given subtree at a given node; for the converse a machine that goes on after a panic is made of the given one (Props/Repeats) |

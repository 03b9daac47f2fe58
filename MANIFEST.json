{
 "claims": [
  {
   "property": "C01",
   "status": "proved",
   "theorems": [
    "HPP.C01_position_counts_characters",
    "HPP.C01_answers_are_next_characters"
   ],
   "note": "Any nesting depth (type Nest n), any call sequence."
  },
  {
   "property": "C02",
   "status": "proved",
   "theorems": [
    "HPP.C02_peek_predicts_next"
   ],
   "note": ""
  },
  {
   "property": "C03",
   "status": "proved",
   "theorems": [
    "HPP.C03_section",
    "HPP.C03_section_ends_at_stop",
    "HPP.C03_never_ends"
   ],
   "note": "Stop and escape characters must differ (they do in the code: '}' and backslash)."
  },
  {
   "property": "C04",
   "status": "partial",
   "theorems": [
    "HPP.C04_peek_predicts_next_partial",
    "HPP.C04_refuted",
    "HPP.C04_exactly"
   ],
   "note": "False of the code for an escaped stop character (peek sets the escape flag, the following next clears it): refuted; proved everywhere else. C04_exactly: the exact places where it fails."
  },
  {
   "property": "C05",
   "status": "proved",
   "theorems": [
    "HPP.C05_usize",
    "HPP.C05_isize",
    "HPP.C05_isize_minus",
    "HPP.C05_usize_round_trip",
    "HPP.C05_isize_round_trip",
    "HPP.C05_usize_errors",
    "HPP.C05_isize_errors"
   ],
   "note": "64-bit target."
  },
  {
   "property": "C06",
   "status": "proved",
   "theorems": [
    "HPP.C06_whitespace",
    "HPP.C06_character_classes",
    "HPP.C06_var_name",
    "HPP.C06_symbol",
    "HPP.C06_var_name_error"
   ],
   "note": ""
  },
  {
   "property": "C07",
   "status": "proved",
   "theorems": [
    "HPP.C07_quoted",
    "HPP.C07_quoted_needs_quote",
    "HPP.C07_quoted_errors"
   ],
   "note": ""
  },
  {
   "property": "C08",
   "status": "proved",
   "theorems": [
    "HPP.C08_lookup",
    "HPP.C08_index_stable",
    "HPP.C08_same_index",
    "HPP.C08_different_index",
    "HPP.C08_bijection",
    "HPP.C08_new_index",
    "HPP.C08_by_name"
   ],
   "note": ""
  },
  {
   "property": "C09",
   "status": "proved",
   "theorems": [
    "HPP.C09_productions",
    "HPP.C09_productions_never_set",
    "HPP.C09_instructions",
    "HPP.C09_instructions_never_set",
    "HPP.C09_defined_iff",
    "HPP.C09_independent"
   ],
   "note": "set_productions with an empty list on an index without a rule creates no rule (C09_defined_iff)."
  },
  {
   "property": "C10",
   "status": "proved",
   "theorems": [
    "HPP.C10_first_sets_exact"
   ],
   "note": ""
  },
  {
   "property": "C100",
   "status": "proved",
   "theorems": [
    "HPP.C100_simple",
    "HPP.C100_stack",
    "HPP.C100_release_numbers"
   ],
   "note": ""
  },
  {
   "property": "C101",
   "status": "proved",
   "theorems": [
    "HPP.C101_whole_script",
    "HPP.C101_accepts_language",
    "HPP.C101_rejects_rest",
    "HPP.C101_text_whole_script",
    "HPP.C101_calculators_exact",
    "HPP.C101_calculators_any_text"
   ],
   "note": "conditions in Spec/Whole"
  },
  {
   "property": "C102",
   "status": "proved",
   "theorems": [
    "HPP.C102_alternative",
    "HPP.C102_alternatives",
    "HPP.C102_otherwise_error",
    "HPP.C102_lost"
   ],
   "note": "exact characterisation, both directions, of parse_production and parse_possible_productions after any history; needs that no white space character is a name character (SpaceOk, true of Unicode)"
  },
  {
   "property": "C103",
   "status": "proved",
   "theorems": [
    "HPP.C103_earliest",
    "HPP.C103_unfinished",
    "HPP.C103_ended",
    "HPP.nullVm_inTurn",
    "HPP.countingVm_inTurn",
    "HPP.simpleStackVm_inTurn",
    "HPP.stackVm_inTurn"
   ],
   "note": "Errors reported by the VM inside a section are excluded (FromSection); ReadsInTurn is proved for NullVm, CountingVm, SimpleStackVm and StackVm."
  },
  {
   "property": "C104",
   "status": "proved",
   "theorems": [
    "HPP.C104_write_changes_next_character",
    "HPP.C104_write_read_back",
    "HPP.C104_as_if_written_before",
    "HPP.C104_section_end_can_be_overwritten",
    "HPP.C104_peeked_escape_is_remembered"
   ],
   "note": "Model/PeekMut"
  },
  {
   "property": "C105",
   "status": "proved",
   "theorems": [
    "HPP.C105_between_rules",
    "HPP.C105_no_comments"
   ],
   "note": "Instruction sections of the rules read before are those the VM reads; README shows // comments, the code rejects them."
  },
  {
   "property": "C106",
   "status": "proved",
   "theorems": [
    "HPP.C106_simple",
    "HPP.C106_stack",
    "HPP.C106_new_machine",
    "HPP.C106_release",
    "HPP.C106_checked_panics"
   ],
   "note": "Numbers of at most 2^32 digits without overflow checks, 20/19 with them (C52)."
  },
  {
   "property": "C107",
   "status": "proved",
   "theorems": [
    "HPP.C107_accepts_iff",
    "HPP.C107_prefix_free",
    "HPP.C107_keywords"
   ],
   "note": "rule-text level"
  },
  {
   "property": "C108",
   "status": "proved",
   "theorems": [
    "HPP.C108_example_programs",
    "HPP.C108_missing_file",
    "HPP.C108_readme_rules",
    "HPP.C108_printed_numbers"
   ],
   "note": "Output before a panic is not kept in the model of the mains."
  },
  {
   "property": "C109",
   "status": "proved",
   "theorems": [
    "HPP.C109_new_machine",
    "HPP.C109_new_counter",
    "HPP.C109_output_only_grows"
   ],
   "note": ""
  },
  {
   "property": "C11",
   "status": "proved",
   "theorems": [
    "HPP.C11_first_of_sequence",
    "HPP.C11_first_of_sequence_succeeds"
   ],
   "note": ""
  },
  {
   "property": "C110",
   "status": "proved",
   "theorems": [
    "HPP.C110_parse_performs",
    "HPP.C110_performed_is_parsed",
    "HPP.C110_one_meaning",
    "HPP.C110_library_machines"
   ],
   "note": "big-step semantics of scripts by the written rules"
  },
  {
   "property": "C111",
   "status": "proved",
   "theorems": [
    "HPP.C111_error_position",
    "HPP.C111_error_position_text",
    "HPP.C111_same_position",
    "HPP.C111_productive_needed"
   ],
   "note": "data and rule text; productivity of the names is needed (witness)"
  },
  {
   "property": "C112",
   "status": "partial",
   "theorems": [
    "HPP.C112_expected_refuted",
    "HPP.C112_expected_exact_partial",
    "HPP.C112_listed_partial",
    "HPP.C112_expected_text_partial"
   ],
   "note": "False of the code in both directions: refuted; exact if the FOLLOW set of every name that can be empty fits wherever the name stands (in particular if nothing is empty); in general listed lookaheads are possible or FOLLOW lookaheads of a name that can be empty. Missing: the claim for grammars in which what may follow a name that can be empty depends on the place."
  },
  {
   "property": "C113",
   "status": "proved",
   "theorems": [
    "HPP.C113_calculator_messages",
    "HPP.C113_every_other_text",
    "HPP.C113_determined"
   ],
   "note": "all three example calculators"
  },
  {
   "property": "C114",
   "status": "proved",
   "theorems": [
    "HPP.C114_whitespace",
    "HPP.C114_digits",
    "HPP.C114_usize",
    "HPP.C114_isize",
    "HPP.C114_symbol",
    "HPP.C114_var_name"
   ],
   "note": "any nesting depth, any state of the processes"
  },
  {
   "property": "C115",
   "status": "proved",
   "theorems": [
    "HPP.C115_failed_script",
    "HPP.C115_panicking_script",
    "HPP.C115_every_script"
   ],
   "note": "Told by names, alternatives and instructions of the rule text; cases: a failing and a panicking script of a counting machine."
  },
  {
   "property": "C116",
   "status": "proved",
   "theorems": [
    "HPP.C116_any_vm",
    "HPP.C116_stackVm",
    "HPP.C116_unfinished"
   ],
   "note": "General over VMs that read and fail in turn, instantiated for StackVm; the exempt constant is shown to exist in the text (BigConst)."
  },
  {
   "property": "C117",
   "status": "proved",
   "theorems": [
    "HPP.C117_same_calculator"
   ],
   "note": "Props/SameCalc"
  },
  {
   "property": "C118",
   "status": "proved",
   "theorems": [
    "HPP.C118_built_iff",
    "HPP.C118_parse",
    "HPP.C118_any_sections",
    "HPP.C118_text_built_iff",
    "HPP.C118_text_parse",
    "HPP.C118_text_any_sections",
    "HPP.C118_shipped_machines",
    "HPP.C118_calculators"
   ],
   "note": "any two VMs; the calculators compared in builds without overflow checks"
  },
  {
   "property": "C119",
   "status": "proved",
   "theorems": [
    "HPP.C119_same_words",
    "HPP.C119_small_texts",
    "HPP.C119_fresh",
    "HPP.C119_calculators",
    "HPP.C119_rust_calculator"
   ],
   "note": "Spec/Words, Props/Words"
  },
  {
   "property": "C12",
   "status": "proved",
   "theorems": [
    "HPP.C12_first_terminates_iff",
    "HPP.C12_left_recursive_never_ok",
    "HPP.C12_left_recursive_diverges"
   ],
   "note": ""
  },
  {
   "property": "C120",
   "status": "proved",
   "theorems": [
    "HPP.C120_simple",
    "HPP.C120_stack",
    "HPP.C120_scripts"
   ],
   "note": "Spec/Pieces, Props/Pieces"
  },
  {
   "property": "C121",
   "status": "proved",
   "theorems": [
    "HPP.C121_built_iff",
    "HPP.C121_accepts",
    "HPP.C121_accepts_only",
    "HPP.C121_unread",
    "HPP.C121_data_built_iff",
    "HPP.C121_data_accepts",
    "HPP.C121_data_accepts_only",
    "HPP.C121_data_unread",
    "HPP.C121_library_machines",
    "HPP.C121_decides"
   ],
   "note": "rule texts (any, with a written version of the marked rules) and grammar data; VMs must leave the tree alone and see only what their node shows (true of the four library machines)"
  },
  {
   "property": "C122",
   "status": "proved",
   "theorems": [
    "HPP.C122_same_texts",
    "HPP.C122_built_iff",
    "HPP.C122_accepts",
    "HPP.C122_accepts_only",
    "HPP.C122_same_position",
    "HPP.C122_data_language",
    "HPP.C122_data_built_iff",
    "HPP.C122_data_accepts",
    "HPP.C122_data_accepts_only",
    "HPP.C122_data_same_position",
    "HPP.C122_library_machines",
    "HPP.C122_blind_instructions",
    "HPP.C122_same_outcome"
   ],
   "note": "for every rule text (Spec.NamedText: the name is used in rules without override) and every ParserData (Spec.Named) and every version with a name for a sequence of elements that begins with an element that does not stand for the empty text; C122_same_texts assumes that what the ignore productions use is defined (otherwise neither text gives a parser); parsing for VMs that see only the texts of the children and blind instructions at the rules that mention the name"
  },
  {
   "property": "C123",
   "status": "proved",
   "theorems": [
    "HPP.C123_pieces",
    "HPP.C123_whole",
    "HPP.C123_texts",
    "HPP.C121_library_machines",
    "HPP.C123_many",
    "HPP.C123_conversely"
   ],
   "note": "rule texts whose alternatives of start are empty or end in start (Spec.RepeatsStart), start without instructions; VMs that see only what their node shows (C121_library_machines: those of the library do); C123_whole for VMs that never panic"
  },
  {
   "property": "C13",
   "status": "proved",
   "theorems": [
    "HPP.C13_follow_sets_exact"
   ],
   "note": ""
  },
  {
   "property": "C14",
   "status": "proved",
   "theorems": [
    "HPP.C14_follow_terminates",
    "HPP.C14_follow_returns",
    "HPP.C14_follow_succeeds"
   ],
   "note": ""
  },
  {
   "property": "C15",
   "status": "proved",
   "theorems": [
    "HPP.C15_steuer_sets",
    "HPP.C15_steuer_sets_grammar"
   ],
   "note": ""
  },
  {
   "property": "C16",
   "status": "proved",
   "theorems": [
    "HPP.C16_conflict_detection_exact",
    "HPP.C16_empty_terminal_rejected",
    "HPP.C16_parser_built_iff"
   ],
   "note": ""
  },
  {
   "property": "C17",
   "status": "proved",
   "theorems": [
    "HPP.C17_undefined_rejected"
   ],
   "note": ""
  },
  {
   "property": "C18",
   "status": "proved",
   "theorems": [
    "HPP.C18_construction_deterministic",
    "HPP.C18_parse_deterministic"
   ],
   "note": "Same outcome, VM state and unread text for all hash orders at construction and parse; only the print order of the expected list may differ."
  },
  {
   "property": "C19",
   "status": "proved",
   "theorems": [
    "HPP.C19_unambiguous",
    "HPP.C19_unambiguous_nt",
    "HPP.C19_tree_iff_language",
    "HPP.C19_unused_may_be_ambiguous"
   ],
   "note": "Uniqueness of parse trees; the restriction to followed non-terminals is shown necessary."
  },
  {
   "property": "C20",
   "status": "partial",
   "theorems": [
    "HPP.C20_accepted_is_LL1",
    "HPP.C20_LL1_accepted_partial",
    "HPP.C20_LL1_accepted_confined_partial",
    "HPP.C20_rejection_explained_partial",
    "HPP.C20_refuted"
   ],
   "note": "Accepted => LL(1) is proved. The converse is false of the code (C20_refuted: the control sets use FOLLOW of the first element); it is proved when what follows a leading nullable element elsewhere predicts the alternative anyway (C20_LL1_accepted_confined_partial), and every wrong rejection is explained by a leading nullable element (C20_rejection_explained_partial)."
  },
  {
   "property": "C21",
   "status": "proved",
   "theorems": [
    "HPP.C21_parse_sound"
   ],
   "note": "Any VM."
  },
  {
   "property": "C22",
   "status": "proved",
   "theorems": [
    "HPP.C22_parse_complete"
   ],
   "note": "For VMs that neither panic nor edit the tree."
  },
  {
   "property": "C23",
   "status": "partial",
   "theorems": [
    "HPP.C23_trailing_input_refuted",
    "HPP.C23_consumed_all_partial"
   ],
   "note": "The claim is false of the code (trailing input is accepted): refuted by a concrete grammar; partial: Ok with nothing unread iff in the language."
  },
  {
   "property": "C24",
   "status": "proved",
   "theorems": [
    "HPP.C24_parse_terminates"
   ],
   "note": "Any VM whose instructions return."
  },
  {
   "property": "C25",
   "status": "proved",
   "theorems": [
    "HPP.C25_tree_is_derivation_tree"
   ],
   "note": "For VMs that do not edit the tree."
  },
  {
   "property": "C26",
   "status": "proved",
   "theorems": [
    "HPP.C26_instructions_in_post_order"
   ],
   "note": "For VMs that do not edit the tree."
  },
  {
   "property": "C27",
   "status": "proved",
   "theorems": [
    "HPP.C27_error_positions"
   ],
   "note": "Any parser value, any VM."
  },
  {
   "property": "C28",
   "status": "proved",
   "theorems": [
    "HPP.C28_viable_prefix",
    "HPP.C28_fails_at_first_bad_character"
   ],
   "note": "First half for any VM and outcome."
  },
  {
   "property": "C29",
   "status": "proved",
   "theorems": [
    "HPP.C29_only_syntax_errors"
   ],
   "note": "For VMs that neither panic nor edit the tree, and the start index being the non-terminal named start."
  },
  {
   "property": "C30",
   "status": "partial",
   "theorems": [
    "HPP.C30_start_index_refuted",
    "HPP.C30_parses_from_start_partial"
   ],
   "note": "The claim is false of the code (start_idx is ignored by parse): refuted; partial: parsing always starts from the non-terminal named start."
  },
  {
   "property": "C31",
   "status": "proved",
   "theorems": [
    "HPP.C31_expected_list_exact"
   ],
   "note": ""
  },
  {
   "property": "C32",
   "status": "proved",
   "theorems": [
    "HPP.C32_add_results",
    "HPP.C32_tree_is_forest",
    "HPP.C32_failed_add_changes_nothing"
   ],
   "note": "All add_node histories; usize counter wrap-around after 2^64 insertions not modelled."
  },
  {
   "property": "C33",
   "status": "proved",
   "theorems": [
    "HPP.C33_ids_never_alias"
   ],
   "note": "All histories of add_node and remove_branch calls that return, failing ones included."
  },
  {
   "property": "C34",
   "status": "partial",
   "theorems": [
    "HPP.C34_removed_partial",
    "HPP.C34_get_node_mut_refuses_partial",
    "HPP.C34_refuted"
   ],
   "note": "Proved for removals after all insertions; in any history get_node_mut refuses the removed nodes; the full property is refuted (a removed node whose id has pointer different from key can still be read by get_node)."
  },
  {
   "property": "C35",
   "status": "partial",
   "theorems": [
    "HPP.C35_undamaged_partial",
    "HPP.C35_refuted"
   ],
   "note": "Proved up to the first insertion after removals; the full property is refuted (double free: two nodes share one slot)."
  },
  {
   "property": "C36",
   "status": "proved",
   "theorems": [
    "HPP.C36_reads",
    "HPP.C36_calls",
    "HPP.C36_nextId_unique"
   ],
   "note": "All call histories including merges; unknown sources panic as in the code."
  },
  {
   "property": "C37",
   "status": "proved",
   "theorems": [
    "HPP.C37_path_lookup",
    "HPP.C37_find_node"
   ],
   "note": "Nodes visited by proper prefixes must exist (add_edge does not check its target)."
  },
  {
   "property": "C38",
   "status": "proved",
   "theorems": [
    "HPP.C38_merge"
   ],
   "note": "All pairs of API-built graphs."
  },
  {
   "property": "C39",
   "status": "proved",
   "theorems": [
    "HPP.C39_calls",
    "HPP.C39_reads"
   ],
   "note": "All histories of successful calls; a failing call returns before it changes anything, so the model returns no new graph for it."
  },
  {
   "property": "C40",
   "status": "proved",
   "theorems": [
    "HPP.C40_accepts",
    "HPP.C40_accepts_stackVm",
    "HPP.C40_accepts_simpleStackVm"
   ],
   "note": "Every text described by the declarative syntax RulesText (Spec/RuleText) is accepted under every hash order and yields the data MeansWoven describes. Sections are those the VM accepts (exactly characterised for the built-in VMs). Requires that everything used by an ignore production is defined, and the Unicode fact that white space is not alphanumeric."
  },
  {
   "property": "C41",
   "status": "proved",
   "theorems": [
    "HPP.C41_only_wellformed",
    "HPP.C41_only_wellformed_stackVm",
    "HPP.C41_only_wellformed_simpleStackVm",
    "HPP.C41_only_wellformed_nullVm"
   ],
   "note": "For every VM that only reads its section."
  },
  {
   "property": "C42",
   "status": "partial",
   "theorems": [
    "HPP.C42_ignore_directive_refuted",
    "HPP.C42_override_partial"
   ],
   "note": "The property is false: the documented directive is always rejected. The per-rule override works."
  },
  {
   "property": "C43",
   "status": "proved",
   "theorems": [
    "HPP.C43_between",
    "HPP.C43_weaving",
    "HPP.C43_weaving_error"
   ],
   "note": ""
  },
  {
   "property": "C44",
   "status": "proved",
   "theorems": [
    "HPP.C44_derivative_check",
    "HPP.C44_derivative_check_defined"
   ],
   "note": ""
  },
  {
   "property": "C45",
   "status": "proved",
   "theorems": [
    "HPP.C45_repeated_rules_merge"
   ],
   "note": "Also says what the override of the first definition does."
  },
  {
   "property": "C46",
   "status": "proved",
   "theorems": [
    "HPP.C46_returns"
   ],
   "note": "Ok or Err, never a panic or an endless run, for every text and every VM that only reads its section and returns."
  },
  {
   "property": "C47",
   "status": "partial",
   "theorems": [
    "HPP.C47_escaped_quote_refuted",
    "HPP.C47_verbatim_partial"
   ],
   "note": "The property is false: the backslash stays in the terminal. Proved: a terminal stands for its written characters verbatim."
  },
  {
   "property": "C48",
   "status": "proved",
   "theorems": [
    "HPP.C48_vm_sees_section",
    "HPP.C48_no_section",
    "HPP.nullVm_onlyReads",
    "HPP.countingVm_onlyReads",
    "HPP.simpleStackVm_onlyReads",
    "HPP.stackVm_onlyReads"
   ],
   "note": "single call with sectionProcess; what reading it yields is C03"
  },
  {
   "property": "C49",
   "status": "proved",
   "theorems": [
    "HPP.C49_round_trip",
    "HPP.C49_plain_decimal"
   ],
   "note": "all isize constants; negative ones by their bit pattern"
  },
  {
   "property": "C50",
   "status": "partial",
   "theorems": [
    "HPP.C50_refuted",
    "HPP.C50_accepts_exactly_partial",
    "HPP.C50_constant_too_large_partial",
    "HPP.C50_any_text_partial"
   ],
   "note": "full property is false: unknown names are skipped and constants from 2^63 on wrap; exact acceptance characterisation proved"
  },
  {
   "property": "C51",
   "status": "proved",
   "theorems": [
    "HPP.C51_underflow_simple",
    "HPP.C51_underflow",
    "HPP.C51_error_kept_simple",
    "HPP.C51_error_kept",
    "HPP.C51_error_kept_parse_simple",
    "HPP.C51_error_kept_parse"
   ],
   "note": "both stack machines; single instructions and whole parses"
  },
  {
   "property": "C52",
   "status": "partial",
   "theorems": [
    "HPP.C52_number_simple_release",
    "HPP.C52_number_stack_release",
    "HPP.C52_number_simple_partial",
    "HPP.C52_number_stack_partial",
    "HPP.C52_number_simple_panics",
    "HPP.C52_long_digits_refuted",
    "HPP.C52_twenty_digits_wrap",
    "HPP.C52_number_stack_panics"
   ],
   "note": "True in builds without overflow checks. In builds with overflow checks the statement is false (C52_long_digits_refuted: 21 zeros panic); proved for at most 20 digits, with the exact panic condition."
  },
  {
   "property": "C53",
   "status": "proved",
   "theorems": [
    "HPP.C53_examples_built",
    "HPP.C53_simple",
    "HPP.C53_stack",
    "HPP.C53_rust",
    "HPP.C53_only_scripts",
    "HPP.C53_simple_sound",
    "HPP.C53_stack_sound"
   ],
   "note": "for all three example programs; builds with overflow checks: numbers of at most 20 digits (C52)"
  },
  {
   "property": "C54",
   "status": "proved",
   "theorems": [
    "HPP.C54_counts",
    "HPP.C54_counts_sections",
    "HPP.C54_section_or_not",
    "HPP.C54_text_counts",
    "HPP.C54_text_counts_or_panics"
   ],
   "note": "Both builds: checked (exact count, panics exactly when the sum does not fit in 64 bits) and wrapping (count modulo 2^64); at the level of grammars and of rule texts."
  },
  {
   "property": "C55",
   "status": "proved",
   "theorems": [
    "HPP.C55_null_state",
    "HPP.C55_outcome_independent"
   ],
   "note": "Also: every non-panicking, non-editing VM gives the same outcome."
  },
  {
   "property": "C56",
   "status": "partial",
   "theorems": [
    "HPP.C56_negative_refuted",
    "HPP.C56_one_minus_two_refuted",
    "HPP.C56_negative_wraps",
    "HPP.C56_stack_negative_partial"
   ],
   "note": "False for SimpleStackVm (usize underflow panics with overflow checks, wraps without; closed instance: the script 1 2 - panics); holds for StackVm as long as the value fits isize."
  },
  {
   "property": "C57",
   "status": "proved",
   "theorems": [
    "HPP.C57_built_data_wellFormed"
   ],
   "note": ""
  },
  {
   "property": "C58",
   "status": "proved",
   "theorems": [
    "HPP.C58_errors"
   ],
   "note": "Errors from inside a section are characterised by the VM (FromSection)."
  },
  {
   "property": "C59",
   "status": "proved",
   "theorems": [
    "HPP.C59_text_parser",
    "HPP.C59_scripts",
    "HPP.C59_built_iff"
   ],
   "note": "End to end from rule text to accepted scripts, by the declarative relation Spells on the written rules."
  },
  {
   "property": "C60",
   "status": "proved",
   "theorems": [
    "HPP.C60_accepts_or_vm_panics",
    "HPP.C60_only_vm_panics"
   ],
   "note": ""
  },
  {
   "property": "C61",
   "status": "proved",
   "theorems": [
    "HPP.C61_next_if",
    "HPP.C61_next_if_eq",
    "HPP.C61_peek_mut"
   ],
   "note": ""
  },
  {
   "property": "C62",
   "status": "proved",
   "theorems": [
    "HPP.C62_one_character_lookahead"
   ],
   "note": ""
  },
  {
   "property": "C63",
   "status": "proved",
   "theorems": [
    "HPP.C63_built_iff",
    "HPP.C63_parse_same"
   ],
   "note": ""
  },
  {
   "property": "C64",
   "status": "proved",
   "theorems": [
    "HPP.C64_elements",
    "HPP.C64_rules"
   ],
   "note": "all lookups agree after any construction history"
  },
  {
   "property": "C65",
   "status": "proved",
   "theorems": [
    "HPP.C65_stack_release",
    "HPP.C65_stack_debug",
    "HPP.C65_stack_debug_exact",
    "HPP.C65_simple_release",
    "HPP.C65_simple_debug_exact",
    "HPP.C65_text_constants",
    "HPP.C65_fresh"
   ],
   "note": "ideal machines over unlimited integers in Spec/Ideal"
  },
  {
   "property": "C66",
   "status": "proved",
   "theorems": [
    "HPP.C66_stack_release_never_panics",
    "HPP.C66_simple_release_never_panics",
    "HPP.C66_text_release_never_panics"
   ],
   "note": "release builds of both stack machines"
  },
  {
   "property": "C67",
   "status": "proved",
   "theorems": [
    "HPP.C67_first_depth",
    "HPP.C67_parse_depth",
    "HPP.C67_depth_is_tree_height",
    "HPP.C67_no_fixed_depth"
   ],
   "note": "depth = bound on nested calls in the model"
  },
  {
   "property": "C68",
   "status": "proved",
   "theorems": [
    "HPP.C68_accepts_exactly",
    "HPP.C68_reading_unique",
    "HPP.C68_otherwise_error",
    "HPP.C68_stops_only_when_forced"
   ],
   "note": "Spec/TopDown"
  },
  {
   "property": "C69",
   "status": "proved",
   "theorems": [
    "HPP.C69_wrong_usage_panics",
    "HPP.C69_exits_normally_iff",
    "HPP.C69_scripts",
    "HPP.C69_outcomes"
   ],
   "note": "Model/Main"
  },
  {
   "property": "C70",
   "status": "proved",
   "theorems": [
    "HPP.C70_numbers_in_decimal",
    "HPP.C70_syntax_error_text",
    "HPP.C70_parse_message",
    "HPP.C70_expected_list_readable",
    "HPP.C70_display_injective",
    "HPP.C70_grammar_error_text",
    "HPP.C70_operation_text",
    "HPP.C70_graph_error_text",
    "HPP.C70_parser_error_wording",
    "HPP.C70_grammar_error_wording",
    "HPP.C70_wording",
    "HPP.C70_graph_error_wording"
   ],
   "note": "Model/Display, Model/GraphError"
  },
  {
   "property": "C71",
   "status": "proved",
   "theorems": [
    "HPP.C71_first_errors",
    "HPP.C71_first_returns",
    "HPP.C71_follow_errors",
    "HPP.C71_conflict_errors",
    "HPP.C71_construction_returns",
    "HPP.C71_construction_outcomes",
    "HPP.C16_conflict_detection_exact",
    "HPP.C71_steuermaps_panics"
   ],
   "note": "Soundness of every reported grammar error; termination of construction without left recursion, defined or not."
  },
  {
   "property": "C72",
   "status": "proved",
   "theorems": [
    "HPP.C72_built_iff",
    "HPP.C72_parse_same",
    "HPP.C72_layout",
    "HPP.C72_order"
   ],
   "note": "equivalence of texts is Spec/SameRules; layout and pure reordering are the special cases C72_layout and C72_order"
  },
  {
   "property": "C73",
   "status": "partial",
   "theorems": [
    "HPP.C73_further_calls",
    "HPP.C73_again_partial",
    "HPP.C73_woven_again",
    "HPP.C73_refuted",
    "HPP.C73_exactly"
   ],
   "note": "False of the code as stated (C73_refuted: the second call inserts ignore elements again; the sample grammar becomes ambiguous). Proved for grammars without an override in force; the exact effect on overridden rules is C73_woven_again. C73_exactly: the exact condition under which a further call changes nothing."
  },
  {
   "property": "C74",
   "status": "proved",
   "theorems": [
    "HPP.C74_failed_call"
   ],
   "note": "Both ways of failing; data hold the rules as written."
  },
  {
   "property": "C75",
   "status": "proved",
   "theorems": [
    "HPP.C75_one_rule",
    "HPP.C75_one_meaning",
    "HPP.C75_one_meaning_stackVm"
   ],
   "note": "Unambiguity of the rule text syntax, for any VM's sections and for StackVm's."
  },
  {
   "property": "C76",
   "status": "proved",
   "theorems": [
    "HPP.C76_read_back",
    "HPP.C76_built_iff",
    "HPP.C76_parse_same",
    "HPP.C76_every_grammar_stackVm",
    "HPP.C76_limits"
   ],
   "note": "Round trip through the rule text, for any VM with section texts and for StackVm; C76_limits is the converse."
  },
  {
   "property": "C77",
   "status": "proved",
   "theorems": [
    "HPP.C77_reads_into",
    "HPP.C77_succeeds",
    "HPP.C77_only",
    "HPP.C77_returns"
   ],
   "note": "prepared = element tables made by requests (any order), rules and default arbitrary but in order; text position fields of the process not replaced"
  },
  {
   "property": "C78",
   "status": "proved",
   "theorems": [
    "HPP.C78_returns",
    "HPP.C78_never_panics",
    "HPP.C78_only_issued",
    "HPP.C78_exists_iff_readable"
   ],
   "note": "arbitrary interleavings, arbitrary ids; node_exists agrees with get_node in every tree"
  },
  {
   "property": "C79",
   "status": "partial",
   "theorems": [
    "HPP.C79_traversals_end_partial",
    "HPP.C79_refuted"
   ],
   "note": "false of the code because remove_branch frees a slot twice: C79_refuted gives nine successful calls after which get_children, get_descendants and remove_branch on the root never end; the partial theorem covers removals after all insertions"
  },
  {
   "property": "C80",
   "status": "partial",
   "theorems": [
    "HPP.C80_failed_remove",
    "HPP.C80_failed_add_partial",
    "HPP.C80_failed_add_refuted",
    "HPP.C80_failed_add_brings_back_partial"
   ],
   "note": "proved for remove_branch; for add_node false of the code (two failed calls bring a removed node back); proved: everything that could be read still reads the same"
  },
  {
   "property": "C81",
   "status": "proved",
   "theorems": [
    "HPP.C81_stands",
    "HPP.C81_rule",
    "HPP.C81_rule_only",
    "HPP.C81_returns"
   ],
   "note": "every call history"
  },
  {
   "property": "C82",
   "status": "partial",
   "theorems": [
    "HPP.C82_alternatives",
    "HPP.C82_alternative",
    "HPP.C82_alternative_only_partial",
    "HPP.C82_alternatives_only_partial",
    "HPP.C82_refuted"
   ],
   "note": "the reading direction is proved for every history; the converse is false of the code: parse_production swallows an unfinished terminal together with the rest of the text (C82_refuted); proved whenever some text is left"
  },
  {
   "property": "C83",
   "status": "proved",
   "theorems": [
    "HPP.C83_parse_is_walk",
    "HPP.C83_same_or_trouble",
    "HPP.C83_same_or_tree_error"
   ],
   "note": "any VM at all; Spec/Walk"
  },
  {
   "property": "C84",
   "status": "proved",
   "theorems": [
    "HPP.C84_growing_vm",
    "HPP.C84_language"
   ],
   "note": "extends C22, C29 and C55 to VMs that edit the tree"
  },
  {
   "property": "C85",
   "status": "partial",
   "theorems": [
    "HPP.C85_refuted",
    "HPP.C85_text_lost",
    "HPP.C85_prune_partial",
    "HPP.C85_prune_at_the_end_partial"
   ],
   "note": "false of the code because remove_branch frees slots twice: a valid script fails with a tree error (C85_refuted), or parse returns Ok and the tree lacks part of the text (C85_text_lost); proved: same outcome or a tree error, no panic; removing when executed for the root is harmless"
  },
  {
   "property": "C86",
   "status": "proved",
   "theorems": [
    "HPP.C86_executions",
    "HPP.C86_nodes",
    "HPP.C86_linear",
    "HPP.C86_exponential_in_rules"
   ],
   "note": "explicit linear bound on executions (any VM, also for rejected scripts) and nodes; matching exponential lower bound in the number of rules"
  },
  {
   "property": "C87",
   "status": "proved",
   "theorems": [
    "HPP.C87_follow_rounds",
    "HPP.C87_construction_bound",
    "HPP.C87_decides"
   ],
   "note": "explicit bounds; the sample shows they are attained"
  },
  {
   "property": "C88",
   "status": "partial",
   "theorems": [
    "HPP.C88_construction_refuted",
    "HPP.C88_parse_refuted",
    "HPP.C88_still_built_partial",
    "HPP.C88_same_language",
    "HPP.C88_success_kept_partial",
    "HPP.C88_failure_kept_partial",
    "HPP.C88_text_still_built_partial",
    "HPP.C88_text_success_kept_partial",
    "HPP.C88_text_failure_kept_partial"
   ],
   "note": "False of the code in both directions named by the refutations; proved: the direction that holds, for grammar data and for rule texts."
  },
  {
   "property": "C89",
   "status": "proved",
   "theorems": [
    "HPP.C89_parse",
    "HPP.C89_construction",
    "HPP.C89_construction_from_text",
    "HPP.C89_sets",
    "HPP.C89_tree",
    "HPP.C89_one_outcome"
   ],
   "note": "Also shows that the fuel of the model is only a limit."
  },
  {
   "property": "C90",
   "status": "proved",
   "theorems": [
    "HPP.C90_built_iff",
    "HPP.C90_parse_same",
    "HPP.C90_split"
   ],
   "note": "the override and the instructions in force are those of the first definition, as in the code"
  },
  {
   "property": "C91",
   "status": "proved",
   "theorems": [
    "HPP.C91_smaller_built",
    "HPP.C91_language",
    "HPP.C91_success_kept",
    "HPP.C91_text_smaller_built",
    "HPP.C91_text_success_kept",
    "HPP.C91_text_language"
   ],
   "note": "Data level and rule-text level; Extends/ExtendsRules are in Spec/Extend"
  },
  {
   "property": "C92",
   "status": "proved",
   "theorems": [
    "HPP.C92_only_ignored_added",
    "HPP.C92_plain_scripts",
    "HPP.C92_ignored_between"
   ],
   "note": "rule-text level"
  },
  {
   "property": "C93",
   "status": "proved",
   "theorems": [
    "HPP.C93_built_iff"
   ],
   "note": "rule-text level"
  },
  {
   "property": "C94",
   "status": "proved",
   "theorems": [
    "HPP.C94_element",
    "HPP.C94_unique"
   ],
   "note": "plain (not nested) processes without stop characters, as the rule parser uses them"
  },
  {
   "property": "C95",
   "status": "proved",
   "theorems": [
    "HPP.C95_failed_parse_stops",
    "HPP.C95_stop_is_reported",
    "HPP.C95_panic_iff",
    "HPP.C95_walk_or_stop"
   ],
   "note": "errors, effects and panics of an unsuccessful parse, for any virtual machine"
  },
  {
   "property": "C96",
   "status": "proved",
   "theorems": [
    "HPP.C96_written_tree",
    "HPP.C96_one_written_tree",
    "HPP.C96_layout_independent",
    "HPP.C96_written_tree_found"
   ],
   "note": "tree with ignored nodes left out, by the written rules"
  },
  {
   "property": "C97",
   "status": "proved",
   "theorems": [
    "HPP.C97_section_is_a_text",
    "HPP.C97_machine_reads_iff",
    "HPP.C97_final_escape"
   ],
   "note": "peek_mut is excluded (it ignores the end of the section, C61); C97_final_escape shows why the body must not end in a backslash."
  },
  {
   "property": "C98",
   "status": "proved",
   "theorems": [
    "HPP.C98_insertion",
    "HPP.C98_removal",
    "HPP.C98_slot_shared",
    "HPP.C98_unrelated_node_lost"
   ],
   "note": "any history"
  },
  {
   "property": "C99",
   "status": "proved",
   "theorems": [
    "HPP.C99_members",
    "HPP.C99_expressible"
   ],
   "note": ""
  }
 ]
}
{
 "claims": [
  {
   "property": "C01",
   "status": "proved",
   "theorems": [
    "Verif.Tok.c01_no_missed_match"
   ],
   "note": "Hypothesis Calm: no hash collision of keys that compare equal (CharRange ignores the end) disturbed minify; see c08_collision, and C77 for the patterns for which it always holds."
  },
  {
   "property": "C02",
   "status": "proved",
   "theorems": [
    "Verif.Tok.c02_no_spurious_match",
    "Verif.Tok.c02_empty",
    "Verif.Tok.c02_opt",
    "Verif.Tok.c02_star",
    "Verif.Tok.c02_range"
   ],
   "note": "The class is Hir.faithful (Verif/Tok/NfaSem.lean); four refutations show that the condition cannot be dropped. Hypothesis Calm: no hash collision of keys that compare equal (CharRange ignores the end) disturbed minify; see c08_collision, and C77 for the patterns for which it always holds."
  },
  {
   "property": "C03",
   "status": "proved",
   "theorems": [
    "Verif.Tok.c03_build_errors"
   ],
   "note": ""
  },
  {
   "property": "C04",
   "status": "proved",
   "theorems": [
    "Verif.Tok.c04_first_pattern_wins",
    "Verif.Tok.c04_first_pattern_wins_lang"
   ],
   "note": "Hypothesis Calm: no hash collision of keys that compare equal (CharRange ignores the end) disturbed minify; see c08_collision, and C77 for the patterns for which it always holds."
  },
  {
   "property": "C05",
   "status": "proved",
   "theorems": [
    "Verif.Tok.c05_overlap_warnings",
    "Verif.Tok.c05_overlap_warnings_lang"
   ],
   "note": "All hash seeds."
  },
  {
   "property": "C06",
   "status": "proved",
   "theorems": [
    "Verif.Tok.c06_tables_well_formed"
   ],
   "note": "All hash seeds, collisions included."
  },
  {
   "property": "C07",
   "status": "proved",
   "theorems": [
    "Verif.Tok.c07_subset_construction"
   ],
   "note": ""
  },
  {
   "property": "C08",
   "status": "proved",
   "theorems": [
    "Verif.Tok.c08_minimisation",
    "Verif.Tok.c08_minimisation_total",
    "Verif.Tok.c08_collision"
   ],
   "note": "c08_collision shows that the proviso cannot be dropped: a match is lost, or a spurious one appears."
  },
  {
   "property": "C09",
   "status": "proved",
   "theorems": [
    "Verif.Tok.c09_minimal"
   ],
   "note": "Hypothesis Calm: no hash collision of keys that compare equal (CharRange ignores the end) disturbed minify; see c08_collision, and C77 for the patterns for which it always holds."
  },
  {
   "property": "C10",
   "status": "proved",
   "theorems": [
    "Verif.Tok.c10_longest_match"
   ],
   "note": ""
  },
  {
   "property": "C100",
   "status": "proved",
   "theorems": [
    "Verif.Tok.c100_folds",
    "Verif.Tok.c100_same",
    "Verif.Tok.c100_patterns",
    "Verif.Tok.c100_seeds",
    "Verif.Tok.c100_ranges",
    "Verif.Tok.c100_collision"
   ],
   "note": "Where minify is disturbed by a collision the statement fails: c100_collision."
  },
  {
   "property": "C101",
   "status": "proved",
   "theorems": [
    "Verif.Tok.c101_accepts",
    "Verif.Tok.c101_stuck",
    "Verif.Tok.c101_tests",
    "Verif.Tok.c101_letters",
    "Verif.Tok.c101_sharp"
   ],
   "note": "The letters of c101_letters are code points at which a range begins and the code points behind a range; the latter need not be characters."
  },
  {
   "property": "C102",
   "status": "proved",
   "theorems": [
    "Verif.Tok.c102_pump",
    "Verif.Tok.c102_short",
    "Verif.Tok.c102_unbounded",
    "Verif.Tok.c102_bounded",
    "Verif.Tok.c102_dead"
   ],
   "note": "c102_dead needs that the build meets no hash collision (Calm); the others hold for all seeds."
  },
  {
   "property": "C103",
   "status": "proved",
   "theorems": [
    "Verif.Tok.c103_same",
    "Verif.Tok.c103_depth",
    "Verif.Tok.c103_tokenizer",
    "Verif.Tok.c103_first",
    "Verif.Par.c103_parser"
   ],
   "note": "c103_first, about the languages of the patterns, needs that the build meets no hash collision (Calm)."
  },
  {
   "property": "C104",
   "status": "proved",
   "theorems": [
    "Verif.Tok.c104_regex",
    "Verif.Tok.c104_tokenizer",
    "Verif.Tok.c104_disjoint",
    "Verif.Tok.c104_minus",
    "Verif.Tok.c104_both"
   ],
   "note": "Patterns are given by their regexes, parsed; that some string is parsed to them is a hypothesis (Written)."
  },
  {
   "property": "C105",
   "status": "proved",
   "theorems": [
    "Verif.Tok.c105_common",
    "Verif.Tok.c105_outside",
    "Verif.Tok.c105_warning",
    "Verif.Tok.c105_sharp"
   ],
   "note": ""
  },
  {
   "property": "C106",
   "status": "proved",
   "theorems": [
    "Verif.Par.c106_pump",
    "Verif.Par.c106_short",
    "Verif.Par.c106_unbounded",
    "Verif.Par.c106_sharp",
    "Verif.Par.c106_thrice",
    "Verif.Par.c106_callbacks"
   ],
   "note": ""
  },
  {
   "property": "C107",
   "status": "proved",
   "theorems": [
    "Verif.Par.c107_rest",
    "Verif.Par.c107_error",
    "Verif.Par.c107_grows"
   ],
   "note": ""
  },
  {
   "property": "C108",
   "status": "proved",
   "theorems": [
    "Verif.Par.c108_last",
    "Verif.Par.c108_any"
   ],
   "note": ""
  },
  {
   "property": "C109",
   "status": "proved",
   "theorems": [
    "Verif.Tok.c109_panics",
    "Verif.Tok.c109_text",
    "Verif.Tok.c109_built",
    "Verif.Tok.c109_same"
   ],
   "note": "The fixed text around the string and the escapes of Debug for String are not modelled."
  },
  {
   "property": "C11",
   "status": "proved",
   "theorems": [
    "Verif.Tok.c11_nothing_lost"
   ],
   "note": ""
  },
  {
   "property": "C110",
   "status": "proved",
   "theorems": [
    "Verif.Par.c110_source",
    "Verif.Par.c110_text"
   ],
   "note": ""
  },
  {
   "property": "C12",
   "status": "proved",
   "theorems": [
    "Verif.Tok.c12_callback_arguments"
   ],
   "note": ""
  },
  {
   "property": "C13",
   "status": "proved",
   "theorems": [
    "Verif.Tok.c13_terminates"
   ],
   "note": ""
  },
  {
   "property": "C14",
   "status": "proved",
   "theorems": [
    "Verif.Tok.c14_endless",
    "Verif.Tok.c14_endless_lang"
   ],
   "note": ""
  },
  {
   "property": "C15",
   "status": "proved",
   "theorems": [
    "Verif.Tok.c15_none"
   ],
   "note": ""
  },
  {
   "property": "C16",
   "status": "proved",
   "theorems": [
    "Verif.Tok.c16_bounded_reading"
   ],
   "note": ""
  },
  {
   "property": "C17",
   "status": "proved",
   "theorems": [
    "Verif.Tok.c17_catch_all"
   ],
   "note": ""
  },
  {
   "property": "C18",
   "status": "proved",
   "theorems": [
    "Verif.Tok.c18_macro_tables",
    "Verif.Tok.c18_macro_equals_builder"
   ],
   "note": "Parsing of the macro input by syn is outside the model."
  },
  {
   "property": "C19",
   "status": "proved",
   "theorems": [
    "Verif.Tok.c19_regex_spec"
   ],
   "note": "Hypothesis Calm: no hash collision of keys that compare equal (CharRange ignores the end) disturbed minify; see c08_collision, and C77 for the patterns for which it always holds."
  },
  {
   "property": "C20",
   "status": "proved",
   "theorems": [
    "Verif.Par.c20_new_terminates",
    "Verif.Par.c20_new_no_panic",
    "Verif.Par.c20_new_panics_iff"
   ],
   "note": ""
  },
  {
   "property": "C21",
   "status": "proved",
   "theorems": [
    "Verif.Par.c21_tables_canonical",
    "Verif.Par.c21_accept"
   ],
   "note": ""
  },
  {
   "property": "C22",
   "status": "proved",
   "theorems": [
    "Verif.Par.c22_warnings_exact",
    "Verif.Par.c22_resolution",
    "Verif.Par.c22_no_warnings",
    "Verif.Par.c22_one_each",
    "Verif.Par.c22_accept_silent"
   ],
   "note": "An accept silently overrides a reduction: c22_accept_silent."
  },
  {
   "property": "C23",
   "status": "proved",
   "theorems": [
    "Verif.Par.c23_sound",
    "Verif.Par.c23_sentence"
   ],
   "note": ""
  },
  {
   "property": "C24",
   "status": "proved",
   "theorems": [
    "Verif.Par.c24_complete",
    "Verif.Par.c24_accepts"
   ],
   "note": ""
  },
  {
   "property": "C25",
   "status": "proved",
   "theorems": [
    "Verif.Par.c25_unambiguous",
    "Verif.Par.c25_cyclic_ambiguous"
   ],
   "note": "Proved for grammars whose start symbol does not derive itself; c25_cyclic_ambiguous shows that the condition is needed."
  },
  {
   "property": "C26",
   "status": "proved",
   "theorems": [
    "Verif.Par.c26_rejects",
    "Verif.Par.c26_decides"
   ],
   "note": ""
  },
  {
   "property": "C27",
   "status": "proved",
   "theorems": [
    "Verif.Par.c27_terminates"
   ],
   "note": ""
  },
  {
   "property": "C28",
   "status": "proved",
   "theorems": [
    "Verif.Par.c28_viable_prefix",
    "Verif.Par.c28_offending",
    "Verif.Par.c28_no_early_error"
   ],
   "note": ""
  },
  {
   "property": "C29",
   "status": "proved",
   "theorems": [
    "Verif.Par.c29_no_panic",
    "Verif.Par.c29_panic_on_empty"
   ],
   "note": "The exception (empty input and error rules) is real: c29_panic_on_empty."
  },
  {
   "property": "C30",
   "status": "proved",
   "theorems": [
    "Verif.Par.c30_evaluation",
    "Verif.Par.c30_first_failure"
   ],
   "note": ""
  },
  {
   "property": "C31",
   "status": "proved",
   "theorems": [
    "Verif.Par.c31_causal",
    "Verif.Par.c31_pulls",
    "Verif.Par.c31_ok"
   ],
   "note": ""
  },
  {
   "property": "C32",
   "status": "proved",
   "theorems": [
    "Verif.Par.c32_same_outcome",
    "Verif.Par.c32_same_warnings",
    "Verif.Par.c32_warnings_perm"
   ],
   "note": ""
  },
  {
   "property": "C33",
   "status": "proved",
   "theorems": [
    "Verif.Par.c33_calls",
    "Verif.Par.c33_error_slices",
    "Verif.Par.c33_overlap",
    "Verif.Par.c33_lost"
   ],
   "note": "c33_overlap and c33_lost show the limits of what error slices cover."
  },
  {
   "property": "C34",
   "status": "proved",
   "theorems": [
    "Verif.Par.c34_error_at_end",
    "Verif.Par.c34_wrong_token"
   ],
   "note": "The desirable claim is false; proved is what the code does instead."
  },
  {
   "property": "C35",
   "status": "proved",
   "theorems": [
    "Verif.Par.c35_recovery_diverges",
    "Verif.Par.c35_conflict_diverges",
    "Verif.Par.c35_unproductive_diverges"
   ],
   "note": "The desirable claim is false; proved are three kinds of endless runs."
  },
  {
   "property": "C36",
   "status": "proved",
   "theorems": [
    "Verif.Par.c36_same_outcome",
    "Verif.Par.c36_expands_iff",
    "Verif.Par.c36_undeclared_panics",
    "Verif.Par.c36_duplicate_variant",
    "Verif.Par.c36_no_start_rule"
   ],
   "note": "Parsing of the macro input by syn is not modelled; the model starts from the parsed input."
  },
  {
   "property": "C37",
   "status": "proved",
   "theorems": [
    "Verif.Par.c37_rules_agree",
    "Verif.Par.c37_rules_ok"
   ],
   "note": ""
  },
  {
   "property": "C38",
   "status": "proved",
   "theorems": [
    "Verif.Par.c38_no_start_rule_panics",
    "Verif.Par.c38_no_start_rule_rejects"
   ],
   "note": ""
  },
  {
   "property": "C39",
   "status": "proved",
   "theorems": [
    "Verif.Tok.c39_seeds_irrelevant",
    "Verif.Tok.c39_warnings_perm"
   ],
   "note": "Hypothesis Calm: no hash collision of keys that compare equal (CharRange ignores the end) disturbed minify; see c08_collision, and C77 for the patterns for which it always holds."
  },
  {
   "property": "C40",
   "status": "proved",
   "theorems": [
    "Verif.Par.c40_rule_order"
   ],
   "note": ""
  },
  {
   "property": "C41",
   "status": "proved",
   "theorems": [
    "Verif.Tok.c41_translated_language",
    "Verif.Tok.c41_contains_language",
    "Verif.Tok.c41_warnings",
    "Verif.Tok.c41_stream",
    "Verif.Tok.c41_opt_example"
   ],
   "note": "The specification is Code in Verif/Tok/Code.lean. Hypothesis Calm: no hash collision of keys that compare equal (CharRange ignores the end) disturbed minify; see c08_collision, and C77 for the patterns for which it always holds."
  },
  {
   "property": "C42",
   "status": "proved",
   "theorems": [
    "Verif.Par.c42_machine",
    "Verif.Par.c42_outcomes",
    "Verif.Par.c42_two_errors",
    "Verif.Par.c42_correct_item_lost"
   ],
   "note": ""
  },
  {
   "property": "C43",
   "status": "proved",
   "theorems": [
    "Verif.Par.c43_rightmost",
    "Verif.Par.c43_lr1"
   ],
   "note": ""
  },
  {
   "property": "C44",
   "status": "proved",
   "theorems": [
    "Verif.Par.c44_recovery_terminates",
    "Verif.Par.c44_errors_apart"
   ],
   "note": ""
  },
  {
   "property": "C45",
   "status": "proved",
   "theorems": [
    "Verif.Tok.c45_stuck",
    "Verif.Tok.c45_reads",
    "Verif.Tok.c45_empty_class"
   ],
   "note": "Viable texts with respect to the translated languages of C41, and for patterns of the class of C02 with respect to the regular languages. Hypothesis Calm: no hash collision of keys that compare equal (CharRange ignores the end) disturbed minify; see c08_collision, and C77 for the patterns for which it always holds."
  },
  {
   "property": "C46",
   "status": "proved",
   "theorems": [
    "Verif.Par.c46_source",
    "Verif.Par.c46_endless",
    "Verif.Par.c46_progress"
   ],
   "note": "The condition of c46_progress, that the parser ends on all finite inputs, is the conclusion of C27 and C44."
  },
  {
   "property": "C47",
   "status": "proved",
   "theorems": [
    "Verif.Par.c47_pipeline",
    "Verif.Par.c47_flatten",
    "Verif.Par.c47_whole_text",
    "Verif.Par.c47_empty_match",
    "Verif.Par.c47_decides",
    "Verif.Par.c47_unreadable_ignored"
   ],
   "note": "Tokens are described with the translated languages of C41."
  },
  {
   "property": "C48",
   "status": "proved",
   "theorems": [
    "Verif.Par.c48_contract",
    "Verif.Par.c48_unreachable",
    "Verif.Par.c48_attributes"
   ],
   "note": "c48_unreachable excludes the empty input for grammars with error rules, where parse may panic (C29)."
  },
  {
   "property": "C49",
   "status": "proved",
   "theorems": [
    "Verif.Calc.c49_calculator",
    "Verif.Calc.c49_unambiguous",
    "Verif.Calc.c49_tokenizer_builds",
    "Verif.Calc.c49_numerals",
    "Verif.Calc.c49_text",
    "Verif.Calc.c49_any_text",
    "Verif.Calc.c49_sign_refused"
   ],
   "note": "f64 and its operations are abstract; that str::parse::<f64> accepts every numeral is the documentation of the standard library."
  },
  {
   "property": "C50",
   "status": "proved",
   "theorems": [
    "Verif.Macro.c50_parser_input",
    "Verif.Macro.c50_tokenizer_input",
    "Verif.Macro.c50_one_reading",
    "Verif.Macro.c50_parser_text",
    "Verif.Macro.c50_tokenizer_text"
   ],
   "note": "syn's parsers for Rust's own syntax are parameters; groups without delimiters (input made by other macros) are not modelled."
  },
  {
   "property": "C51",
   "status": "proved",
   "theorems": [
    "Verif.Tok.c51_list",
    "Verif.Tok.c51_explained",
    "Verif.Tok.c51_one_outcome",
    "Verif.Tok.c51_hangs",
    "Verif.Tok.c51_fused",
    "Verif.Tok.c51_across_none",
    "Verif.Par.c51_pipeline"
   ],
   "note": "c51_hangs needs patterns without empty character classes, as C45, and no hash collision (Calm)."
  },
  {
   "property": "C52",
   "status": "proved",
   "theorems": [
    "Verif.Par.c52_linear",
    "Verif.Par.c52_recovery_quadratic"
   ],
   "note": "Rounds of the loop are counted, not machine time."
  },
  {
   "property": "C53",
   "status": "proved",
   "theorems": [
    "Verif.Tok.c53_next",
    "Verif.Tok.c53_nothing_lost",
    "Verif.Tok.c53_pure",
    "Verif.Tok.c53_at_most_quadratic",
    "Verif.Tok.c53_linear",
    "Verif.Tok.c53_quadratic",
    "Verif.Tok.c53_asked_again"
   ],
   "note": ""
  },
  {
   "property": "C54",
   "status": "proved",
   "theorems": [
    "Verif.Par.c54_course",
    "Verif.Par.c54_pure",
    "Verif.Par.c54_world",
    "Verif.Par.c54_no_panic",
    "Verif.Par.c54_ends",
    "Verif.Par.c54_linear"
   ],
   "note": "The tokens and the source are not changed by callbacks."
  },
  {
   "property": "C55",
   "status": "proved",
   "theorems": [
    "Verif.Par.c55_calls",
    "Verif.Par.c55_sound",
    "Verif.Par.c55_sentence",
    "Verif.Par.c55_contract",
    "Verif.Par.c55_complete",
    "Verif.Par.c55_evaluation",
    "Verif.Par.c55_one_outcome",
    "Verif.Par.c55_rejects"
   ],
   "note": "The tokens and the source are not changed by callbacks."
  },
  {
   "property": "C56",
   "status": "proved",
   "theorems": [
    "Verif.Tok.c56_memory",
    "Verif.Tok.c56_language",
    "Verif.Tok.c56_same_outcomes",
    "Verif.Tok.c56_allocator"
   ],
   "note": "Nodes of the deterministic automaton: see C58."
  },
  {
   "property": "C57",
   "status": "proved",
   "theorems": [
    "Verif.Par.c57_sound",
    "Verif.Par.c57_complete",
    "Verif.Par.c57_evaluation",
    "Verif.Par.c57_failed",
    "Verif.Par.c57_rejected",
    "Verif.Par.c57_viable",
    "Verif.Par.c57_no_panic",
    "Verif.Par.c57_linear",
    "Verif.Par.c57_one_outcome",
    "Verif.Par.c57_outcomes",
    "Verif.Par.c57_apart",
    "Verif.Par.c57_look_ahead"
   ],
   "note": "For grammars without error rules. Items that have been answered are not changed afterwards."
  },
  {
   "property": "C58",
   "status": "proved",
   "theorems": [
    "Verif.Tok.c58_owned",
    "Verif.Tok.c58_memory",
    "Verif.Tok.c58_tables",
    "Verif.Tok.c58_same_outcomes",
    "Verif.Tok.c58_addresses"
   ],
   "note": "c58_addresses supposes, as C39, that no hash collision disturbs the minimiser."
  },
  {
   "property": "C59",
   "status": "proved",
   "theorems": [
    "Verif.Par.c59_same",
    "Verif.Par.c59_warnings",
    "Verif.Par.c59_outcomes",
    "Verif.Par.c59_renumber",
    "Verif.Par.c59_unreachable",
    "Verif.Par.c59_order",
    "Verif.Par.c59_order_matters"
   ],
   "note": "The start symbol must have a rule (otherwise see C38)."
  },
  {
   "property": "C60",
   "status": "proved",
   "theorems": [
    "Verif.Tok.c60_parts",
    "Verif.Tok.c60_resync",
    "Verif.Tok.c60_join_iff",
    "Verif.Tok.c60_separator",
    "Verif.Tok.c60_not_anywhere"
   ],
   "note": ""
  },
  {
   "property": "C61",
   "status": "proved",
   "theorems": [
    "Verif.Par.c61_only_at_end",
    "Verif.Par.c61_no_place",
    "Verif.Par.c61_endless",
    "Verif.Par.c61_lost"
   ],
   "note": "For grammars in which every non-terminal in reach derives some string of terminals."
  },
  {
   "property": "C62",
   "status": "proved",
   "theorems": [
    "Verif.Par.c62_statements",
    "Verif.Par.c62_covers",
    "Verif.Par.c62_total",
    "Verif.Par.c62_kept",
    "Verif.Par.c62_lost",
    "Verif.Par.c62_example"
   ],
   "note": ""
  },
  {
   "property": "C63",
   "status": "proved",
   "theorems": [
    "Verif.Par.c63_takes",
    "Verif.Par.c63_exact",
    "Verif.Par.c63_unique",
    "Verif.Par.c63_no_conflict",
    "Verif.Par.c63_example"
   ],
   "note": "For grammars in which every non-terminal in reach derives some string of terminals."
  },
  {
   "property": "C64",
   "status": "proved",
   "theorems": [
    "Verif.Par.c64_ends",
    "Verif.Par.c64_rejects",
    "Verif.Par.c64_chain_diverges"
   ],
   "note": ""
  },
  {
   "property": "C65",
   "status": "proved",
   "theorems": [
    "Verif.Par.c65_takes",
    "Verif.Par.c65_one_tree",
    "Verif.Par.c65_decides"
   ],
   "note": ""
  },
  {
   "property": "C66",
   "status": "proved",
   "theorems": [
    "Verif.Tok.c66_states",
    "Verif.Tok.c66_same_size",
    "Verif.Tok.c66_bound",
    "Verif.Tok.c66_blowup"
   ],
   "note": "The specification is Verif/Tok/Size.lean (Tells, Least, Hir.nodes). Hypothesis Calm: no hash collision of keys that compare equal (CharRange ignores the end) disturbed minify; see c08_collision, and C77 for the patterns for which it always holds."
  },
  {
   "property": "C67",
   "status": "proved",
   "theorems": [
    "Verif.Par.c67_no_warnings",
    "Verif.Par.c67_reads",
    "Verif.Par.c67_every",
    "Verif.Par.c67_round_trip",
    "Verif.Par.c67_roles"
   ],
   "note": "The specification is Verif/Par/Prec.lean (Prec.rules, Grp, Value, Ex.close)."
  },
  {
   "property": "C68",
   "status": "proved",
   "theorems": [
    "Verif.Par.c68_stack",
    "Verif.Par.c68_tree",
    "Verif.Par.c68_nesting",
    "Verif.Par.c68_flat",
    "Verif.Par.c68_nests",
    "Verif.Par.c68_tokens",
    "Verif.Par.c68_keeps",
    "Verif.Par.c68_left",
    "Verif.Par.c68_right"
   ],
   "note": "The specification is Verif/Par/Height.lean (Tree.high, Tree.nesting, Nests)."
  },
  {
   "property": "C69",
   "status": "proved",
   "theorems": [
    "Verif.Par.c69_sentence",
    "Verif.Par.c69_same",
    "Verif.Par.TestMain.c69_test_main"
   ],
   "note": "The specification is Verif/Par/Report.lean (Reports, strict) and the second half of Verif/Par/TestMain.lean (sum, value, Even, Blames)."
  },
  {
   "property": "C70",
   "status": "proved",
   "theorems": [
    "Verif.Tok.Words.c70_cuts",
    "Verif.Tok.Words.c70_builds",
    "Verif.Tok.Words.c70_warnings",
    "Verif.Tok.Words.c70_normal",
    "Verif.Tok.Words.c70_with",
    "Verif.Tok.Words.c70_parts",
    "Verif.Tok.Words.c70_collision"
   ],
   "note": "The specification is the second half of Verif/Tok/Words.lean (first, lex). Hypothesis Calm: no hash collision of keys that compare equal (CharRange ignores the end) disturbed minify; see c08_collision, and C77 for the patterns for which it always holds."
  },
  {
   "property": "C71",
   "status": "proved",
   "theorems": [
    "Verif.Par.c71_no_warnings",
    "Verif.Par.c71_builds",
    "Verif.Par.c71_unambiguous",
    "Verif.Par.c71_parse",
    "Verif.Par.c71_check",
    "Verif.Par.c71_ranked",
    "Verif.Par.c71_fruitless",
    "Verif.Par.c71_converse"
   ],
   "note": "The specification is Verif/Par/LL1.lean (Gram.Selects, Gram.LL1; LLSets.check is the table check)."
  },
  {
   "property": "C72",
   "status": "proved",
   "theorems": [
    "Verif.Par.c72_fewer_rules",
    "Verif.Par.c72_other_start",
    "Verif.Par.c72_same_values",
    "Verif.Par.c72_hidden"
   ],
   "note": "Among (Verif/Props/ParPart.lean) says that one list consists of elements of the other at different places."
  },
  {
   "property": "C73",
   "status": "proved",
   "theorems": [
    "Verif.Par.c73_states",
    "Verif.Par.c73_actions",
    "Verif.Par.c73_gotos",
    "Verif.Par.c73_cyclic",
    "Verif.Par.c73_conflict",
    "Verif.Par.c73_unproductive"
   ],
   "note": "dropAction and dropGoto (Verif/Par/Used.lean) are the tables without one entry. The last three theorems show that the conditions are needed."
  },
  {
   "property": "C74",
   "status": "proved",
   "theorems": [
    "Verif.Tok.c74_exact",
    "Verif.Tok.c74_same_tokens",
    "Verif.Tok.c74_warned_order",
    "Verif.Tok.c74_no_warnings",
    "Verif.Tok.c74_turned",
    "Verif.Tok.c74_appended",
    "Verif.Tok.c74_shadowed"
   ],
   "note": "Matching is PatCode (C41), equal to the regular language for the patterns of the class of C02. Hypothesis Calm: no hash collision of keys that compare equal (CharRange ignores the end) disturbed minify; see c08_collision, and C77 for the patterns for which it always holds."
  },
  {
   "property": "C75",
   "status": "proved",
   "theorems": [
    "Verif.Par.c75_exact",
    "Verif.Par.c75_upper",
    "Verif.Par.c75_entries",
    "Verif.Par.c75_blowup"
   ],
   "note": ""
  },
  {
   "property": "C76",
   "status": "proved",
   "theorems": [
    "Verif.Par.c76_no_warnings",
    "Verif.Par.c76_sentences",
    "Verif.Par.c76_one_tree",
    "Verif.Par.c76_check",
    "Verif.Par.c76_separated",
    "Verif.Par.c76_terminated",
    "Verif.Par.c76_needed",
    "Verif.Par.c76_values",
    "Verif.Par.c76_inner_error"
   ],
   "note": "The specification is Verif/Par/Plug.lean (Gram.put, Apart, Gram.Twice, Filled)."
  },
  {
   "property": "C77",
   "status": "proved",
   "theorems": [
    "Verif.Tok.c77_texts",
    "Verif.Tok.c77_simple",
    "Verif.Tok.c77_check",
    "Verif.Tok.c77_decides",
    "Verif.Tok.c77_language",
    "Verif.Tok.c77_needed"
   ],
   "note": "The specification is Verif/Tok/Smooth.lean (Alike, Begins, Torn)."
  },
  {
   "property": "C78",
   "status": "proved",
   "theorems": [
    "Verif.Tok.c78_builds",
    "Verif.Tok.c78_rewrite",
    "Verif.Tok.c78_safe",
    "Verif.Tok.c78_unsafe",
    "Verif.Tok.c78_unsafe_more"
   ],
   "note": "The specification is Verif/Tok/Rewrite.lean (Rewr, Hir.safe); x, y and z are regexes as the regex parser returns them."
  },
  {
   "property": "C79",
   "status": "proved",
   "theorems": [
    "Verif.Par.c79_family",
    "Verif.Par.c79_no_warnings",
    "Verif.Par.c79_builds",
    "Verif.Par.c79_lr1",
    "Verif.Par.c79_parse",
    "Verif.Par.c79_check",
    "Verif.Par.c79_strict",
    "Verif.Par.c79_decided"
   ],
   "note": "The specification is Verif/Par/Family.lean (Dots, Doubt, LR0, SLR1, LALR1, LR1 and the checks)."
  },
  {
   "property": "C80",
   "status": "proved",
   "theorems": [
    "Verif.Par.c80_equal_same",
    "Verif.Par.c80_equivalence",
    "Verif.Par.c80_callbacks",
    "Verif.Par.c80_new",
    "Verif.Par.c80_same_order",
    "Verif.Par.c80_not_equal"
   ],
   "note": "HashMap and HashSet equality is modelled after the documentation of the standard library (Verif/Par/Eq.lean)."
  },
  {
   "property": "C81",
   "status": "proved",
   "theorems": [
    "Verif.Par.c81_lr1",
    "Verif.Par.c81_no_warnings",
    "Verif.Par.c81_sentences",
    "Verif.Par.c81_values",
    "Verif.Par.c81_rejects",
    "Verif.Par.c81_converse",
    "Verif.Par.c81_everywhere",
    "Verif.Par.c81_other_error"
   ],
   "note": "The specification is Verif/Par/Inline.lean (inlineRules, Helper); values are compared for grammars without error rules."
  },
  {
   "property": "C82",
   "status": "proved",
   "theorems": [
    "Verif.Par.c82_exponential",
    "Verif.Par.c82_no_polynomial"
   ],
   "note": "A lower bound, as a property users would wish for (polynomial time of recovery) does not hold."
  },
  {
   "property": "C83",
   "status": "proved",
   "theorems": [
    "Verif.Par.c83_quadratic",
    "Verif.Par.c83_check",
    "Verif.Par.c83_not_settled",
    "Verif.Par.c83_written_out",
    "Verif.Par.c83_tight",
    "Verif.Par.c83_recovery_differs"
   ],
   "note": ""
  },
  {
   "property": "C84",
   "status": "proved",
   "theorems": [
    "Verif.Par.c84_exponential_bound",
    "Verif.Par.c84_between"
   ],
   "note": ""
  },
  {
   "property": "C85",
   "status": "proved",
   "theorems": [
    "Verif.Par.c85_covered",
    "Verif.Par.c85_handed",
    "Verif.Par.c85_check",
    "Verif.Par.c85_blocks",
    "Verif.Par.c85_sums",
    "Verif.Par.c85_forgotten",
    "Verif.Par.c85_forgotten_empty"
   ],
   "note": ""
  },
  {
   "property": "C86",
   "status": "proved",
   "theorems": [
    "Verif.Par.c86_kept",
    "Verif.Par.c86_phrase",
    "Verif.Par.c86_check",
    "Verif.Par.c86_blocks",
    "Verif.Par.c86_next_needed",
    "Verif.Par.c86_keeps_needed"
   ],
   "note": ""
  },
  {
   "property": "C87",
   "status": "proved",
   "theorems": [
    "Verif.Tok.c87_first",
    "Verif.Tok.c87_single",
    "Verif.Tok.c87_added",
    "Verif.Tok.c87_builds",
    "Verif.Tok.c87_warnings"
   ],
   "note": "Matching is PatCode (C41). Hypothesis Calm: no hash collision of keys that compare equal (CharRange ignores the end) disturbed minify; see c08_collision, and C77 for the patterns for which it always holds."
  },
  {
   "property": "C88",
   "status": "proved",
   "theorems": [
    "Verif.Par.c88_result",
    "Verif.Par.c88_always",
    "Verif.Par.c88_exact",
    "Verif.Par.c88_check",
    "Verif.Par.c88_sums",
    "Verif.Par.c88_statements",
    "Verif.Par.c88_given_up",
    "Verif.Par.c88_twice"
   ],
   "note": ""
  },
  {
   "property": "C89",
   "status": "proved",
   "theorems": [
    "Verif.Par.c89_resume",
    "Verif.Par.c89_never",
    "Verif.Par.c89_no_stop",
    "Verif.Par.c89_check",
    "Verif.Par.c89_skips",
    "Verif.Par.c89_skips_all",
    "Verif.Par.c89_sums_not"
   ],
   "note": ""
  },
  {
   "property": "C90",
   "status": "proved",
   "theorems": [
    "Verif.Tok.c90_patterns",
    "Verif.Tok.c90_check",
    "Verif.Tok.c90_bounded_or_not",
    "Verif.Tok.c90_unbounded",
    "Verif.Tok.c90_weaker",
    "Verif.Tok.c90_reads",
    "Verif.Tok.c90_memory",
    "Verif.Tok.c90_linear",
    "Verif.Tok.c90_far",
    "Verif.Tok.c90_strictly",
    "Verif.Tok.c90_late"
   ],
   "note": "Matching is PatCode (C41); c90_patterns assumes no hash collision in the tables (Calm, see C77). The other theorems do not."
  },
  {
   "property": "C91",
   "status": "proved",
   "theorems": [
    "Verif.Par.c91_damaged",
    "Verif.Par.c91_unfailing",
    "Verif.Par.c91_blocks",
    "Verif.Par.c91_needs_follow"
   ],
   "note": "The grammar must have no cycle at its start symbol (Gram.Cyclic), and every symbol used must derive something (Fruitful)."
  },
  {
   "property": "C92",
   "status": "proved",
   "theorems": [
    "Verif.Par.c92_tokens",
    "Verif.Par.c92_layout",
    "Verif.Par.c92_separated",
    "Verif.Par.c92_spelled",
    "Verif.Par.c92_goes_on",
    "Verif.Par.c92_roundtrip",
    "Verif.Par.c92_calculator",
    "Verif.Par.c92_needs_unmixed",
    "Verif.Par.c92_needs_blank"
   ],
   "note": "Patterns are taken with the languages that the tables accept (C41), without hash collisions (Calm)."
  },
  {
   "property": "C93",
   "status": "proved",
   "theorems": [
    "Verif.Par.c93_error_text",
    "Verif.Par.c93_places",
    "Verif.Par.c93_phrases"
   ],
   "note": "Patterns are taken with the languages that the tables accept (C41), without hash collisions (Calm)."
  },
  {
   "property": "C94",
   "status": "proved",
   "theorems": [
    "Verif.Par.c94_parts",
    "Verif.Par.c94_exchange",
    "Verif.Par.c94_calls",
    "Verif.Par.c94_needs_phrase"
   ],
   "note": "That the parser for the part has no warnings is taken as given; c72_other_start says when it follows."
  },
  {
   "property": "C95",
   "status": "proved",
   "theorems": [
    "Verif.Tok.c95_before",
    "Verif.Tok.c95_sharp",
    "Verif.Tok.c95_border",
    "Verif.Par.c95_text"
   ],
   "note": "How far a tokenizer looks ahead is Tokenizer.Ahead; c95_sharp and c95_text are without hash collisions (Calm)."
  },
  {
   "property": "C96",
   "status": "proved",
   "theorems": [
    "Verif.Par.c96_like",
    "Verif.Par.c96_added",
    "Verif.Par.c96_fusion",
    "Verif.Tok.c96_items"
   ],
   "note": "The specification is Verif/Par/Like.lean; c96_items is without hash collisions (Calm)."
  },
  {
   "property": "C97",
   "status": "proved",
   "theorems": [
    "Verif.Par.c97_residues",
    "Verif.Par.c97_distinct",
    "Verif.Par.c97_palindromes",
    "Verif.Par.c97_marked"
   ],
   "note": "For all grammars, without conditions but that rules do not contain the end of input."
  },
  {
   "property": "C98",
   "status": "proved",
   "theorems": [
    "Verif.TestErr.c98_builds",
    "Verif.TestErr.c98_every_input",
    "Verif.TestErr.c98_unique",
    "Verif.TestErr.c98_back",
    "Verif.TestErr.c98_gives_up"
   ],
   "note": "For the rules of the unit test with error rules, all inputs and all hash seeds."
  },
  {
   "property": "C99",
   "status": "proved",
   "theorems": [
    "Verif.Machine.Machine.c99_reads",
    "Verif.Machine.Machine.c99_left",
    "Verif.Machine.Machine.c99_right",
    "Verif.Machine.Machine.c99_trim",
    "Verif.Machine.Machine.c99_tokenizer"
   ],
   "note": "For all deterministic automata in which everything is used; that this is no restriction is c99_trim."
  }
 ]
}
# Axioms of the property theorems

Output of `#print axioms` for every theorem named in MANIFEST.json.

| property | theorem | axioms |
|---|---|---|
| C01 | `Verif.Tok.c01_no_missed_match` | propext, Classical.choice, Quot.sound |
| C02 | `Verif.Tok.c02_no_spurious_match` | propext, Classical.choice, Quot.sound |
| C02 | `Verif.Tok.c02_empty` | propext, Quot.sound |
| C02 | `Verif.Tok.c02_opt` | propext, Quot.sound |
| C02 | `Verif.Tok.c02_star` | propext, Quot.sound |
| C02 | `Verif.Tok.c02_range` | propext, Quot.sound |
| C03 | `Verif.Tok.c03_build_errors` | propext, Classical.choice, Quot.sound |
| C04 | `Verif.Tok.c04_first_pattern_wins` | propext, Classical.choice, Quot.sound |
| C04 | `Verif.Tok.c04_first_pattern_wins_lang` | propext, Classical.choice, Quot.sound |
| C05 | `Verif.Tok.c05_overlap_warnings` | propext, Classical.choice, Quot.sound |
| C05 | `Verif.Tok.c05_overlap_warnings_lang` | propext, Classical.choice, Quot.sound |
| C06 | `Verif.Tok.c06_tables_well_formed` | propext, Classical.choice, Quot.sound |
| C07 | `Verif.Tok.c07_subset_construction` | propext, Classical.choice, Quot.sound |
| C08 | `Verif.Tok.c08_minimisation` | propext, Classical.choice, Quot.sound |
| C08 | `Verif.Tok.c08_minimisation_total` | propext, Classical.choice, Quot.sound |
| C08 | `Verif.Tok.c08_collision` | propext, Quot.sound |
| C09 | `Verif.Tok.c09_minimal` | propext, Classical.choice, Quot.sound |
| C10 | `Verif.Tok.c10_longest_match` | propext, Classical.choice, Quot.sound |
| C100 | `Verif.Tok.c100_folds` | propext, Classical.choice, Quot.sound |
| C100 | `Verif.Tok.c100_same` | propext, Classical.choice, Quot.sound |
| C100 | `Verif.Tok.c100_patterns` | propext, Classical.choice, Quot.sound |
| C100 | `Verif.Tok.c100_seeds` | propext, Classical.choice, Quot.sound |
| C100 | `Verif.Tok.c100_ranges` | propext, Classical.choice, Quot.sound |
| C100 | `Verif.Tok.c100_collision` | propext, Classical.choice, Quot.sound |
| C101 | `Verif.Tok.c101_accepts` | propext, Classical.choice, Quot.sound |
| C101 | `Verif.Tok.c101_stuck` | propext, Classical.choice, Quot.sound |
| C101 | `Verif.Tok.c101_tests` | propext, Classical.choice, Quot.sound |
| C101 | `Verif.Tok.c101_letters` | propext, Classical.choice, Quot.sound |
| C101 | `Verif.Tok.c101_sharp` | propext, Quot.sound |
| C102 | `Verif.Tok.c102_pump` | propext, Classical.choice, Quot.sound |
| C102 | `Verif.Tok.c102_short` | propext, Classical.choice, Quot.sound |
| C102 | `Verif.Tok.c102_unbounded` | propext, Classical.choice, Quot.sound |
| C102 | `Verif.Tok.c102_bounded` | propext, Classical.choice, Quot.sound |
| C102 | `Verif.Tok.c102_dead` | propext, Classical.choice, Quot.sound |
| C103 | `Verif.Tok.c103_same` | propext, Classical.choice, Quot.sound |
| C103 | `Verif.Tok.c103_depth` | propext, Classical.choice, Quot.sound |
| C103 | `Verif.Tok.c103_tokenizer` | propext, Classical.choice, Quot.sound |
| C103 | `Verif.Tok.c103_first` | propext, Classical.choice, Quot.sound |
| C103 | `Verif.Par.c103_parser` | propext, Classical.choice, Quot.sound |
| C104 | `Verif.Tok.c104_regex` | propext, Quot.sound |
| C104 | `Verif.Tok.c104_tokenizer` | propext, Classical.choice, Quot.sound |
| C104 | `Verif.Tok.c104_disjoint` | propext, Classical.choice, Quot.sound |
| C104 | `Verif.Tok.c104_minus` | propext, Classical.choice, Quot.sound |
| C104 | `Verif.Tok.c104_both` | propext, Classical.choice, Quot.sound |
| C105 | `Verif.Tok.c105_common` | propext, Classical.choice, Quot.sound |
| C105 | `Verif.Tok.c105_outside` | propext, Classical.choice, Quot.sound |
| C105 | `Verif.Tok.c105_warning` | propext, Classical.choice, Quot.sound |
| C105 | `Verif.Tok.c105_sharp` | propext, Quot.sound |
| C106 | `Verif.Par.c106_pump` | propext, Classical.choice, Quot.sound |
| C106 | `Verif.Par.c106_short` | propext, Classical.choice, Quot.sound |
| C106 | `Verif.Par.c106_unbounded` | propext, Classical.choice, Quot.sound |
| C106 | `Verif.Par.c106_sharp` | propext, Classical.choice, Quot.sound |
| C106 | `Verif.Par.c106_thrice` | propext, Classical.choice, Quot.sound |
| C106 | `Verif.Par.c106_callbacks` | propext, Classical.choice, Quot.sound |
| C107 | `Verif.Par.c107_rest` | propext, Classical.choice, Quot.sound |
| C107 | `Verif.Par.c107_error` | propext, Classical.choice, Quot.sound |
| C107 | `Verif.Par.c107_grows` | propext, Classical.choice, Quot.sound |
| C108 | `Verif.Par.c108_last` | propext, Classical.choice, Quot.sound |
| C108 | `Verif.Par.c108_any` | propext, Classical.choice, Quot.sound |
| C109 | `Verif.Tok.c109_panics` | propext, Classical.choice, Quot.sound |
| C109 | `Verif.Tok.c109_text` | propext, Quot.sound |
| C109 | `Verif.Tok.c109_built` | propext, Classical.choice, Quot.sound |
| C109 | `Verif.Tok.c109_same` | propext, Quot.sound |
| C11 | `Verif.Tok.c11_nothing_lost` | propext, Classical.choice, Quot.sound |
| C110 | `Verif.Par.c110_source` | propext, Classical.choice, Quot.sound |
| C110 | `Verif.Par.c110_text` | propext, Quot.sound |
| C12 | `Verif.Tok.c12_callback_arguments` | propext, Classical.choice, Quot.sound |
| C13 | `Verif.Tok.c13_terminates` | propext, Classical.choice, Quot.sound |
| C14 | `Verif.Tok.c14_endless` | propext, Classical.choice, Quot.sound |
| C14 | `Verif.Tok.c14_endless_lang` | propext, Classical.choice, Quot.sound |
| C15 | `Verif.Tok.c15_none` | propext, Classical.choice, Quot.sound |
| C16 | `Verif.Tok.c16_bounded_reading` | propext, Classical.choice, Quot.sound |
| C17 | `Verif.Tok.c17_catch_all` | propext, Classical.choice, Quot.sound |
| C18 | `Verif.Tok.c18_macro_tables` | propext, Classical.choice, Quot.sound |
| C18 | `Verif.Tok.c18_macro_equals_builder` | propext, Classical.choice, Quot.sound |
| C19 | `Verif.Tok.c19_regex_spec` | propext, Classical.choice, Quot.sound |
| C20 | `Verif.Par.c20_new_terminates` | propext, Classical.choice, Quot.sound |
| C20 | `Verif.Par.c20_new_no_panic` | propext, Classical.choice, Quot.sound |
| C20 | `Verif.Par.c20_new_panics_iff` | propext, Classical.choice, Quot.sound |
| C21 | `Verif.Par.c21_tables_canonical` | propext, Classical.choice, Quot.sound |
| C21 | `Verif.Par.c21_accept` | propext, Classical.choice, Quot.sound |
| C22 | `Verif.Par.c22_warnings_exact` | propext, Classical.choice, Quot.sound |
| C22 | `Verif.Par.c22_resolution` | propext, Classical.choice, Quot.sound |
| C22 | `Verif.Par.c22_no_warnings` | propext, Classical.choice, Quot.sound |
| C22 | `Verif.Par.c22_one_each` | propext, Classical.choice, Quot.sound |
| C22 | `Verif.Par.c22_accept_silent` | propext, Quot.sound |
| C23 | `Verif.Par.c23_sound` | propext, Classical.choice, Quot.sound |
| C23 | `Verif.Par.c23_sentence` | propext, Classical.choice, Quot.sound |
| C24 | `Verif.Par.c24_complete` | propext, Classical.choice, Quot.sound |
| C24 | `Verif.Par.c24_accepts` | propext, Classical.choice, Quot.sound |
| C25 | `Verif.Par.c25_unambiguous` | propext, Classical.choice, Quot.sound |
| C25 | `Verif.Par.c25_cyclic_ambiguous` | propext, Quot.sound |
| C26 | `Verif.Par.c26_rejects` | propext, Classical.choice, Quot.sound |
| C26 | `Verif.Par.c26_decides` | propext, Classical.choice, Quot.sound |
| C27 | `Verif.Par.c27_terminates` | propext, Classical.choice, Quot.sound |
| C28 | `Verif.Par.c28_viable_prefix` | propext, Classical.choice, Quot.sound |
| C28 | `Verif.Par.c28_offending` | propext, Classical.choice, Quot.sound |
| C28 | `Verif.Par.c28_no_early_error` | propext, Classical.choice, Quot.sound |
| C29 | `Verif.Par.c29_no_panic` | propext, Classical.choice, Quot.sound |
| C29 | `Verif.Par.c29_panic_on_empty` | propext, Quot.sound |
| C30 | `Verif.Par.c30_evaluation` | propext, Classical.choice, Quot.sound |
| C30 | `Verif.Par.c30_first_failure` | propext, Classical.choice, Quot.sound |
| C31 | `Verif.Par.c31_causal` | propext, Classical.choice, Quot.sound |
| C31 | `Verif.Par.c31_pulls` | propext, Classical.choice, Quot.sound |
| C31 | `Verif.Par.c31_ok` | propext, Classical.choice, Quot.sound |
| C32 | `Verif.Par.c32_same_outcome` | propext, Classical.choice, Quot.sound |
| C32 | `Verif.Par.c32_same_warnings` | propext, Classical.choice, Quot.sound |
| C32 | `Verif.Par.c32_warnings_perm` | propext, Classical.choice, Quot.sound |
| C33 | `Verif.Par.c33_calls` | propext, Classical.choice, Quot.sound |
| C33 | `Verif.Par.c33_error_slices` | propext, Classical.choice, Quot.sound |
| C33 | `Verif.Par.c33_overlap` | propext |
| C33 | `Verif.Par.c33_lost` | propext |
| C34 | `Verif.Par.c34_error_at_end` | propext, Classical.choice, Quot.sound |
| C34 | `Verif.Par.c34_wrong_token` | propext |
| C35 | `Verif.Par.c35_recovery_diverges` | propext, Quot.sound |
| C35 | `Verif.Par.c35_conflict_diverges` | propext, Quot.sound |
| C35 | `Verif.Par.c35_unproductive_diverges` | propext, Quot.sound |
| C36 | `Verif.Par.c36_same_outcome` | propext, Classical.choice, Quot.sound |
| C36 | `Verif.Par.c36_expands_iff` | propext, Classical.choice, Quot.sound |
| C36 | `Verif.Par.c36_undeclared_panics` | propext, Quot.sound |
| C36 | `Verif.Par.c36_duplicate_variant` | propext, Quot.sound |
| C36 | `Verif.Par.c36_no_start_rule` | propext, Quot.sound |
| C37 | `Verif.Par.c37_rules_agree` | propext, Quot.sound |
| C37 | `Verif.Par.c37_rules_ok` | propext, Quot.sound |
| C38 | `Verif.Par.c38_no_start_rule_panics` | propext, Classical.choice, Quot.sound |
| C38 | `Verif.Par.c38_no_start_rule_rejects` | propext, Classical.choice, Quot.sound |
| C39 | `Verif.Tok.c39_seeds_irrelevant` | propext, Classical.choice, Quot.sound |
| C39 | `Verif.Tok.c39_warnings_perm` | propext, Quot.sound |
| C40 | `Verif.Par.c40_rule_order` | propext, Quot.sound |
| C41 | `Verif.Tok.c41_translated_language` | propext, Classical.choice, Quot.sound |
| C41 | `Verif.Tok.c41_contains_language` | propext, Classical.choice, Quot.sound |
| C41 | `Verif.Tok.c41_warnings` | propext, Classical.choice, Quot.sound |
| C41 | `Verif.Tok.c41_stream` | propext, Classical.choice, Quot.sound |
| C41 | `Verif.Tok.c41_opt_example` | propext |
| C42 | `Verif.Par.c42_machine` | propext, Classical.choice, Quot.sound |
| C42 | `Verif.Par.c42_outcomes` | propext, Classical.choice, Quot.sound |
| C42 | `Verif.Par.c42_two_errors` | propext |
| C42 | `Verif.Par.c42_correct_item_lost` | propext |
| C43 | `Verif.Par.c43_rightmost` | propext, Classical.choice, Quot.sound |
| C43 | `Verif.Par.c43_lr1` | propext, Classical.choice, Quot.sound |
| C44 | `Verif.Par.c44_recovery_terminates` | propext, Classical.choice, Quot.sound |
| C44 | `Verif.Par.c44_errors_apart` | propext, Classical.choice, Quot.sound |
| C45 | `Verif.Tok.c45_stuck` | propext, Classical.choice, Quot.sound |
| C45 | `Verif.Tok.c45_reads` | propext, Classical.choice, Quot.sound |
| C45 | `Verif.Tok.c45_empty_class` | propext, Quot.sound |
| C46 | `Verif.Par.c46_source` | propext, Classical.choice, Quot.sound |
| C46 | `Verif.Par.c46_endless` | propext, Classical.choice, Quot.sound |
| C46 | `Verif.Par.c46_progress` | propext, Classical.choice, Quot.sound |
| C47 | `Verif.Par.c47_pipeline` | propext, Classical.choice, Quot.sound |
| C47 | `Verif.Par.c47_flatten` | propext, Classical.choice, Quot.sound |
| C47 | `Verif.Par.c47_whole_text` | propext, Classical.choice, Quot.sound |
| C47 | `Verif.Par.c47_empty_match` | propext, Classical.choice, Quot.sound |
| C47 | `Verif.Par.c47_decides` | propext, Classical.choice, Quot.sound |
| C47 | `Verif.Par.c47_unreadable_ignored` | propext, Quot.sound |
| C48 | `Verif.Par.c48_contract` | propext, Classical.choice, Quot.sound |
| C48 | `Verif.Par.c48_unreachable` | propext, Classical.choice, Quot.sound |
| C48 | `Verif.Par.c48_attributes` | propext, Classical.choice, Quot.sound |
| C49 | `Verif.Calc.c49_calculator` | propext, Classical.choice, Quot.sound |
| C49 | `Verif.Calc.c49_unambiguous` | propext, Classical.choice, Quot.sound |
| C49 | `Verif.Calc.c49_tokenizer_builds` | propext, Classical.choice, Quot.sound |
| C49 | `Verif.Calc.c49_numerals` | propext, Classical.choice, Quot.sound |
| C49 | `Verif.Calc.c49_text` | propext, Classical.choice, Quot.sound |
| C49 | `Verif.Calc.c49_any_text` | propext, Classical.choice, Quot.sound |
| C49 | `Verif.Calc.c49_sign_refused` | propext, Classical.choice, Quot.sound |
| C50 | `Verif.Macro.c50_parser_input` | propext, Classical.choice, Quot.sound |
| C50 | `Verif.Macro.c50_tokenizer_input` | propext, Classical.choice, Quot.sound |
| C50 | `Verif.Macro.c50_one_reading` | propext, Classical.choice, Quot.sound |
| C50 | `Verif.Macro.c50_parser_text` | propext, Classical.choice, Quot.sound |
| C50 | `Verif.Macro.c50_tokenizer_text` | propext, Classical.choice, Quot.sound |
| C51 | `Verif.Tok.c51_list` | propext, Classical.choice, Quot.sound |
| C51 | `Verif.Tok.c51_explained` | propext, Classical.choice, Quot.sound |
| C51 | `Verif.Tok.c51_one_outcome` | propext, Classical.choice, Quot.sound |
| C51 | `Verif.Tok.c51_hangs` | propext, Classical.choice, Quot.sound |
| C51 | `Verif.Tok.c51_fused` | propext, Classical.choice, Quot.sound |
| C51 | `Verif.Tok.c51_across_none` | propext, Quot.sound |
| C51 | `Verif.Par.c51_pipeline` | propext, Classical.choice, Quot.sound |
| C52 | `Verif.Par.c52_linear` | propext, Classical.choice, Quot.sound |
| C52 | `Verif.Par.c52_recovery_quadratic` | propext, Quot.sound |
| C53 | `Verif.Tok.c53_next` | propext, Classical.choice, Quot.sound |
| C53 | `Verif.Tok.c53_nothing_lost` | propext, Classical.choice, Quot.sound |
| C53 | `Verif.Tok.c53_pure` | propext, Quot.sound |
| C53 | `Verif.Tok.c53_at_most_quadratic` | propext, Classical.choice, Quot.sound |
| C53 | `Verif.Tok.c53_linear` | propext, Classical.choice, Quot.sound |
| C53 | `Verif.Tok.c53_quadratic` | propext, Classical.choice, Quot.sound |
| C53 | `Verif.Tok.c53_asked_again` | propext, Quot.sound |
| C54 | `Verif.Par.c54_course` | propext, Classical.choice, Quot.sound |
| C54 | `Verif.Par.c54_pure` | propext, Quot.sound |
| C54 | `Verif.Par.c54_world` | propext, Quot.sound |
| C54 | `Verif.Par.c54_no_panic` | propext, Classical.choice, Quot.sound |
| C54 | `Verif.Par.c54_ends` | propext, Classical.choice, Quot.sound |
| C54 | `Verif.Par.c54_linear` | propext, Classical.choice, Quot.sound |
| C55 | `Verif.Par.c55_calls` | propext, Classical.choice, Quot.sound |
| C55 | `Verif.Par.c55_sound` | propext, Classical.choice, Quot.sound |
| C55 | `Verif.Par.c55_sentence` | propext, Classical.choice, Quot.sound |
| C55 | `Verif.Par.c55_contract` | propext, Classical.choice, Quot.sound |
| C55 | `Verif.Par.c55_complete` | propext, Classical.choice, Quot.sound |
| C55 | `Verif.Par.c55_evaluation` | propext, Classical.choice, Quot.sound |
| C55 | `Verif.Par.c55_one_outcome` | propext, Quot.sound |
| C55 | `Verif.Par.c55_rejects` | propext, Classical.choice, Quot.sound |
| C56 | `Verif.Tok.c56_memory` | propext, Classical.choice, Quot.sound |
| C56 | `Verif.Tok.c56_language` | propext, Classical.choice, Quot.sound |
| C56 | `Verif.Tok.c56_same_outcomes` | propext, Classical.choice, Quot.sound |
| C56 | `Verif.Tok.c56_allocator` | propext, Classical.choice, Quot.sound |
| C57 | `Verif.Par.c57_sound` | propext, Classical.choice, Quot.sound |
| C57 | `Verif.Par.c57_complete` | propext, Classical.choice, Quot.sound |
| C57 | `Verif.Par.c57_evaluation` | propext, Classical.choice, Quot.sound |
| C57 | `Verif.Par.c57_failed` | propext, Classical.choice, Quot.sound |
| C57 | `Verif.Par.c57_rejected` | propext, Classical.choice, Quot.sound |
| C57 | `Verif.Par.c57_viable` | propext, Classical.choice, Quot.sound |
| C57 | `Verif.Par.c57_no_panic` | propext, Classical.choice, Quot.sound |
| C57 | `Verif.Par.c57_linear` | propext, Classical.choice, Quot.sound |
| C57 | `Verif.Par.c57_one_outcome` | propext, Quot.sound |
| C57 | `Verif.Par.c57_outcomes` | propext, Classical.choice, Quot.sound |
| C57 | `Verif.Par.c57_apart` | propext, Quot.sound |
| C57 | `Verif.Par.c57_look_ahead` | propext |
| C58 | `Verif.Tok.c58_owned` | propext, Classical.choice, Quot.sound |
| C58 | `Verif.Tok.c58_memory` | propext, Classical.choice, Quot.sound |
| C58 | `Verif.Tok.c58_tables` | propext, Classical.choice, Quot.sound |
| C58 | `Verif.Tok.c58_same_outcomes` | propext, Classical.choice, Quot.sound |
| C58 | `Verif.Tok.c58_addresses` | propext, Classical.choice, Quot.sound |
| C59 | `Verif.Par.c59_same` | propext, Classical.choice, Quot.sound |
| C59 | `Verif.Par.c59_warnings` | propext, Classical.choice, Quot.sound |
| C59 | `Verif.Par.c59_outcomes` | propext, Classical.choice, Quot.sound |
| C59 | `Verif.Par.c59_renumber` | propext, Classical.choice, Quot.sound |
| C59 | `Verif.Par.c59_unreachable` | propext, Classical.choice, Quot.sound |
| C59 | `Verif.Par.c59_order` | propext, Classical.choice, Quot.sound |
| C59 | `Verif.Par.c59_order_matters` | propext, Quot.sound |
| C60 | `Verif.Tok.c60_parts` | propext, Classical.choice, Quot.sound |
| C60 | `Verif.Tok.c60_resync` | propext, Classical.choice, Quot.sound |
| C60 | `Verif.Tok.c60_join_iff` | propext, Classical.choice, Quot.sound |
| C60 | `Verif.Tok.c60_separator` | propext, Classical.choice, Quot.sound |
| C60 | `Verif.Tok.c60_not_anywhere` | propext |
| C61 | `Verif.Par.c61_only_at_end` | propext, Classical.choice, Quot.sound |
| C61 | `Verif.Par.c61_no_place` | propext, Classical.choice, Quot.sound |
| C61 | `Verif.Par.c61_endless` | propext, Classical.choice, Quot.sound |
| C61 | `Verif.Par.c61_lost` | propext, Quot.sound |
| C62 | `Verif.Par.c62_statements` | propext, Classical.choice, Quot.sound |
| C62 | `Verif.Par.c62_covers` | propext, Classical.choice, Quot.sound |
| C62 | `Verif.Par.c62_total` | propext, Classical.choice, Quot.sound |
| C62 | `Verif.Par.c62_kept` | propext, Classical.choice, Quot.sound |
| C62 | `Verif.Par.c62_lost` | propext, Classical.choice, Quot.sound |
| C62 | `Verif.Par.c62_example` | propext, Classical.choice, Quot.sound |
| C63 | `Verif.Par.c63_takes` | propext, Classical.choice, Quot.sound |
| C63 | `Verif.Par.c63_exact` | propext, Classical.choice, Quot.sound |
| C63 | `Verif.Par.c63_unique` | propext, Classical.choice, Quot.sound |
| C63 | `Verif.Par.c63_no_conflict` | propext, Classical.choice, Quot.sound |
| C63 | `Verif.Par.c63_example` | propext, Classical.choice, Quot.sound |
| C64 | `Verif.Par.c64_ends` | propext, Classical.choice, Quot.sound |
| C64 | `Verif.Par.c64_rejects` | propext, Classical.choice, Quot.sound |
| C64 | `Verif.Par.c64_chain_diverges` | propext, Quot.sound |
| C65 | `Verif.Par.c65_takes` | propext, Classical.choice, Quot.sound |
| C65 | `Verif.Par.c65_one_tree` | propext, Classical.choice, Quot.sound |
| C65 | `Verif.Par.c65_decides` | propext, Classical.choice, Quot.sound |
| C66 | `Verif.Tok.c66_states` | propext, Classical.choice, Quot.sound |
| C66 | `Verif.Tok.c66_same_size` | propext, Classical.choice, Quot.sound |
| C66 | `Verif.Tok.c66_bound` | propext, Classical.choice, Quot.sound |
| C66 | `Verif.Tok.c66_blowup` | propext, Classical.choice, Quot.sound |
| C67 | `Verif.Par.c67_no_warnings` | propext, Classical.choice, Quot.sound |
| C67 | `Verif.Par.c67_reads` | propext, Classical.choice, Quot.sound |
| C67 | `Verif.Par.c67_every` | propext, Classical.choice, Quot.sound |
| C67 | `Verif.Par.c67_round_trip` | propext, Classical.choice, Quot.sound |
| C67 | `Verif.Par.c67_roles` | propext, Quot.sound |
| C68 | `Verif.Par.c68_stack` | propext, Classical.choice, Quot.sound |
| C68 | `Verif.Par.c68_tree` | propext, Classical.choice, Quot.sound |
| C68 | `Verif.Par.c68_nesting` | propext, Quot.sound |
| C68 | `Verif.Par.c68_flat` | propext, Classical.choice, Quot.sound |
| C68 | `Verif.Par.c68_nests` | propext, Classical.choice, Quot.sound |
| C68 | `Verif.Par.c68_tokens` | propext, Classical.choice, Quot.sound |
| C68 | `Verif.Par.c68_keeps` | propext, Classical.choice, Quot.sound |
| C68 | `Verif.Par.c68_left` | propext, Classical.choice, Quot.sound |
| C68 | `Verif.Par.c68_right` | propext, Classical.choice, Quot.sound |
| C69 | `Verif.Par.c69_sentence` | propext, Classical.choice, Quot.sound |
| C69 | `Verif.Par.c69_same` | propext, Classical.choice, Quot.sound |
| C69 | `Verif.Par.TestMain.c69_test_main` | propext, Classical.choice, Quot.sound |
| C70 | `Verif.Tok.Words.c70_cuts` | propext, Classical.choice, Quot.sound |
| C70 | `Verif.Tok.Words.c70_builds` | propext, Classical.choice, Quot.sound |
| C70 | `Verif.Tok.Words.c70_warnings` | propext, Classical.choice, Quot.sound |
| C70 | `Verif.Tok.Words.c70_normal` | propext, Classical.choice, Quot.sound |
| C70 | `Verif.Tok.Words.c70_with` | propext, Classical.choice, Quot.sound |
| C70 | `Verif.Tok.Words.c70_parts` | propext, Quot.sound |
| C70 | `Verif.Tok.Words.c70_collision` | propext, Quot.sound |
| C71 | `Verif.Par.c71_no_warnings` | propext, Classical.choice, Quot.sound |
| C71 | `Verif.Par.c71_builds` | propext, Classical.choice, Quot.sound |
| C71 | `Verif.Par.c71_unambiguous` | propext, Classical.choice, Quot.sound |
| C71 | `Verif.Par.c71_parse` | propext, Classical.choice, Quot.sound |
| C71 | `Verif.Par.c71_check` | propext, Quot.sound |
| C71 | `Verif.Par.c71_ranked` | propext, Classical.choice, Quot.sound |
| C71 | `Verif.Par.c71_fruitless` | propext, Quot.sound |
| C71 | `Verif.Par.c71_converse` | propext, Classical.choice, Quot.sound |
| C72 | `Verif.Par.c72_fewer_rules` | propext, Classical.choice, Quot.sound |
| C72 | `Verif.Par.c72_other_start` | propext, Classical.choice, Quot.sound |
| C72 | `Verif.Par.c72_same_values` | propext, Classical.choice, Quot.sound |
| C72 | `Verif.Par.c72_hidden` | propext, Quot.sound |
| C73 | `Verif.Par.c73_states` | propext, Classical.choice, Quot.sound |
| C73 | `Verif.Par.c73_actions` | propext, Classical.choice, Quot.sound |
| C73 | `Verif.Par.c73_gotos` | propext, Classical.choice, Quot.sound |
| C73 | `Verif.Par.c73_cyclic` | propext, Classical.choice, Quot.sound |
| C73 | `Verif.Par.c73_conflict` | propext, Classical.choice, Quot.sound |
| C73 | `Verif.Par.c73_unproductive` | propext, Quot.sound |
| C74 | `Verif.Tok.c74_exact` | propext, Classical.choice, Quot.sound |
| C74 | `Verif.Tok.c74_same_tokens` | propext, Classical.choice, Quot.sound |
| C74 | `Verif.Tok.c74_warned_order` | propext, Classical.choice, Quot.sound |
| C74 | `Verif.Tok.c74_no_warnings` | propext, Classical.choice, Quot.sound |
| C74 | `Verif.Tok.c74_turned` | propext, Classical.choice, Quot.sound |
| C74 | `Verif.Tok.c74_appended` | propext, Classical.choice, Quot.sound |
| C74 | `Verif.Tok.c74_shadowed` | propext, Classical.choice, Quot.sound |
| C75 | `Verif.Par.c75_exact` | propext, Classical.choice, Quot.sound |
| C75 | `Verif.Par.c75_upper` | propext, Classical.choice, Quot.sound |
| C75 | `Verif.Par.c75_entries` | propext, Classical.choice, Quot.sound |
| C75 | `Verif.Par.c75_blowup` | propext, Classical.choice, Quot.sound |
| C76 | `Verif.Par.c76_no_warnings` | propext, Classical.choice, Quot.sound |
| C76 | `Verif.Par.c76_sentences` | propext, Quot.sound |
| C76 | `Verif.Par.c76_one_tree` | propext, Classical.choice, Quot.sound |
| C76 | `Verif.Par.c76_check` | propext, Quot.sound |
| C76 | `Verif.Par.c76_separated` | propext, Classical.choice, Quot.sound |
| C76 | `Verif.Par.c76_terminated` | propext, Classical.choice, Quot.sound |
| C76 | `Verif.Par.c76_needed` | propext, Quot.sound |
| C76 | `Verif.Par.c76_values` | propext, Classical.choice, Quot.sound |
| C76 | `Verif.Par.c76_inner_error` | propext, Classical.choice, Quot.sound |
| C77 | `Verif.Tok.c77_texts` | propext, Classical.choice, Quot.sound |
| C77 | `Verif.Tok.c77_simple` | propext, Classical.choice, Quot.sound |
| C77 | `Verif.Tok.c77_check` | propext, Classical.choice, Quot.sound |
| C77 | `Verif.Tok.c77_decides` | propext, Classical.choice, Quot.sound |
| C77 | `Verif.Tok.c77_language` | propext, Classical.choice, Quot.sound |
| C77 | `Verif.Tok.c77_needed` | propext, Classical.choice, Quot.sound |
| C78 | `Verif.Tok.c78_builds` | propext, Classical.choice, Quot.sound |
| C78 | `Verif.Tok.c78_rewrite` | propext, Classical.choice, Quot.sound |
| C78 | `Verif.Tok.c78_safe` | propext, Classical.choice, Quot.sound |
| C78 | `Verif.Tok.c78_unsafe` | propext, Classical.choice, Quot.sound |
| C78 | `Verif.Tok.c78_unsafe_more` | propext, Quot.sound |
| C79 | `Verif.Par.c79_family` | propext, Quot.sound |
| C79 | `Verif.Par.c79_no_warnings` | propext, Classical.choice, Quot.sound |
| C79 | `Verif.Par.c79_builds` | propext, Classical.choice, Quot.sound |
| C79 | `Verif.Par.c79_lr1` | propext, Classical.choice, Quot.sound |
| C79 | `Verif.Par.c79_parse` | propext, Classical.choice, Quot.sound |
| C79 | `Verif.Par.c79_check` | propext, Quot.sound |
| C79 | `Verif.Par.c79_strict` | propext, Quot.sound |
| C79 | `Verif.Par.c79_decided` | propext, Classical.choice, Quot.sound |
| C80 | `Verif.Par.c80_equal_same` | propext, Quot.sound |
| C80 | `Verif.Par.c80_equivalence` | propext, Quot.sound |
| C80 | `Verif.Par.c80_callbacks` | propext, Classical.choice, Quot.sound |
| C80 | `Verif.Par.c80_new` | propext, Classical.choice, Quot.sound |
| C80 | `Verif.Par.c80_same_order` | propext, Quot.sound |
| C80 | `Verif.Par.c80_not_equal` | propext, Classical.choice, Quot.sound |
| C81 | `Verif.Par.c81_lr1` | propext, Classical.choice, Quot.sound |
| C81 | `Verif.Par.c81_no_warnings` | propext, Classical.choice, Quot.sound |
| C81 | `Verif.Par.c81_sentences` | propext, Classical.choice, Quot.sound |
| C81 | `Verif.Par.c81_values` | propext, Classical.choice, Quot.sound |
| C81 | `Verif.Par.c81_rejects` | propext, Classical.choice, Quot.sound |
| C81 | `Verif.Par.c81_converse` | propext, Quot.sound |
| C81 | `Verif.Par.c81_everywhere` | propext, Quot.sound |
| C81 | `Verif.Par.c81_other_error` | propext, Quot.sound |
| C82 | `Verif.Par.c82_exponential` | propext, Classical.choice, Quot.sound |
| C82 | `Verif.Par.c82_no_polynomial` | propext, Classical.choice, Quot.sound |
| C83 | `Verif.Par.c83_quadratic` | propext, Classical.choice, Quot.sound |
| C83 | `Verif.Par.c83_check` | propext, Classical.choice, Quot.sound |
| C83 | `Verif.Par.c83_not_settled` | propext, Classical.choice, Quot.sound |
| C83 | `Verif.Par.c83_written_out` | propext, Classical.choice, Quot.sound |
| C83 | `Verif.Par.c83_tight` | propext, Classical.choice, Quot.sound |
| C83 | `Verif.Par.c83_recovery_differs` | propext |
| C84 | `Verif.Par.c84_exponential_bound` | propext, Classical.choice, Quot.sound |
| C84 | `Verif.Par.c84_between` | propext, Classical.choice, Quot.sound |
| C85 | `Verif.Par.c85_covered` | propext, Classical.choice, Quot.sound |
| C85 | `Verif.Par.c85_handed` | propext, Classical.choice, Quot.sound |
| C85 | `Verif.Par.c85_check` | propext, Classical.choice, Quot.sound |
| C85 | `Verif.Par.c85_blocks` | propext, Classical.choice, Quot.sound |
| C85 | `Verif.Par.c85_sums` | propext, Classical.choice, Quot.sound |
| C85 | `Verif.Par.c85_forgotten` | propext, Classical.choice, Quot.sound |
| C85 | `Verif.Par.c85_forgotten_empty` | propext, Classical.choice, Quot.sound |
| C86 | `Verif.Par.c86_kept` | propext, Classical.choice, Quot.sound |
| C86 | `Verif.Par.c86_phrase` | propext, Classical.choice, Quot.sound |
| C86 | `Verif.Par.c86_check` | propext, Classical.choice, Quot.sound |
| C86 | `Verif.Par.c86_blocks` | propext, Classical.choice, Quot.sound |
| C86 | `Verif.Par.c86_next_needed` | propext, Classical.choice, Quot.sound |
| C86 | `Verif.Par.c86_keeps_needed` | propext, Classical.choice, Quot.sound |
| C87 | `Verif.Tok.c87_first` | propext, Classical.choice, Quot.sound |
| C87 | `Verif.Tok.c87_single` | propext, Classical.choice, Quot.sound |
| C87 | `Verif.Tok.c87_added` | propext, Classical.choice, Quot.sound |
| C87 | `Verif.Tok.c87_builds` | propext, Classical.choice, Quot.sound |
| C87 | `Verif.Tok.c87_warnings` | propext, Classical.choice, Quot.sound |
| C88 | `Verif.Par.c88_result` | propext, Classical.choice, Quot.sound |
| C88 | `Verif.Par.c88_always` | propext, Classical.choice, Quot.sound |
| C88 | `Verif.Par.c88_exact` | propext, Classical.choice, Quot.sound |
| C88 | `Verif.Par.c88_check` | propext, Classical.choice, Quot.sound |
| C88 | `Verif.Par.c88_sums` | propext, Classical.choice, Quot.sound |
| C88 | `Verif.Par.c88_statements` | propext, Classical.choice, Quot.sound |
| C88 | `Verif.Par.c88_given_up` | propext, Classical.choice, Quot.sound |
| C88 | `Verif.Par.c88_twice` | propext, Classical.choice, Quot.sound |
| C89 | `Verif.Par.c89_resume` | propext, Classical.choice, Quot.sound |
| C89 | `Verif.Par.c89_never` | propext, Classical.choice, Quot.sound |
| C89 | `Verif.Par.c89_no_stop` | propext, Classical.choice, Quot.sound |
| C89 | `Verif.Par.c89_check` | propext, Quot.sound |
| C89 | `Verif.Par.c89_skips` | propext |
| C89 | `Verif.Par.c89_skips_all` | propext |
| C89 | `Verif.Par.c89_sums_not` | propext |
| C90 | `Verif.Tok.c90_patterns` | propext, Classical.choice, Quot.sound |
| C90 | `Verif.Tok.c90_check` | propext, Classical.choice, Quot.sound |
| C90 | `Verif.Tok.c90_bounded_or_not` | propext, Classical.choice, Quot.sound |
| C90 | `Verif.Tok.c90_unbounded` | propext, Classical.choice, Quot.sound |
| C90 | `Verif.Tok.c90_weaker` | propext, Quot.sound |
| C90 | `Verif.Tok.c90_reads` | propext, Classical.choice, Quot.sound |
| C90 | `Verif.Tok.c90_memory` | propext, Classical.choice, Quot.sound |
| C90 | `Verif.Tok.c90_linear` | propext, Classical.choice, Quot.sound |
| C90 | `Verif.Tok.c90_far` | propext, Classical.choice, Quot.sound |
| C90 | `Verif.Tok.c90_strictly` | propext, Classical.choice, Quot.sound |
| C90 | `Verif.Tok.c90_late` | propext, Classical.choice, Quot.sound |
| C91 | `Verif.Par.c91_damaged` | propext, Classical.choice, Quot.sound |
| C91 | `Verif.Par.c91_unfailing` | propext, Classical.choice, Quot.sound |
| C91 | `Verif.Par.c91_blocks` | propext, Classical.choice, Quot.sound |
| C91 | `Verif.Par.c91_needs_follow` | propext |
| C92 | `Verif.Par.c92_tokens` | propext, Classical.choice, Quot.sound |
| C92 | `Verif.Par.c92_layout` | propext, Classical.choice, Quot.sound |
| C92 | `Verif.Par.c92_separated` | propext, Classical.choice, Quot.sound |
| C92 | `Verif.Par.c92_spelled` | propext, Classical.choice, Quot.sound |
| C92 | `Verif.Par.c92_goes_on` | propext, Classical.choice, Quot.sound |
| C92 | `Verif.Par.c92_roundtrip` | propext, Classical.choice, Quot.sound |
| C92 | `Verif.Par.c92_calculator` | propext, Classical.choice, Quot.sound |
| C92 | `Verif.Par.c92_needs_unmixed` | propext, Quot.sound |
| C92 | `Verif.Par.c92_needs_blank` | propext, Classical.choice, Quot.sound |
| C93 | `Verif.Par.c93_error_text` | propext, Classical.choice, Quot.sound |
| C93 | `Verif.Par.c93_places` | propext, Classical.choice, Quot.sound |
| C93 | `Verif.Par.c93_phrases` | propext, Classical.choice, Quot.sound |
| C94 | `Verif.Par.c94_parts` | propext, Classical.choice, Quot.sound |
| C94 | `Verif.Par.c94_exchange` | propext, Classical.choice, Quot.sound |
| C94 | `Verif.Par.c94_calls` | propext, Classical.choice, Quot.sound |
| C94 | `Verif.Par.c94_needs_phrase` | propext, Quot.sound |
| C95 | `Verif.Tok.c95_before` | propext, Classical.choice, Quot.sound |
| C95 | `Verif.Tok.c95_sharp` | propext, Classical.choice, Quot.sound |
| C95 | `Verif.Tok.c95_border` | propext, Classical.choice, Quot.sound |
| C95 | `Verif.Par.c95_text` | propext, Classical.choice, Quot.sound |
| C96 | `Verif.Par.c96_like` | propext, Classical.choice, Quot.sound |
| C96 | `Verif.Par.c96_added` | propext, Classical.choice, Quot.sound |
| C96 | `Verif.Par.c96_fusion` | propext, Classical.choice, Quot.sound |
| C96 | `Verif.Tok.c96_items` | propext, Classical.choice, Quot.sound |
| C97 | `Verif.Par.c97_residues` | propext, Classical.choice, Quot.sound |
| C97 | `Verif.Par.c97_distinct` | propext, Classical.choice, Quot.sound |
| C97 | `Verif.Par.c97_palindromes` | propext, Classical.choice, Quot.sound |
| C97 | `Verif.Par.c97_marked` | propext, Quot.sound |
| C98 | `Verif.TestErr.c98_builds` | propext, Classical.choice, Quot.sound |
| C98 | `Verif.TestErr.c98_every_input` | propext, Classical.choice, Quot.sound |
| C98 | `Verif.TestErr.c98_unique` | propext, Classical.choice, Quot.sound |
| C98 | `Verif.TestErr.c98_back` | propext, Classical.choice, Quot.sound |
| C98 | `Verif.TestErr.c98_gives_up` | propext, Classical.choice, Quot.sound |
| C99 | `Verif.Machine.Machine.c99_reads` | propext, Quot.sound |
| C99 | `Verif.Machine.Machine.c99_left` | propext, Classical.choice, Quot.sound |
| C99 | `Verif.Machine.Machine.c99_right` | propext, Classical.choice, Quot.sound |
| C99 | `Verif.Machine.Machine.c99_trim` | propext, Classical.choice, Quot.sound |
| C99 | `Verif.Machine.Machine.c99_tokenizer` | propext, Classical.choice, Quot.sound |

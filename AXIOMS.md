# Axioms per theorem

Generated by `tools/axioms.py` from `#print axioms`.

| property | theorem | axioms |
|---|---|---|
| C01 | `Egg.c01_same_class_iff` | propext, Classical.choice, Quot.sound |
| C01 | `Egg.c01_added_iff` | propext, Classical.choice, Quot.sound |
| C02 | `Egg.c02_no_spurious_equality` | propext, Classical.choice, Quot.sound |
| C02 | `Egg.c02_no_spurious_equality_mid_rebuild` | propext, Classical.choice, Quot.sound |
| C03 | `Egg.c03_find_idempotent` | propext, Classical.choice, Quot.sound |
| C03 | `Egg.c03_compression_invisible` | propext, Classical.choice, Quot.sound |
| C03 | `Egg.c03_union_find` | propext, Classical.choice, Quot.sound |
| C03 | `Egg.c03_egraph_find` | propext, Classical.choice, Quot.sound |
| C04 | `Egg.c04_union_exact` | propext, Classical.choice, Quot.sound |
| C04 | `Egg.c04_union_any_hooks` | propext, Classical.choice, Quot.sound |
| C05 | `Egg.c05_add_contains` | propext, Classical.choice, Quot.sound |
| C05 | `Egg.c05_add_again` | propext, Classical.choice, Quot.sound |
| C05 | `Egg.c05_add_rebuilt` | propext, Classical.choice, Quot.sound |
| C05 | `Egg.c05_explanations_before_rebuild_counterexample` | propext, Quot.sound |
| C06 | `Egg.c06_lookup_expr` | propext, Classical.choice, Quot.sound |
| C06 | `Egg.c06_lookup_expr_live` | propext, Classical.choice, Quot.sound |
| C06 | `Egg.c06_unused_node_counterexample` | propext, Classical.choice, Quot.sound |
| C07 | `Egg.c07_only_grow` | propext, Classical.choice, Quot.sound |
| C08 | `Egg.c08_rebuild_idempotent` | propext, Classical.choice, Quot.sound |
| C09 | `Egg.c09_rebuild_terminates` | propext, Classical.choice, Quot.sound |
| C09 | `Egg.c09_fuel_irrelevant` | propext, Quot.sound |
| C10 | `Egg.c10_no_panic` | propext, Classical.choice, Quot.sound |
| C100 | `Egg.c100_fair` | propext, Classical.choice, Quot.sound |
| C100 | `Egg.c100_saturates` | propext, Classical.choice, Quot.sound |
| C100 | `Egg.c100_warned` | propext, Quot.sound |
| C100 | `Egg.c100_same_name_counterexample` | propext, Classical.choice, Quot.sound |
| C101 | `Egg.c101_search_sound` | propext, Classical.choice, Quot.sound |
| C101 | `Egg.c101_search_complete` | propext, Classical.choice, Quot.sound |
| C101 | `Egg.c101_search_finds_instances` | propext, Classical.choice, Quot.sound |
| C101 | `Egg.c101_run_sound` | propext, Classical.choice, Quot.sound |
| C102 | `Egg.c102_chase` | propext, Classical.choice, Quot.sound |
| C102 | `Egg.c102_fixpoint` | propext, Classical.choice, Quot.sound |
| C102 | `Egg.c102_sound` | propext, Classical.choice, Quot.sound |
| C102 | `Egg.c102_exact` | propext, Classical.choice, Quot.sound |
| C102 | `Egg.c102_decides` | propext, Classical.choice, Quot.sound |
| C102 | `Egg.c102_closes` | propext, Classical.choice, Quot.sound |
| C103 | `Egg.c103_reaches` | propext, Classical.choice, Quot.sound |
| C103 | `Egg.c103_finite` | propext, Classical.choice, Quot.sound |
| C104 | `Egg.c104_backoff` | propext, Classical.choice, Quot.sound |
| C104 | `Egg.c104_decides` | propext, Classical.choice, Quot.sound |
| C104 | `Egg.c104_reaches` | propext, Classical.choice, Quot.sound |
| C104 | `Egg.c104_saturated` | propext, Classical.choice, Quot.sound |
| C104 | `Egg.c104_saturated_decides` | propext, Classical.choice, Quot.sound |
| C105 | `Egg.c105_sound` | propext, Classical.choice, Quot.sound |
| C105 | `Egg.c105_complete` | propext, Classical.choice, Quot.sound |
| C105 | `Egg.c105_backoff` | propext, Classical.choice, Quot.sound |
| C105 | `Egg.c105_saturated` | propext, Classical.choice, Quot.sound |
| C105 | `Egg.c105_early` | propext, Classical.choice, Quot.sound |
| C106 | `Egg.c106_proved` | propext, Classical.choice, Quot.sound |
| C106 | `Egg.c106_returns` | propext, Classical.choice, Quot.sound |
| C106 | `Egg.c106_matches` | propext, Classical.choice, Quot.sound |
| C106 | `Egg.c106_zero` | propext, Classical.choice, Quot.sound |
| C107 | `Egg.c107_sound` | propext, Classical.choice, Quot.sound |
| C107 | `Egg.c107_test` | propext, Classical.choice, Quot.sound |
| C107 | `Egg.c107_nodes` | propext, Classical.choice, Quot.sound |
| C107 | `Egg.c107_data` | propext, Classical.choice, Quot.sound |
| C107 | `Egg.c107_equal` | propext, Classical.choice, Quot.sound |
| C108 | `Egg.c108_sound` | propext, Classical.choice, Quot.sound |
| C108 | `Egg.c108_closed` | propext, Classical.choice, Quot.sound |
| C108 | `Egg.c108_exact` | propext, Classical.choice, Quot.sound |
| C108 | `Egg.c108_unique` | propext, Classical.choice, Quot.sound |
| C11 | `Egg.c11_partition` | propext, Classical.choice, Quot.sound |
| C12 | `Egg.c12_operator_index` | propext, Classical.choice, Quot.sound |
| C13 | `Egg.c13_analysis_invariant` | propext, Classical.choice, Quot.sound |
| C14 | `Egg.c14_merge_max` | propext, Classical.choice, Quot.sound |
| C14 | `Egg.c14_merge_min` | propext, Classical.choice, Quot.sound |
| C14 | `Egg.c14_merge_option` | propext |
| C14 | `Egg.c14_merge_pair` | propext, Classical.choice, Quot.sound |
| C14 | `Egg.c14_max_is_join` | propext, Classical.choice, Quot.sound |
| C14 | `Egg.c14_min_is_join` | propext, Classical.choice, Quot.sound |
| C15 | `Egg.c15_id_to_expr` | propext, Classical.choice, Quot.sound |
| C15 | `Egg.c15_id_to_expr_invalid` | propext, Classical.choice, Quot.sound |
| C15 | `Egg.c15_lookup` | propext, Classical.choice, Quot.sound |
| C16 | `Egg.c16_remembers` | propext, Classical.choice, Quot.sound |
| C16 | `Egg.c16_add_again` | propext, Classical.choice, Quot.sound |
| C16 | `Egg.c16_needs_explanations_counterexample` | propext, Quot.sound |
| C17 | `Egg.c17_search_eclass_sound` | propext, Classical.choice, Quot.sound |
| C17 | `Egg.c17_search_sound` | propext, Classical.choice, Quot.sound |
| C18 | `Egg.c18_search_eclass_complete` | propext, Classical.choice, Quot.sound |
| C18 | `Egg.c18_search_complete` | propext, Classical.choice, Quot.sound |
| C18 | `Egg.c18_search_finds_instances` | propext, Classical.choice, Quot.sound |
| C19 | `Egg.c19_each_match_once` | propext, Classical.choice, Quot.sound |
| C20 | `Egg.c20_limit_truncates` | propext, Classical.choice, Quot.sound |
| C21 | `Egg.c21_fast_path` | propext, Classical.choice, Quot.sound |
| C22 | `Egg.c22_search_eclass` | propext, Classical.choice, Quot.sound |
| C22 | `Egg.c22_search` | propext, Classical.choice, Quot.sound |
| C22 | `Egg.c22_new_succeeds` | propext, Classical.choice, Quot.sound |
| C22 | `Egg.c22_variable_first_counterexample` | propext, Classical.choice, Quot.sound |
| C22 | `Egg.c22_bare_first` | propext, Quot.sound |
| C23 | `Egg.c23_apply_matches` | propext, Classical.choice, Quot.sound |
| C23 | `Egg.c23_apply_one` | propext, Classical.choice, Quot.sound |
| C23 | `Egg.c23_effect` | propext, Classical.choice, Quot.sound |
| C23 | `Egg.c23_effect_at_once` | propext, Classical.choice, Quot.sound |
| C23 | `Egg.c23_adds_only_instances` | propext, Classical.choice, Quot.sound |
| C24 | `Egg.c24_new` | propext, Quot.sound |
| C24 | `Egg.c24_accepted_never_panics` | propext, Classical.choice, Quot.sound |
| C24 | `Egg.c24_dead_variable_counterexample` | propext, Classical.choice, Quot.sound |
| C25 | `Egg.c25_run_reach` | propext, Classical.choice, Quot.sound |
| C25 | `Egg.c25_eqsat_sound` | propext, Classical.choice, Quot.sound |
| C25 | `Egg.simple_honest` | propext, Quot.sound |
| C25 | `Egg.backoff_honest` | propext, Quot.sound |
| C26 | `Egg.c26_saturated_closed` | propext, Classical.choice, Quot.sound |
| C26 | `Egg.c26_closed_terms` | propext, Classical.choice, Quot.sound |
| C26 | `Egg.simple_thorough` | propext, Quot.sound |
| C26 | `Egg.backoff_thorough` | propext, Classical.choice, Quot.sound |
| C26 | `Egg.backoff_default_ok` | propext |
| C26 | `Egg.c26_zero_ban_length_counterexample` | propext, Classical.choice, Quot.sound |
| C27 | `Egg.c27_run_stops` | propext, Quot.sound |
| C27 | `Egg.c27_bounded` | propext, Classical.choice, Quot.sound |
| C27 | `Egg.simple_limited` | propext, Quot.sound |
| C27 | `Egg.backoff_limited` | propext, Quot.sound |
| C28 | `Egg.c28_search_rule` | propext, Classical.choice, Quot.sound |
| C28 | `Egg.c28_can_stop` | propext, Classical.choice, Quot.sound |
| C28 | `Egg.c28_do_not_ban` | propext, Classical.choice, Quot.sound |
| C28 | `Egg.c28_zero_match_limit_counterexample` | propext, Quot.sound |
| C28 | `Egg.c28_settings` | propext, Quot.sound |
| C29 | `Egg.c29_c30_find_best` | propext, Classical.choice, Quot.sound |
| C30 | `Egg.c29_c30_find_best` | propext, Classical.choice, Quot.sound |
| C30 | `Egg.c30_astSize_ok` | propext, Classical.choice, Quot.sound |
| C30 | `Egg.c30_astDepth_ok` | propext, Classical.choice, Quot.sound |
| C31 | `Egg.c31_new_terminates` | propext, Classical.choice, Quot.sound |
| C31 | `Egg.c29_c30_find_best` | propext, Classical.choice, Quot.sound |
| C31 | `Egg.c31_find_best_node` | propext, Classical.choice, Quot.sound |
| C32 | `Egg.Lp.c32_prepared` | propext, Classical.choice, Quot.sound |
| C32 | `Egg.Lp.c32_cycles` | propext, Classical.choice, Quot.sound |
| C32 | `Egg.Lp.c32_extract` | propext, Classical.choice, Quot.sound |
| C32 | `Egg.Lp.c32_feasible_iff` | propext, Classical.choice, Quot.sound |
| C32 | `Egg.Lp.c32_optimal` | propext, Classical.choice, Quot.sound |
| C32 | `Egg.Lp.c32_acyclic` | propext, Classical.choice, Quot.sound |
| C32 | `Egg.c32_order_counterexample` | propext, Classical.choice, Quot.sound |
| C33 | `Egg.c33_explains` | propext, Classical.choice, Quot.sound |
| C33 | `Egg.c33_requests` | propext, Classical.choice, Quot.sound |
| C33 | `Egg.c33_exprs` | propext, Classical.choice, Quot.sound |
| C33 | `Egg.c33_unoptimized` | propext, Classical.choice, Quot.sound |
| C33 | `Egg.c33_panics` | propext, Classical.choice, Quot.sound |
| C33 | `Egg.c33_disabled` | propext, Classical.choice, Quot.sound |
| C33 | `Egg.c33_stays_off` | propext, Classical.choice, Quot.sound |
| C33 | `Egg.c33_optimized_counterexample` | propext, Classical.choice, Quot.sound |
| C33 | `Egg.c33_fuel` | propext, Quot.sound |
| C34 | `Egg.c34_valid` | propext, Classical.choice, Quot.sound |
| C34 | `Egg.c34_valid_asserted` | propext, Classical.choice, Quot.sound |
| C34 | `Egg.c34_valid_exprs` | propext, Classical.choice, Quot.sound |
| C34 | `Egg.c34_check_proof` | propext, Classical.choice, Quot.sound |
| C34 | `Egg.c34_rules` | propext, Classical.choice, Quot.sound |
| C34 | `Egg.c34_apply_matches` | propext, Classical.choice, Quot.sound |
| C34 | `Egg.c34_checker_unsound_counterexample` | propext, Quot.sound |
| C35 | `Egg.c35_listed_sound` | propext, Classical.choice, Quot.sound |
| C35 | `Egg.c35_listed_asserted` | propext, Classical.choice, Quot.sound |
| C35 | `Egg.c35_listed_complete` | propext, Classical.choice, Quot.sound |
| C35 | `Egg.c35_panic` | none |
| C36 | `Egg.c36_copy` | propext, Classical.choice, Quot.sound |
| C36 | `Egg.c36_copy_panic` | propext |
| C36 | `Egg.c36_copy_no_unions` | propext, Classical.choice, Quot.sound |
| C36 | `Egg.c36_careful` | propext, Classical.choice, Quot.sound |
| C36 | `Egg.c36_copy_counterexample` | propext, Quot.sound |
| C36 | `Egg.c36_copy_panic_counterexample` | propext, Quot.sound |
| C37 | `Egg.c37_intersect` | propext, Classical.choice, Quot.sound |
| C37 | `Egg.c37_intersect_rebuilt` | propext, Classical.choice, Quot.sound |
| C38 | `Egg.c38_union_iff` | propext, Classical.choice, Quot.sound |
| C38 | `Egg.c38_union_steps` | propext, Classical.choice, Quot.sound |
| C38 | `Egg.c38_union_keeps` | propext, Classical.choice, Quot.sound |
| C38 | `Egg.c38_union_returns` | propext, Classical.choice, Quot.sound |
| C38 | `Egg.c38_union_panic` | propext |
| C39 | `Egg.c39_is_dag` | propext, Quot.sound |
| C39 | `Egg.c39_compact` | propext, Classical.choice, Quot.sound |
| C39 | `Egg.c39_compact_root` | propext, Classical.choice, Quot.sound |
| C39 | `Egg.c39_compact_live` | propext, Classical.choice, Quot.sound |
| C39 | `Egg.c39_compact_counterexample` | propext, Classical.choice, Quot.sound |
| C39 | `Egg.c39_build` | propext, Classical.choice, Quot.sound |
| C39 | `Egg.c39_extract` | propext, Classical.choice, Quot.sound |
| C39 | `Egg.c39_join` | propext, Classical.choice, Quot.sound |
| C40 | `Egg.c40_print` | propext, Classical.choice, Quot.sound |
| C40 | `Egg.c40_roundtrip` | propext, Classical.choice, Quot.sound |
| C40 | `Egg.c40_roundtrip_text` | propext, Classical.choice, Quot.sound |
| C40 | `Egg.c40_pretty` | propext, Classical.choice, Quot.sound |
| C40 | `Egg.c40_parse_wellformed` | propext, Classical.choice, Quot.sound |
| C40 | `Egg.c40_parse_no_panic` | none |
| C40 | `Egg.c40_panic_counterexample` | propext, Classical.choice, Quot.sound |
| C40 | `Egg.c40_empty_counterexample` | propext, Classical.choice, Quot.sound |
| C40 | `Egg.c40_pattern_readable` | propext, Classical.choice, Quot.sound |
| C40 | `Egg.c40_parse_iff` | propext, Classical.choice, Quot.sound |
| C40 | `Egg.c40_variable_with_arguments` | propext, Classical.choice, Quot.sound |
| C41 | `Egg.c41_grammar` | propext, Classical.choice, Quot.sound |
| C41 | `Egg.c41_unambiguous` | propext, Classical.choice, Quot.sound |
| C41 | `Egg.c41_parse_terminates` | propext, Quot.sound |
| C41 | `Egg.c41_roundtrip` | propext, Classical.choice, Quot.sound |
| C41 | `Egg.c41_atom_exact` | propext, Classical.choice, Quot.sound |
| C41 | `Egg.c41_counterexamples` | propext, Classical.choice, Quot.sound |
| C41 | `Egg.c41_pretty` | propext, Classical.choice, Quot.sound |
| C41 | `Egg.c41_pretty_counterexample` | propext, Classical.choice, Quot.sound |
| C41 | `Egg.c41_white_space` | propext, Classical.choice, Quot.sound |
| C42 | `Egg.c42_subst_map` | propext, Quot.sound |
| C43 | `Egg.c43_parse` | propext, Quot.sound |
| C43 | `Egg.c43_error` | propext, Quot.sound |
| C43 | `Egg.c43_roundtrip` | propext, Classical.choice, Quot.sound |
| C43 | `Egg.c43_injective` | propext, Classical.choice, Quot.sound |
| C43 | `Egg.c43_named` | propext, Quot.sound |
| C43 | `Egg.c43_from_symbol_counterexample` | propext, Classical.choice, Quot.sound |
| C44 | `Egg.c44_renames` | propext, Classical.choice, Quot.sound |
| C44 | `Egg.c44_canonical` | propext, Classical.choice, Quot.sound |
| C44 | `Egg.c44_idempotent` | propext, Classical.choice, Quot.sound |
| C45 | `Egg.c45_fifo` | propext, Classical.choice, Quot.sound |
| C45 | `Egg.c45_drain` | propext, Classical.choice, Quot.sound |
| C45 | `Egg.c45_inserted` | propext |
| C46 | `Egg.c46_ids` | propext |
| C46 | `Egg.c46_terms` | propext, Classical.choice, Quot.sound |
| C46 | `Egg.c46_class` | propext, Quot.sound |
| C46 | `Egg.c46_lookup` | propext, Quot.sound |
| C46 | `Egg.c46_rebuilt` | propext, Quot.sound |
| C46 | `Egg.c46_continue` | propext, Classical.choice, Quot.sound |
| C46 | `Egg.c46_collapse_counterexample` | propext, Classical.choice, Quot.sound |
| C46 | `Egg.c46_index_counterexample` | propext, Classical.choice, Quot.sound |
| C47 | `Egg.c47_clean_means_rebuilt` | propext, Classical.choice, Quot.sound |
| C47 | `Egg.c47_search_dirty_panics` | propext, Quot.sound |
| C47 | `Egg.c47_search_all_dirty` | propext, Quot.sound |
| C47 | `Egg.c47_set_data_counterexample` | propext, Quot.sound |
| C47 | `Egg.c47_dirty_search_counterexample` | propext, Classical.choice, Quot.sound |
| C48 | `Egg.c48_conditional` | propext, Quot.sound |
| C48 | `Egg.c48_equal_sound` | propext, Classical.choice, Quot.sound |
| C48 | `Egg.c48_equal_exact` | propext, Classical.choice, Quot.sound |
| C48 | `Egg.c48_stale_counterexample` | propext, Classical.choice, Quot.sound |
| C49 | `Egg.c49_cost_rec` | propext, Classical.choice, Quot.sound |
| C49 | `Egg.c49_astSize` | propext, Quot.sound |
| C49 | `Egg.c49_astDepth` | propext, Quot.sound |
| C50 | `Egg.c50_modify_delivered` | propext, Classical.choice, Quot.sound |
| C50 | `Egg.c50_modify_delivered_sound` | propext, Classical.choice, Quot.sound |
| C51 | `Egg.c51_number_of_classes` | propext, Classical.choice, Quot.sound |
| C51 | `Egg.c51_union` | propext, Classical.choice, Quot.sound |
| C51 | `Egg.c51_rebuild` | propext, Classical.choice, Quot.sound |
| C51 | `Egg.c51_is_empty` | propext, Classical.choice, Quot.sound |
| C51 | `Egg.c51_number_of_nodes` | propext, Classical.choice, Quot.sound |
| C52 | `Egg.c52_new` | propext, Classical.choice, Quot.sound |
| C52 | `Egg.c52_from_expr` | propext, Classical.choice, Quot.sound |
| C52 | `Egg.c52_from_text` | propext, Classical.choice, Quot.sound |
| C52 | `Egg.c52_try_from` | propext |
| C52 | `Egg.c52_try_from_error` | propext, Quot.sound |
| C52 | `Egg.c52_from_expr_counterexample` | propext, Classical.choice, Quot.sound |
| C53 | `Egg.c53_equivs` | propext, Classical.choice, Quot.sound |
| C53 | `Egg.c53_check_goals` | propext, Classical.choice, Quot.sound |
| C53 | `Egg.c53_equivs_counterexample` | propext, Classical.choice, Quot.sound |
| C54 | `Egg.c54_self_check` | propext, Classical.choice, Quot.sound |
| C54 | `Egg.c54_rebuild_checks` | propext, Classical.choice, Quot.sound |
| C54 | `Egg.c54_check_means` | propext, Quot.sound |
| C55 | `Egg.c55_check_each_explain` | propext, Classical.choice, Quot.sound |
| C55 | `Egg.c55_rules` | propext, Classical.choice, Quot.sound |
| C55 | `Egg.c55_same_name_counterexample` | propext, Quot.sound |
| C56 | `Egg.c56_explain_matches` | propext, Classical.choice, Quot.sound |
| C57 | `Egg.c57_run_steps` | propext, Classical.choice, Quot.sound |
| C57 | `Egg.c57_run_explained` | propext, Classical.choice, Quot.sound |
| C57 | `Egg.c57_iteration_check` | propext, Classical.choice, Quot.sound |
| C58 | `Egg.c58_simplify` | propext, Classical.choice, Quot.sound |
| C59 | `Egg.c59_data_describes` | propext, Classical.choice, Quot.sound |
| C59 | `Egg.c59_run` | propext, Classical.choice, Quot.sound |
| C59 | `Egg.c59_join_bound` | propext, Classical.choice, Quot.sound |
| C60 | `Egg.Decl.Value.c60_values` | propext, Classical.choice, Quot.sound |
| C60 | `Egg.Decl.c60_contiguous` | propext, Classical.choice, Quot.sound |
| C60 | `Egg.Decl.c60_from_op` | propext, Classical.choice, Quot.sound |
| C60 | `Egg.Decl.c60_from_op_error` | propext, Classical.choice, Quot.sound |
| C60 | `Egg.Decl.c60_roundtrip` | propext, Classical.choice, Quot.sound |
| C60 | `Egg.Decl.c60_uniform` | propext, Classical.choice, Quot.sound |
| C60 | `Egg.Decl.c60_expr_roundtrip` | propext, Classical.choice, Quot.sound |
| C60 | `Egg.c60_symbol_contiguous` | propext, Classical.choice, Quot.sound |
| C60 | `Egg.LangEx.c60_shadowed` | propext, Quot.sound |
| C61 | `Egg.c61_restored` | propext, Classical.choice, Quot.sound |
| C61 | `Egg.c61_rebuild` | propext, Classical.choice, Quot.sound |
| C62 | `Egg.c62_multi_sound` | propext, Classical.choice, Quot.sound |
| C62 | `Egg.c62_pattern_sound` | propext, Classical.choice, Quot.sound |
| C62 | `Egg.c62_eqsat_sound` | propext, Classical.choice, Quot.sound |
| C62 | `Egg.c62_effect` | propext, Classical.choice, Quot.sound |
| C62 | `Egg.c62_never_saturates_counterexample` | propext, Quot.sound |
| C63 | `Egg.c63_parse` | propext, Quot.sound |
| C63 | `Egg.c63_error` | propext, Quot.sound |
| C63 | `Egg.c63_denotes` | propext, Classical.choice, Quot.sound |
| C63 | `Egg.c63_from_text` | propext, Classical.choice, Quot.sound |
| C63 | `Egg.c63_roundtrip` | propext, Classical.choice, Quot.sound |
| C63 | `Egg.c63_equals_counterexample` | propext, Classical.choice, Quot.sound |
| C63 | `Egg.c63_empty_counterexample` | propext, Classical.choice, Quot.sound |
| C64 | `Egg.c64_check_iff` | propext, Classical.choice, Quot.sound |
| C64 | `Egg.c34_checker_unsound_counterexample` | propext, Quot.sound |
| C64 | `Egg.c64_shape` | propext, Quot.sound |
| C65 | `Egg.c65_id_to_pattern` | propext, Classical.choice, Quot.sound |
| C65 | `Egg.c65_unique` | propext, Quot.sound |
| C65 | `Egg.c65_instance` | propext, Classical.choice, Quot.sound |
| C65 | `Egg.c65_matches` | propext, Classical.choice, Quot.sound |
| C65 | `Egg.c65_variable` | propext, Classical.choice, Quot.sound |
| C66 | `Egg.c66_search_eclass` | propext, Classical.choice, Quot.sound |
| C66 | `Egg.c66_search` | propext, Classical.choice, Quot.sound |
| C66 | `Egg.c66_noncanonical_counterexample` | propext, Classical.choice, Quot.sound |
| C66 | `Egg.c66_multi_counterexample` | propext, Classical.choice, Quot.sound |
| C67 | `Egg.c67_line` | propext, Classical.choice, Quot.sound |
| C67 | `Egg.c67_recexpr` | propext, Classical.choice, Quot.sound |
| C67 | `Egg.c67_injective` | propext, Classical.choice, Quot.sound |
| C67 | `Egg.c67_explained` | propext, Classical.choice, Quot.sound |
| C67 | `Egg.c67_keyword` | propext, Classical.choice, Quot.sound |
| C68 | `Egg.c68_tree` | propext, Classical.choice, Quot.sound |
| C68 | `Egg.c68_let` | propext, Classical.choice, Quot.sound |
| C68 | `Egg.c68_explained` | propext, Classical.choice, Quot.sound |
| C68 | `Egg.c68_capture` | propext, Classical.choice, Quot.sound |
| C68 | `Egg.c68_not_maximal` | propext, Classical.choice, Quot.sound |
| C69 | `Egg.c69_tree_size` | propext, Classical.choice, Quot.sound |
| C69 | `Egg.c69_le_unions` | propext, Classical.choice, Quot.sound |
| C69 | `Egg.c69_ends` | propext, Classical.choice, Quot.sound |
| C69 | `Egg.c69_both_directions` | propext, Classical.choice, Quot.sound |
| C70 | `Egg.c70_not_longer` | propext, Classical.choice, Quot.sound |
| C70 | `Egg.c70_symmetric` | propext, Classical.choice, Quot.sound |
| C70 | `Egg.c70_can_be_longer` | propext, Classical.choice, Quot.sound |
| C71 | `Egg.c71_parents` | propext, Classical.choice, Quot.sound |
| C71 | `Egg.c71_all_parents` | propext, Classical.choice, Quot.sound |
| C71 | `Egg.c71_parent_classes` | propext, Classical.choice, Quot.sound |
| C72 | `Egg.c72_leaves` | propext, Classical.choice, Quot.sound |
| C72 | `Egg.c72_assert` | propext, Classical.choice, Quot.sound |
| C73 | `Egg.c73_drawing` | propext, Classical.choice, Quot.sound |
| C73 | `Egg.c73_marks` | propext, Quot.sound |
| C73 | `Egg.c73_rebuilt` | propext, Classical.choice, Quot.sound |
| C73 | `Egg.c73_faithful` | propext, Classical.choice, Quot.sound |
| C73 | `Egg.c73_dangling` | propext, Classical.choice, Quot.sound |
| C73 | `Egg.c73_not_escaped` | propext, Classical.choice, Quot.sound |
| C73 | `Egg.c73_config` | propext, Classical.choice, Quot.sound |
| C74 | `Egg.c74_least` | propext, Classical.choice, Quot.sound |
| C74 | `Egg.c74_same_up_to_names` | propext, Classical.choice, Quot.sound |
| C74 | `Egg.c74_order` | propext, Classical.choice, Quot.sound |
| C75 | `Egg.c75_least` | propext, Classical.choice, Quot.sound |
| C75 | `Egg.c75_confluent` | propext, Classical.choice, Quot.sound |
| C75 | `Egg.c75_same_best_cost` | propext, Classical.choice, Quot.sound |
| C76 | `Egg.c76_bounded` | propext, Classical.choice, Quot.sound |
| C76 | `Egg.c76_least_solution` | propext, Classical.choice, Quot.sound |
| C76 | `Egg.c76_same_data` | propext, Classical.choice, Quot.sound |
| C76 | `Egg.c76_order` | propext, Classical.choice, Quot.sound |
| C76 | `Egg.c76_run` | propext, Classical.choice, Quot.sound |
| C76 | `Egg.c76_confluent` | propext, Classical.choice, Quot.sound |
| C77 | `Egg.c77_for_each` | none |
| C77 | `Egg.c77_map_children` | none |
| C77 | `Egg.c77_map_children_pure` | none |
| C77 | `Egg.c77_fold` | none |
| C77 | `Egg.c77_len` | propext, Quot.sound |
| C77 | `Egg.c77_all` | propext, Quot.sound |
| C77 | `Egg.c77_any` | propext, Quot.sound |
| C77 | `Egg.c77_try_for_each` | propext, Quot.sound |
| C77 | `Egg.c77_all_short_circuits` | none |
| C78 | `Egg.c78_num_congr` | propext, Classical.choice, Quot.sound |
| C78 | `Egg.c78_num_nodes` | propext, Classical.choice, Quot.sound |
| C78 | `Egg.c78_num_congr_counterexample` | propext, Quot.sound |
| C79 | `Egg.c79_rewrite` | propext, Classical.choice, Quot.sound |
| C79 | `Egg.c79_rewrite_unbound` | propext, Classical.choice, Quot.sound |
| C79 | `Egg.c79_rewrite_unreadable` | propext, Classical.choice, Quot.sound |
| C79 | `Egg.c79_conditions` | propext, Quot.sound |
| C79 | `Egg.c79_both` | propext, Classical.choice, Quot.sound |
| C79 | `Egg.c79_both_unbound` | propext, Classical.choice, Quot.sound |
| C79 | `Egg.c79_multi` | propext, Classical.choice, Quot.sound |
| C79 | `Egg.c79_multi_unbound` | propext, Classical.choice, Quot.sound |
| C79 | `Egg.c79_multi_unreadable` | propext, Classical.choice, Quot.sound |
| C80 | `Egg.c80_nothing_happens` | propext, Classical.choice, Quot.sound |
| C80 | `Egg.c80_saturates` | propext, Classical.choice, Quot.sound |
| C80 | `Egg.c80_again` | propext, Classical.choice, Quot.sound |
| C81 | `Egg.c81_records` | propext, Quot.sound |
| C81 | `Egg.c81_accounting` | propext, Classical.choice, Quot.sound |
| C81 | `Egg.c81_sizes` | propext, Classical.choice, Quot.sound |
| C81 | `Egg.c81_report` | propext, Quot.sound |
| C81 | `Egg.c81_second_run` | propext, Quot.sound |
| C82 | `Egg.c82_more` | propext, Classical.choice, Quot.sound |
| C82 | `Egg.c82_deterministic` | propext, Classical.choice, Quot.sound |
| C82 | `Egg.c82_fastest` | propext, Classical.choice, Quot.sound |
| C82 | `Egg.c82_same_number` | propext, Classical.choice, Quot.sound |
| C82 | `Egg.simple_eager` | propext, Quot.sound |
| C83 | `Egg.c83_reachable` | propext, Classical.choice, Quot.sound |
| C83 | `Egg.c83_decides` | propext, Classical.choice, Quot.sound |
| C83 | `Egg.c83_confluent_rules` | propext, Classical.choice, Quot.sound |
| C83 | `Egg.c83_simplest` | propext, Classical.choice, Quot.sound |
| C84 | `Egg.c84_add` | propext, Classical.choice, Quot.sound |
| C84 | `Egg.c84_add_panics` | propext, Quot.sound |
| C84 | `Egg.c84_no_panic` | propext, Classical.choice, Quot.sound |
| C84 | `Egg.c84_union` | propext, Classical.choice, Quot.sound |
| C84 | `Egg.c84_present` | propext, Classical.choice, Quot.sound |
| C85 | `Egg.c85_sound` | propext, Classical.choice, Quot.sound |
| C85 | `Egg.c85_no_panic` | propext, Classical.choice, Quot.sound |
| C85 | `Egg.c85_complete` | propext, Classical.choice, Quot.sound |
| C85 | `Egg.c85_run` | propext, Classical.choice, Quot.sound |
| C85 | `Egg.c85_extract` | propext, Classical.choice, Quot.sound |
| C86 | `Egg.c86_same_as_unpruned` | propext, Classical.choice, Quot.sound |
| C86 | `Egg.c86_reads` | propext, Quot.sound |
| C86 | `Egg.c86_terms` | propext, Classical.choice, Quot.sound |
| C86 | `Egg.c86_sound` | propext, Classical.choice, Quot.sound |
| C86 | `Egg.c86_complete` | propext, Classical.choice, Quot.sound |
| C86 | `Egg.c86_fold` | propext, Classical.choice, Quot.sound |
| C86 | `Egg.c86_fold_no_panic` | propext, Classical.choice, Quot.sound |
| C87 | `Egg.c87_history` | propext, Classical.choice, Quot.sound |
| C87 | `Egg.c87_calls` | propext, Classical.choice, Quot.sound |
| C87 | `Egg.c87_search_sound` | propext, Classical.choice, Quot.sound |
| C87 | `Egg.c87_search_complete` | propext, Classical.choice, Quot.sound |
| C87 | `Egg.c87_search_finds_instances` | propext, Classical.choice, Quot.sound |
| C87 | `Egg.c87_run` | propext, Classical.choice, Quot.sound |
| C87 | `Egg.c87_run_sound` | propext, Classical.choice, Quot.sound |
| C87 | `Egg.c87_same_class_iff` | propext, Classical.choice, Quot.sound |
| C87 | `Egg.c87_fold_run` | propext, Classical.choice, Quot.sound |
| C88 | `Egg.c88_round_adds` | propext, Classical.choice, Quot.sound |
| C88 | `Egg.c88_round_exact` | propext, Classical.choice, Quot.sound |
| C88 | `Egg.c88_run_is_round` | propext, Quot.sound |
| C88 | `Egg.c88_reach` | propext, Classical.choice, Quot.sound |
| C88 | `Egg.c88_join` | propext, Classical.choice, Quot.sound |
| C89 | `Egg.c89_user_applier` | propext, Classical.choice, Quot.sound |
| C89 | `Egg.c89_pattern` | propext, Classical.choice, Quot.sound |
| C89 | `Egg.c89_conditional` | propext, Classical.choice, Quot.sound |
| C89 | `Egg.c89_conditions` | propext, Classical.choice, Quot.sound |
| C89 | `Egg.c89_equal` | propext, Classical.choice, Quot.sound |
| C89 | `Egg.c89_data` | propext, Classical.choice, Quot.sound |
| C89 | `Egg.c89_nodes` | propext, Classical.choice, Quot.sound |
| C89 | `Egg.c89_merging` | propext, Classical.choice, Quot.sound |
| C89 | `Egg.c89_merging_data` | propext, Classical.choice, Quot.sound |
| C89 | `Egg.c89_run` | propext, Classical.choice, Quot.sound |
| C90 | `Egg.c90_considered` | propext, Classical.choice, Quot.sound |
| C90 | `Egg.c90_user_applier` | propext, Classical.choice, Quot.sound |
| C90 | `Egg.c90_conditions` | propext, Classical.choice, Quot.sound |
| C90 | `Egg.c90_equal` | propext, Classical.choice, Quot.sound |
| C90 | `Egg.c90_equal_closed` | propext, Classical.choice, Quot.sound |
| C90 | `Egg.c90_nodes` | propext, Classical.choice, Quot.sound |
| C90 | `Egg.c90_data_counterexample` | propext, Classical.choice, Quot.sound |
| C91 | `Egg.c91_parameters` | propext, Quot.sound |
| C91 | `Egg.c91_defaults` | none |
| C91 | `Egg.c91_roots` | propext, Classical.choice, Quot.sound |
| C91 | `Egg.c91_replaced` | propext, Classical.choice, Quot.sound |
| C91 | `Egg.c91_order` | propext, Quot.sound |
| C91 | `Egg.c91_panics` | propext, Classical.choice, Quot.sound |
| C91 | `Egg.c91_run` | propext, Classical.choice, Quot.sound |
| C91 | `Egg.c91_replaced_counterexample` | propext, Classical.choice, Quot.sound |
| C92 | `Egg.c92_prove` | propext, Classical.choice, Quot.sound |
| C93 | `Egg.c93_same` | propext, Quot.sound |
| C93 | `Egg.c93_history` | propext, Quot.sound |
| C93 | `Egg.c93_ids` | propext, Classical.choice, Quot.sound |
| C93 | `Egg.c93_full` | propext, Classical.choice, Quot.sound |
| C93 | `Egg.c93_full_explained` | propext, Classical.choice, Quot.sound |
| C93 | `Egg.c93_past_counterexample` | propext, Classical.choice, Quot.sound |
| C94 | `Egg.c94_no_panic` | propext, Classical.choice, Quot.sound |
| C94 | `Egg.c94_terminates` | propext, Classical.choice, Quot.sound |
| C94 | `Egg.c94_again_panics` | propext, Quot.sound |
| C94 | `Egg.c94_twice_panics` | propext, Quot.sound |
| C94 | `Egg.c94_equal` | propext, Classical.choice, Quot.sound |
| C94 | `Egg.c94_simple` | propext, Quot.sound |
| C94 | `Egg.c94_backoff` | propext, Classical.choice, Quot.sound |
| C95 | `Egg.c95_only_generated` | propext, Classical.choice, Quot.sound |
| C95 | `Egg.c95_saturated_exact` | propext, Classical.choice, Quot.sound |
| C95 | `Egg.c95_finite_of_saturated` | propext, Classical.choice, Quot.sound |
| C95 | `Egg.c95_saturates` | propext, Classical.choice, Quot.sound |
| C96 | `Egg.c96_has_cost` | propext, Classical.choice, Quot.sound |
| C96 | `Egg.c96_cost_unique` | propext, Classical.choice, Quot.sound |
| C96 | `Egg.c96_new_terminates` | propext, Classical.choice, Quot.sound |
| C96 | `Egg.c96_find_best` | propext, Classical.choice, Quot.sound |
| C96 | `Egg.c96_by_operator` | propext, Classical.choice, Quot.sound |
| C96 | `Egg.c96_incomparable_counterexample` | propext, Quot.sound |
| C97 | `Egg.c97_new_terminates` | propext, Classical.choice, Quot.sound |
| C97 | `Egg.c97_empty_panics` | propext, Classical.choice, Quot.sound |
| C97 | `Egg.c97_find_best` | propext, Classical.choice, Quot.sound |
| C97 | `Egg.c97_no_term_panics` | propext, Classical.choice, Quot.sound |
| C97 | `Egg.c97_same_cost` | propext, Classical.choice, Quot.sound |
| C98 | `Egg.c98_history` | propext, Classical.choice, Quot.sound |
| C98 | `Egg.c98_run` | propext, Classical.choice, Quot.sound |
| C98 | `Egg.c98_fold_best` | propext, Classical.choice, Quot.sound |
| C98 | `Egg.c98_fold_run` | propext, Classical.choice, Quot.sound |
| C99 | `Egg.c99_rebuild_exact` | propext, Classical.choice, Quot.sound |
| C99 | `Egg.c99_run_rebuilt` | propext, Classical.choice, Quot.sound |
| C99 | `Egg.c99_resume` | propext, Classical.choice, Quot.sound |
| C99 | `Egg.c99_backoff_counterexample` | propext, Quot.sound |

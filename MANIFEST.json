{
 "claims": [
  {
   "property": "C01",
   "status": "proved",
   "theorems": [
    "Egg.c01_same_class_iff",
    "Egg.c01_added_iff"
   ],
   "note": "Both directions, for every history followed by rebuild."
  },
  {
   "property": "C02",
   "status": "proved",
   "theorems": [
    "Egg.c02_no_spurious_equality",
    "Egg.c02_no_spurious_equality_mid_rebuild"
   ],
   "note": "At every state of a history, including between the iterations inside rebuild."
  },
  {
   "property": "C03",
   "status": "proved",
   "theorems": [
    "Egg.c03_find_idempotent",
    "Egg.c03_compression_invisible",
    "Egg.c03_union_find",
    "Egg.c03_egraph_find"
   ],
   "note": "Union-find level for all reachable union-finds; e-graph level for all histories."
  },
  {
   "property": "C04",
   "status": "proved",
   "theorems": [
    "Egg.c04_union_exact",
    "Egg.c04_union_any_hooks"
   ],
   "note": "Exact effect for an inert modify hook; flag, merge and monotonicity for every hook."
  },
  {
   "property": "C05",
   "status": "proved",
   "theorems": [
    "Egg.c05_add_contains",
    "Egg.c05_add_again",
    "Egg.c05_add_rebuilt",
    "Egg.c05_explanations_before_rebuild_counterexample"
   ],
   "note": "Re-adding without explanations or on a rebuilt graph; the counterexample shows the restriction is needed."
  },
  {
   "property": "C06",
   "status": "proved",
   "theorems": [
    "Egg.c06_lookup_expr",
    "Egg.c06_lookup_expr_live",
    "Egg.c06_unused_node_counterexample"
   ],
   "note": "Iff; unused nodes of the expression must be represented too (counterexample otherwise)."
  },
  {
   "property": "C07",
   "status": "proved",
   "theorems": [
    "Egg.c07_only_grow"
   ],
   "note": "For every analysis, whatever its hooks do."
  },
  {
   "property": "C08",
   "status": "proved",
   "theorems": [
    "Egg.c08_rebuild_idempotent"
   ],
   "note": ""
  },
  {
   "property": "C09",
   "status": "proved",
   "theorems": [
    "Egg.c09_rebuild_terminates",
    "Egg.c09_fuel_irrelevant"
   ],
   "note": ""
  },
  {
   "property": "C10",
   "status": "proved",
   "theorems": [
    "Egg.c10_no_panic"
   ],
   "note": ""
  },
  {
   "property": "C100",
   "status": "proved",
   "theorems": [
    "Egg.c100_fair",
    "Egg.c100_saturates",
    "Egg.c100_warned",
    "Egg.c100_same_name_counterexample"
   ],
   "note": "the doubled limit must fit into usize (the code shifts bits out otherwise); rules must have distinct names, which is exactly the case if the run prints no warning (c100_warned); for equal names, which share one entry, the bound is false (c100_same_name_counterexample)"
  },
  {
   "property": "C101",
   "status": "proved",
   "theorems": [
    "Egg.c101_search_sound",
    "Egg.c101_search_complete",
    "Egg.c101_search_finds_instances",
    "Egg.c101_run_sound"
   ],
   "note": "the matches reported lie between those of the pruned and of the complete e-graph, since patterns whose variables are bound before are looked up in the hashcons"
  },
  {
   "property": "C102",
   "status": "proved",
   "theorems": [
    "Egg.c102_chase",
    "Egg.c102_fixpoint",
    "Egg.c102_sound",
    "Egg.c102_exact",
    "Egg.c102_decides",
    "Egg.c102_closes"
   ],
   "note": "exactness assumes that the patterns have no superfluous nodes (parsed patterns have none) and that the analysis does not modify the e-graph; searches find fewer than usize::MAX matches"
  },
  {
   "property": "C103",
   "status": "proved",
   "theorems": [
    "Egg.c103_reaches",
    "Egg.c103_finite"
   ],
   "note": "same assumptions as C102: patterns without superfluous nodes (parsed patterns have none), an analysis that does not modify the e-graph, searches that find fewer than usize::MAX matches"
  },
  {
   "property": "C104",
   "status": "proved",
   "theorems": [
    "Egg.c104_backoff",
    "Egg.c104_decides",
    "Egg.c104_reaches",
    "Egg.c104_saturated",
    "Egg.c104_saturated_decides"
   ],
   "note": "same assumptions as C102; the bounds on matches, limits and ban lengths are hypotheses on the run, as in C100 (B below usize::MAX, the doubled limit representable)"
  },
  {
   "property": "C105",
   "status": "proved",
   "theorems": [
    "Egg.c105_sound",
    "Egg.c105_complete",
    "Egg.c105_backoff",
    "Egg.c105_saturated",
    "Egg.c105_early"
   ],
   "note": "test_runner with should_check, without the explanations it checks when they are enabled (those are C34-C37); the check function, if there is one, is applied to the returned runner. The soundness and the saturation part assume that the start expression has no superfluous nodes and that the modify hook does nothing. With explanations enabled test_runner also asserts that the optimized explanation is not longer than the plain one: see C70, whose negative part says when that assertion can fail."
  },
  {
   "property": "C106",
   "status": "proved",
   "theorems": [
    "Egg.c106_proved",
    "Egg.c106_returns",
    "Egg.c106_matches",
    "Egg.c106_zero"
   ],
   "note": "The explanations block of test_runner (src/test.rs:95-116) makes these requests for the first substitution. Its two other assertions are not part of the claim: that the optimized proof is not longer (C70), and that the tree size is not zero, which fails if the goal holds without any union (c106_zero). A length-optimized request may not return (C33), so for those only the proofs that are returned are covered. The first part assumes an analysis whose make always returns."
  },
  {
   "property": "C107",
   "status": "proved",
   "theorems": [
    "Egg.c107_sound",
    "Egg.c107_test",
    "Egg.c107_nodes",
    "Egg.c107_data",
    "Egg.c107_equal"
   ],
   "note": "Extends the soundness parts of C102 and C105 to conditional rules, and C89 to which terms exist. ConditionEqual adds the instances of its two patterns whether or not they are equal, so for it these instances have to exist in the notion of equality considered. Completeness with conditional rules is not claimed: a condition may answer anything when its guard holds."
  },
  {
   "property": "C108",
   "status": "proved",
   "theorems": [
    "Egg.c108_sound",
    "Egg.c108_closed",
    "Egg.c108_exact",
    "Egg.c108_unique"
   ],
   "note": "Joins C107 (nothing else is derived) and C90 (a saturated e-graph is closed). Conditions other than ConditionEqual need not be monotone, and then there is no least notion of equality (for conditions on data C90 has a counterexample)."
  },
  {
   "property": "C11",
   "status": "proved",
   "theorems": [
    "Egg.c11_partition"
   ],
   "note": ""
  },
  {
   "property": "C12",
   "status": "proved",
   "theorems": [
    "Egg.c12_operator_index"
   ],
   "note": ""
  },
  {
   "property": "C13",
   "status": "proved",
   "theorems": [
    "Egg.c13_analysis_invariant"
   ],
   "note": ""
  },
  {
   "property": "C14",
   "status": "proved",
   "theorems": [
    "Egg.c14_merge_max",
    "Egg.c14_merge_min",
    "Egg.c14_merge_option",
    "Egg.c14_merge_pair",
    "Egg.c14_max_is_join",
    "Egg.c14_min_is_join"
   ],
   "note": "Also DidMerge | and the connection with join analyses."
  },
  {
   "property": "C15",
   "status": "proved",
   "theorems": [
    "Egg.c15_id_to_expr",
    "Egg.c15_id_to_expr_invalid",
    "Egg.c15_lookup"
   ],
   "note": ""
  },
  {
   "property": "C16",
   "status": "proved",
   "theorems": [
    "Egg.c16_remembers",
    "Egg.c16_add_again",
    "Egg.c16_needs_explanations_counterexample"
   ],
   "note": "Counterexample shows explanations are needed."
  },
  {
   "property": "C17",
   "status": "proved",
   "theorems": [
    "Egg.c17_search_eclass_sound",
    "Egg.c17_search_sound"
   ],
   "note": "search_eclass and whole search; compiler order and hash order arbitrary"
  },
  {
   "property": "C18",
   "status": "proved",
   "theorems": [
    "Egg.c18_search_eclass_complete",
    "Egg.c18_search_complete",
    "Egg.c18_search_finds_instances"
   ],
   "note": "default allow_ematching_cycles; per class, whole e-graph, and in terms of represented instances"
  },
  {
   "property": "C19",
   "status": "proved",
   "theorems": [
    "Egg.c19_each_match_once"
   ],
   "note": ""
  },
  {
   "property": "C20",
   "status": "proved",
   "theorems": [
    "Egg.c20_limit_truncates"
   ],
   "note": ""
  },
  {
   "property": "C21",
   "status": "proved",
   "theorems": [
    "Egg.c21_fast_path"
   ],
   "note": ""
  },
  {
   "property": "C22",
   "status": "proved",
   "theorems": [
    "Egg.c22_search_eclass",
    "Egg.c22_search",
    "Egg.c22_new_succeeds",
    "Egg.c22_variable_first_counterexample",
    "Egg.c22_bare_first"
   ],
   "note": "search of a compiled multi-pattern is sound and complete; the first pattern must not be a variable (counterexample proved)"
  },
  {
   "property": "C23",
   "status": "proved",
   "theorems": [
    "Egg.c23_apply_matches",
    "Egg.c23_apply_one",
    "Egg.c23_effect",
    "Egg.c23_effect_at_once",
    "Egg.c23_adds_only_instances"
   ],
   "note": "Stated for the pattern applier, with and without explanations"
  },
  {
   "property": "C24",
   "status": "proved",
   "theorems": [
    "Egg.c24_new",
    "Egg.c24_accepted_never_panics",
    "Egg.c24_dead_variable_counterexample"
   ],
   "note": "For patterns whose listed variables occur in the term; counterexample otherwise"
  },
  {
   "property": "C25",
   "status": "proved",
   "theorems": [
    "Egg.c25_run_reach",
    "Egg.c25_eqsat_sound",
    "Egg.simple_honest",
    "Egg.backoff_honest"
   ],
   "note": "Any honest scheduler (Simple and Back-off shown honest), pattern and conditional rules, hooks, limits."
  },
  {
   "property": "C26",
   "status": "proved",
   "theorems": [
    "Egg.c26_saturated_closed",
    "Egg.c26_closed_terms",
    "Egg.simple_thorough",
    "Egg.backoff_thorough",
    "Egg.backoff_default_ok",
    "Egg.c26_zero_ban_length_counterexample"
   ],
   "note": "For any thorough scheduler; Simple is, Back-off is if ban lengths do not shift to zero (default: yes). Counterexample for ban length 0."
  },
  {
   "property": "C27",
   "status": "proved",
   "theorems": [
    "Egg.c27_run_stops",
    "Egg.c27_bounded",
    "Egg.simple_limited",
    "Egg.backoff_limited"
   ],
   "note": ""
  },
  {
   "property": "C28",
   "status": "proved",
   "theorems": [
    "Egg.c28_search_rule",
    "Egg.c28_can_stop",
    "Egg.c28_do_not_ban",
    "Egg.c28_zero_match_limit_counterexample",
    "Egg.c28_settings"
   ],
   "note": "Counterexample: match limit 0 panics after as many bans as usize has bits. c28_settings: the limits a rule gets from the builder calls."
  },
  {
   "property": "C29",
   "status": "proved",
   "theorems": [
    "Egg.c29_c30_find_best"
   ],
   "note": "In every reachable state, rebuilt or not; costs compared with the cost type's own comparison"
  },
  {
   "property": "C30",
   "status": "proved",
   "theorems": [
    "Egg.c29_c30_find_best",
    "Egg.c30_astSize_ok",
    "Egg.c30_astDepth_ok"
   ],
   "note": "For every monotone inflationary cost function; AstSize and AstDepth shown to be such"
  },
  {
   "property": "C31",
   "status": "proved",
   "theorems": [
    "Egg.c31_new_terminates",
    "Egg.c29_c30_find_best",
    "Egg.c31_find_best_node"
   ],
   "note": "Bound on the number of passes, no panic, for every order of the class table"
  },
  {
   "property": "C32",
   "status": "proved",
   "theorems": [
    "Egg.Lp.c32_prepared",
    "Egg.Lp.c32_cycles",
    "Egg.Lp.c32_extract",
    "Egg.Lp.c32_feasible_iff",
    "Egg.Lp.c32_optimal",
    "Egg.Lp.c32_acyclic",
    "Egg.c32_order_counterexample"
   ],
   "note": "Costs and solver values are rational numbers, not f64; the solver is an argument assumed to return a solution of the program it was given.  The order dependence and the panic on a root that represents a term are proved as c32_order_counterexample."
  },
  {
   "property": "C33",
   "status": "proved",
   "theorems": [
    "Egg.c33_explains",
    "Egg.c33_requests",
    "Egg.c33_exprs",
    "Egg.c33_unoptimized",
    "Egg.c33_panics",
    "Egg.c33_disabled",
    "Egg.c33_stays_off",
    "Egg.c33_optimized_counterexample",
    "Egg.c33_fuel"
   ],
   "note": "c33_requests: after any history without an optimized request, any number of requests (optimization on, off or changing) are answered, for every order of hash tables and heaps. c33_exprs: the same for explain_equivalence. c33_disabled, c33_stays_off: with_explanations_disabled, which may occur anywhere in a history. The claim is false after an optimized request followed by further changes: c33_optimized_counterexample."
  },
  {
   "property": "C34",
   "status": "proved",
   "theorems": [
    "Egg.c34_valid",
    "Egg.c34_valid_asserted",
    "Egg.c34_valid_exprs",
    "Egg.c34_check_proof",
    "Egg.c34_rules",
    "Egg.c34_apply_matches",
    "Egg.c34_checker_unsound_counterexample"
   ],
   "note": "Explanations are valid (tree and flattened), steps are asserted unions, check_proof accepts them when the unions are made by rules with two patterns and different names, and no modify hook acts. The converse fails: check_proof accepts wrong proofs (counterexample proved)."
  },
  {
   "property": "C35",
   "status": "proved",
   "theorems": [
    "Egg.c35_listed_sound",
    "Egg.c35_listed_asserted",
    "Egg.c35_listed_complete",
    "Egg.c35_panic"
   ],
   "note": "get_union_equalities lists only unions that were asserted (exact ids, order and reason; with a modify hook: every relation all requests satisfy) and the listed ones alone generate the equality of the rebuilt e-graph, for every analysis."
  },
  {
   "property": "C36",
   "status": "proved",
   "theorems": [
    "Egg.c36_copy",
    "Egg.c36_copy_panic",
    "Egg.c36_copy_no_unions",
    "Egg.c36_careful",
    "Egg.c36_copy_counterexample",
    "Egg.c36_copy_panic_counterexample"
   ],
   "note": "copy_without_unions: exact copy when different ids stand for different expressions; careful histories meet that condition; two counterexamples show that it is needed (a defect of the code when e-nodes are added between union and rebuild)."
  },
  {
   "property": "C37",
   "status": "proved",
   "theorems": [
    "Egg.c37_intersect",
    "Egg.c37_intersect_rebuilt"
   ],
   "note": "egraph_intersect returns (termination of from_enodes included) and the result is exactly the intersection; also after rebuild. Restricted to a result analysis whose modify does nothing and whose make does not panic."
  },
  {
   "property": "C38",
   "status": "proved",
   "theorems": [
    "Egg.c38_union_iff",
    "Egg.c38_union_steps",
    "Egg.c38_union_keeps",
    "Egg.c38_union_returns",
    "Egg.c38_union_panic"
   ],
   "note": "egraph_union: same class iff equal by the equations of both e-graphs; nothing lost; result is an ordinary reachable e-graph; it returns."
  },
  {
   "property": "C39",
   "status": "proved",
   "theorems": [
    "Egg.c39_is_dag",
    "Egg.c39_compact",
    "Egg.c39_compact_root",
    "Egg.c39_compact_live",
    "Egg.c39_compact_counterexample",
    "Egg.c39_build",
    "Egg.c39_extract",
    "Egg.c39_join"
   ],
   "note": "compact keeps the set of terms; it keeps the root when no earlier node denotes the same term (always when every node is used), otherwise not (counterexample). join copies sub-expressions, so its nodes need not be pairwise different."
  },
  {
   "property": "C40",
   "status": "proved",
   "theorems": [
    "Egg.c40_print",
    "Egg.c40_roundtrip",
    "Egg.c40_roundtrip_text",
    "Egg.c40_pretty",
    "Egg.c40_parse_wellformed",
    "Egg.c40_parse_no_panic",
    "Egg.c40_panic_counterexample",
    "Egg.c40_empty_counterexample",
    "Egg.c40_pattern_readable",
    "Egg.c40_parse_iff",
    "Egg.c40_variable_with_arguments"
   ],
   "note": "Text round trip for the no_std printer and parser; for the std build (symbolic_expressions crate) c40_roundtrip is parametric in the printer and parser of s-expressions. c40_parse_iff: the texts the parser accepts and the term it returns; a variable with arguments is rejected. Negative: (() a) panics, () for the empty expression is not accepted."
  },
  {
   "property": "C41",
   "status": "proved",
   "theorems": [
    "Egg.c41_grammar",
    "Egg.c41_unambiguous",
    "Egg.c41_parse_terminates",
    "Egg.c41_roundtrip",
    "Egg.c41_atom_exact",
    "Egg.c41_counterexamples",
    "Egg.c41_pretty",
    "Egg.c41_pretty_counterexample",
    "Egg.c41_white_space"
   ],
   "note": "Grammar soundness and completeness of the no_std parser, round trip with exact atom condition, pretty printing, counterexamples."
  },
  {
   "property": "C42",
   "status": "proved",
   "theorems": [
    "Egg.c42_subst_map"
   ],
   "note": ""
  },
  {
   "property": "C43",
   "status": "proved",
   "theorems": [
    "Egg.c43_parse",
    "Egg.c43_error",
    "Egg.c43_roundtrip",
    "Egg.c43_injective",
    "Egg.c43_named",
    "Egg.c43_from_symbol_counterexample"
   ],
   "note": "Var::from(Symbol) with a text not obtained by parsing is excluded (counterexample)."
  },
  {
   "property": "C44",
   "status": "proved",
   "theorems": [
    "Egg.c44_renames",
    "Egg.c44_canonical",
    "Egg.c44_idempotent"
   ],
   "note": ""
  },
  {
   "property": "C45",
   "status": "proved",
   "theorems": [
    "Egg.c45_fifo",
    "Egg.c45_drain",
    "Egg.c45_inserted"
   ],
   "note": ""
  },
  {
   "property": "C46",
   "status": "proved",
   "theorems": [
    "Egg.c46_ids",
    "Egg.c46_terms",
    "Egg.c46_class",
    "Egg.c46_lookup",
    "Egg.c46_rebuilt",
    "Egg.c46_continue",
    "Egg.c46_collapse_counterexample",
    "Egg.c46_index_counterexample"
   ],
   "note": "Language mapper: ids, terms, classes and lookups are those of the source; a rebuilt source gives a rebuilt target when the operator and discriminant maps are injective and order preserving (counterexamples show each condition is needed); further work on the mapped e-graph keeps all guarantees."
  },
  {
   "property": "C47",
   "status": "proved",
   "theorems": [
    "Egg.c47_clean_means_rebuilt",
    "Egg.c47_search_dirty_panics",
    "Egg.c47_search_all_dirty",
    "Egg.c47_set_data_counterexample",
    "Egg.c47_dirty_search_counterexample"
   ],
   "note": "set_analysis_data can leave analysis work queued with the flag set (c47_set_data_counterexample); a dirty graph may be searched silently with empty result (c47_dirty_search_counterexample)"
  },
  {
   "property": "C48",
   "status": "proved",
   "theorems": [
    "Egg.c48_conditional",
    "Egg.c48_equal_sound",
    "Egg.c48_equal_exact",
    "Egg.c48_stale_counterexample"
   ],
   "note": "ConditionEqual is exact on rebuilt e-graphs with canonical bindings and no modify hook, sound otherwise; counterexample for stale ids"
  },
  {
   "property": "C49",
   "status": "proved",
   "theorems": [
    "Egg.c49_cost_rec",
    "Egg.c49_astSize",
    "Egg.c49_astDepth"
   ],
   "note": "AstDepth over unbounded naturals"
  },
  {
   "property": "C50",
   "status": "proved",
   "theorems": [
    "Egg.c50_modify_delivered",
    "Egg.c50_modify_delivered_sound"
   ],
   "note": "For every analysis whose modify delivers what data promise (Prog.Ends: the hook is a program over the API with nested hooks), at every point of every history every class contains what its datum promises. c50_modify_delivered assumes nothing else; c50_modify_delivered_sound lets modify rely on the meaning of data. Constant folding is shown to meet the hypothesis."
  },
  {
   "property": "C51",
   "status": "proved",
   "theorems": [
    "Egg.c51_number_of_classes",
    "Egg.c51_union",
    "Egg.c51_rebuild",
    "Egg.c51_is_empty",
    "Egg.c51_number_of_nodes"
   ],
   "note": "For analyses with a trivial modify; with other hooks rebuild counts only the congruence merges."
  },
  {
   "property": "C52",
   "status": "proved",
   "theorems": [
    "Egg.c52_new",
    "Egg.c52_from_expr",
    "Egg.c52_from_text",
    "Egg.c52_try_from",
    "Egg.c52_try_from_error",
    "Egg.c52_from_expr_counterexample"
   ],
   "note": "Counterexample for expressions that repeat their root term in an unused node (compact changes the root)."
  },
  {
   "property": "C53",
   "status": "proved",
   "theorems": [
    "Egg.c53_equivs",
    "Egg.c53_check_goals",
    "Egg.c53_equivs_counterexample"
   ],
   "note": "Default setting allow_ematching_cycles = true."
  },
  {
   "property": "C54",
   "status": "proved",
   "theorems": [
    "Egg.c54_self_check",
    "Egg.c54_rebuild_checks",
    "Egg.c54_check_means"
   ],
   "note": "check_memo and the index assertion, for every state that is not in need of a rebuild; plus what a passed check implies for an arbitrary e-graph. The assertion messages (which index classes) are not modelled."
  },
  {
   "property": "C55",
   "status": "proved",
   "theorems": [
    "Egg.c55_check_each_explain",
    "Egg.c55_rules",
    "Egg.c55_same_name_counterexample"
   ],
   "note": "The check passes for every history whose unions under a rule's name are instances of the rule; c55_rules: histories whose unions are all made by rules with distinct names. c55_same_name_counterexample: the check fails with two rules of the same name."
  },
  {
   "property": "C56",
   "status": "proved",
   "theorems": [
    "Egg.c56_explain_matches"
   ],
   "note": "Validity of whatever is returned; when an answer is returned is the subject of C33."
  },
  {
   "property": "C57",
   "status": "proved",
   "theorems": [
    "Egg.c57_run_steps",
    "Egg.c57_run_explained",
    "Egg.c57_iteration_check"
   ],
   "note": "Runs of pattern rules and conditional pattern rules are sequences of union_instantiations calls for these rules; combined with C34 and C55."
  },
  {
   "property": "C58",
   "status": "proved",
   "theorems": [
    "Egg.c58_simplify"
   ],
   "note": "Composition of with_expr, C25, C29-C31."
  },
  {
   "property": "C59",
   "status": "proved",
   "theorems": [
    "Egg.c59_data_describes",
    "Egg.c59_run",
    "Egg.c59_join_bound"
   ],
   "note": "V d t is the meaning of data; instance: constant folding, whose modify relies on correct data."
  },
  {
   "property": "C60",
   "status": "proved",
   "theorems": [
    "Egg.Decl.Value.c60_values",
    "Egg.Decl.c60_contiguous",
    "Egg.Decl.c60_from_op",
    "Egg.Decl.c60_from_op_error",
    "Egg.Decl.c60_roundtrip",
    "Egg.Decl.c60_uniform",
    "Egg.Decl.c60_expr_roundtrip",
    "Egg.c60_symbol_contiguous",
    "Egg.LangEx.c60_shadowed"
   ],
   "note": "values as e-nodes, order, from_op/Display; finding: a data variant shadowed by an earlier word is not read back (c60_shadowed)"
  },
  {
   "property": "C61",
   "status": "proved",
   "theorems": [
    "Egg.c61_restored",
    "Egg.c61_rebuild"
   ],
   "note": "serde itself (the derived code writes and reads every field that is not skipped) is assumed; histories include a step that reads the e-graph back, so every theorem about histories covers it."
  },
  {
   "property": "C62",
   "status": "proved",
   "theorems": [
    "Egg.c62_multi_sound",
    "Egg.c62_pattern_sound",
    "Egg.c62_eqsat_sound",
    "Egg.c62_effect",
    "Egg.c62_never_saturates_counterexample"
   ],
   "note": "Rules of other kinds enter c62_eqsat_sound through the hypothesis SoundRule, which c62_multi_sound and c62_pattern_sound establish for multi-pattern and pattern rules."
  },
  {
   "property": "C63",
   "status": "proved",
   "theorems": [
    "Egg.c63_parse",
    "Egg.c63_error",
    "Egg.c63_denotes",
    "Egg.c63_from_text",
    "Egg.c63_roundtrip",
    "Egg.c63_equals_counterexample",
    "Egg.c63_empty_counterexample"
   ],
   "note": "The parser of s-expressions is a parameter (no_std parser in c63_roundtrip)."
  },
  {
   "property": "C64",
   "status": "proved",
   "theorems": [
    "Egg.c64_check_iff",
    "Egg.c34_checker_unsound_counterexample",
    "Egg.c64_shape"
   ],
   "note": "Both directions, for explanations whose consecutive terms agree outside the annotated position; the negative part shows that this hypothesis is needed."
  },
  {
   "property": "C65",
   "status": "proved",
   "theorems": [
    "Egg.c65_id_to_pattern",
    "Egg.c65_unique",
    "Egg.c65_instance",
    "Egg.c65_matches",
    "Egg.c65_variable"
   ],
   "note": "c65_id_to_pattern: the result; c65_unique: the pattern is determined by the specification; c65_instance and c65_matches: its meaning; c65_variable: the names."
  },
  {
   "property": "C66",
   "status": "proved",
   "theorems": [
    "Egg.c66_search_eclass",
    "Egg.c66_search",
    "Egg.c66_noncanonical_counterexample",
    "Egg.c66_multi_counterexample"
   ],
   "note": "c66_search_eclass and c66_search: for every limit resp. every large enough limit; the negative parts have concrete witnesses."
  },
  {
   "property": "C67",
   "status": "proved",
   "theorems": [
    "Egg.c67_line",
    "Egg.c67_recexpr",
    "Egg.c67_injective",
    "Egg.c67_explained",
    "Egg.c67_keyword"
   ],
   "note": "text of flat explanations; parser and printer are those of sexp.rs"
  },
  {
   "property": "C68",
   "status": "proved",
   "theorems": [
    "Egg.c68_tree",
    "Egg.c68_let",
    "Egg.c68_explained",
    "Egg.c68_capture",
    "Egg.c68_not_maximal"
   ],
   "note": "tree text and let form; addresses modelled by RcTree, which explainId_shared relates to explain_id_equivalence"
  },
  {
   "property": "C69",
   "status": "proved",
   "theorems": [
    "Egg.c69_tree_size",
    "Egg.c69_le_unions",
    "Egg.c69_ends",
    "Egg.c69_both_directions"
   ],
   "note": "size and end terms of explanations"
  },
  {
   "property": "C70",
   "status": "proved",
   "theorems": [
    "Egg.c70_not_longer",
    "Egg.c70_symmetric",
    "Egg.c70_can_be_longer"
   ],
   "note": "without modify hook; the number of rules used is compared with the distance in the proof forest"
  },
  {
   "property": "C71",
   "status": "proved",
   "theorems": [
    "Egg.c71_parents",
    "Egg.c71_all_parents",
    "Egg.c71_parent_classes"
   ],
   "note": "invariant on the multiplicities in the parent lists"
  },
  {
   "property": "C72",
   "status": "proved",
   "theorems": [
    "Egg.c72_leaves",
    "Egg.c72_assert"
   ],
   "note": "leaves of a class"
  },
  {
   "property": "C73",
   "status": "proved",
   "theorems": [
    "Egg.c73_drawing",
    "Egg.c73_marks",
    "Egg.c73_rebuilt",
    "Egg.c73_faithful",
    "Egg.c73_dangling",
    "Egg.c73_not_escaped",
    "Egg.c73_config"
   ],
   "note": "drawing read back from its lines, lines read back from the text; c73_config: configuration lines"
  },
  {
   "property": "C74",
   "status": "proved",
   "theorems": [
    "Egg.c74_least",
    "Egg.c74_same_up_to_names",
    "Egg.c74_order"
   ],
   "note": "minimality, isomorphism of mutually contained e-graphs, order independence of programs"
  },
  {
   "property": "C75",
   "status": "proved",
   "theorems": [
    "Egg.c75_least",
    "Egg.c75_confluent",
    "Egg.c75_same_best_cost"
   ],
   "note": "minimality of every run, isomorphism of saturated runs, equal best costs"
  },
  {
   "property": "C76",
   "status": "proved",
   "theorems": [
    "Egg.c76_bounded",
    "Egg.c76_least_solution",
    "Egg.c76_same_data",
    "Egg.c76_order",
    "Egg.c76_run",
    "Egg.c76_confluent"
   ],
   "note": "least solution after rebuild and after a run, equal data for reordered programs and for saturated runs"
  },
  {
   "property": "C77",
   "status": "proved",
   "theorems": [
    "Egg.c77_for_each",
    "Egg.c77_map_children",
    "Egg.c77_map_children_pure",
    "Egg.c77_fold",
    "Egg.c77_len",
    "Egg.c77_all",
    "Egg.c77_any",
    "Egg.c77_try_for_each",
    "Egg.c77_all_short_circuits"
   ],
   "note": "with closures that have a state; short circuiting of all and any is a finding"
  },
  {
   "property": "C78",
   "status": "proved",
   "theorems": [
    "Egg.c78_num_congr",
    "Egg.c78_num_nodes",
    "Egg.c78_num_congr_counterexample"
   ],
   "note": "what is counted; that the count is not the number of congruences is a finding"
  },
  {
   "property": "C79",
   "status": "proved",
   "theorems": [
    "Egg.c79_rewrite",
    "Egg.c79_rewrite_unbound",
    "Egg.c79_rewrite_unreadable",
    "Egg.c79_conditions",
    "Egg.c79_both",
    "Egg.c79_both_unbound",
    "Egg.c79_multi",
    "Egg.c79_multi_unbound",
    "Egg.c79_multi_unreadable"
   ],
   "note": "the rules are those that C22-C26, C48 and C57 are about"
  },
  {
   "property": "C80",
   "status": "proved",
   "theorems": [
    "Egg.c80_nothing_happens",
    "Egg.c80_saturates",
    "Egg.c80_again"
   ],
   "note": "the converse of C26"
  },
  {
   "property": "C81",
   "status": "proved",
   "theorems": [
    "Egg.c81_records",
    "Egg.c81_accounting",
    "Egg.c81_sizes",
    "Egg.c81_report",
    "Egg.c81_second_run"
   ],
   "note": "times and user data of the records are not modelled"
  },
  {
   "property": "C82",
   "status": "proved",
   "theorems": [
    "Egg.c82_more",
    "Egg.c82_deterministic",
    "Egg.c82_fastest",
    "Egg.c82_same_number",
    "Egg.simple_eager"
   ],
   "note": "rules with conditions and multi-patterns are not covered; searches are assumed to find fewer than usize::MAX matches"
  },
  {
   "property": "C83",
   "status": "proved",
   "theorems": [
    "Egg.c83_reachable",
    "Egg.c83_decides",
    "Egg.c83_confluent_rules",
    "Egg.c83_simplest"
   ],
   "note": "rules with conditions and multi-patterns are not covered; searches are assumed to find fewer than usize::MAX matches"
  },
  {
   "property": "C84",
   "status": "proved",
   "theorems": [
    "Egg.c84_add",
    "Egg.c84_add_panics",
    "Egg.c84_no_panic",
    "Egg.c84_union",
    "Egg.c84_present"
   ],
   "note": ""
  },
  {
   "property": "C85",
   "status": "proved",
   "theorems": [
    "Egg.c85_sound",
    "Egg.c85_no_panic",
    "Egg.c85_complete",
    "Egg.c85_run",
    "Egg.c85_extract"
   ],
   "note": "pruning variants: C86; the variant that calls union_instantiations inside modify is not modelled"
  },
  {
   "property": "C86",
   "status": "proved",
   "theorems": [
    "Egg.c86_same_as_unpruned",
    "Egg.c86_reads",
    "Egg.c86_terms",
    "Egg.c86_sound",
    "Egg.c86_complete",
    "Egg.c86_fold",
    "Egg.c86_fold_no_panic"
   ],
   "note": "writing data or parents directly through IndexMut is not modelled; searching on pruned e-graphs: C87; extraction on pruned e-graphs: C97"
  },
  {
   "property": "C87",
   "status": "proved",
   "theorems": [
    "Egg.c87_history",
    "Egg.c87_calls",
    "Egg.c87_search_sound",
    "Egg.c87_search_complete",
    "Egg.c87_search_finds_instances",
    "Egg.c87_run",
    "Egg.c87_run_sound",
    "Egg.c87_same_class_iff",
    "Egg.c87_fold_run"
   ],
   "note": "Lookup instructions also match dropped e-nodes through the hashcons, so the matches reported lie between those of the pruned and of the complete e-graph; multi-patterns on pruned e-graphs: C101"
  },
  {
   "property": "C88",
   "status": "proved",
   "theorems": [
    "Egg.c88_round_adds",
    "Egg.c88_round_exact",
    "Egg.c88_run_is_round",
    "Egg.c88_reach",
    "Egg.c88_join"
   ],
   "note": "conditional rules and multi-patterns are not covered; for saturated runs, where no bound is needed, see C26 and C80"
  },
  {
   "property": "C89",
   "status": "proved",
   "theorems": [
    "Egg.c89_user_applier",
    "Egg.c89_pattern",
    "Egg.c89_conditional",
    "Egg.c89_conditions",
    "Egg.c89_equal",
    "Egg.c89_data",
    "Egg.c89_nodes",
    "Egg.c89_merging",
    "Egg.c89_merging_data",
    "Egg.c89_run"
   ],
   "note": "the contract of a user-written applier (SoundOn) is a hypothesis; an applier that overrides apply_matches is covered only through SoundRule (C62)"
  },
  {
   "property": "C90",
   "status": "proved",
   "theorems": [
    "Egg.c90_considered",
    "Egg.c90_user_applier",
    "Egg.c90_conditions",
    "Egg.c90_equal",
    "Egg.c90_equal_closed",
    "Egg.c90_nodes",
    "Egg.c90_data_counterexample"
   ],
   "note": "the final search must fit the limit (Fits), as in C26; for conditions on data the claim is false (c90_data_counterexample)"
  },
  {
   "property": "C91",
   "status": "proved",
   "theorems": [
    "Egg.c91_parameters",
    "Egg.c91_defaults",
    "Egg.c91_roots",
    "Egg.c91_replaced",
    "Egg.c91_order",
    "Egg.c91_panics",
    "Egg.c91_run",
    "Egg.c91_replaced_counterexample"
   ],
   "note": "roots of expressions given before with_egraph mean nothing in the new e-graph (c91_replaced_counterexample)"
  },
  {
   "property": "C92",
   "status": "proved",
   "theorems": [
    "Egg.c92_prove"
   ],
   "note": "combines C33, C34, C57 and C91; no explanation may have been requested before (C33)"
  },
  {
   "property": "C93",
   "status": "proved",
   "theorems": [
    "Egg.c93_same",
    "Egg.c93_history",
    "Egg.c93_ids",
    "Egg.c93_full",
    "Egg.c93_full_explained",
    "Egg.c93_past_counterexample"
   ],
   "note": "justifies the unbounded ids of the rest of the model; the failure past the bound is a finding"
  },
  {
   "property": "C94",
   "status": "proved",
   "theorems": [
    "Egg.c94_no_panic",
    "Egg.c94_terminates",
    "Egg.c94_again_panics",
    "Egg.c94_twice_panics",
    "Egg.c94_equal",
    "Egg.c94_simple",
    "Egg.c94_backoff"
   ],
   "note": "listed variables of the left side must occur in it and a multi-pattern must start with a proper pattern, as in C24 and C22"
  },
  {
   "property": "C95",
   "status": "proved",
   "theorems": [
    "Egg.c95_only_generated",
    "Egg.c95_saturated_exact",
    "Egg.c95_finite_of_saturated",
    "Egg.c95_saturates"
   ],
   "note": "analysis whose modify does nothing; rules without conditions whose patterns have no unused nodes (as in C75); each search finds fewer than usize::MAX matches"
  },
  {
   "property": "C96",
   "status": "proved",
   "theorems": [
    "Egg.c96_has_cost",
    "Egg.c96_cost_unique",
    "Egg.c96_new_terminates",
    "Egg.c96_find_best",
    "Egg.c96_by_operator",
    "Egg.c96_incomparable_counterexample"
   ],
   "note": "the cost function is pure and asks for no costs but those of the children; costs are comparable and monotone (without: c96_incomparable_counterexample)"
  },
  {
   "property": "C97",
   "status": "proved",
   "theorems": [
    "Egg.c97_new_terminates",
    "Egg.c97_empty_panics",
    "Egg.c97_find_best",
    "Egg.c97_no_term_panics",
    "Egg.c97_same_cost"
   ],
   "note": "histories as in C86; that pruning leaves a cheapest leaf is a hypothesis (CheapLeaf) of c97_same_cost, which constant folding meets (C98)"
  },
  {
   "property": "C98",
   "status": "proved",
   "theorems": [
    "Egg.c98_history",
    "Egg.c98_run",
    "Egg.c98_fold_best",
    "Egg.c98_fold_run"
   ],
   "note": "histories as in C86, with e-nodes dropped only from classes whose datum does not satisfy a given predicate; rules as in C87"
  },
  {
   "property": "C99",
   "status": "proved",
   "theorems": [
    "Egg.c99_rebuild_exact",
    "Egg.c99_run_rebuilt",
    "Egg.c99_resume",
    "Egg.c99_backoff_counterexample"
   ],
   "note": "the clock must stay below the time limit in both runs; rules as in C25"
  }
 ]
}
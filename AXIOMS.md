# Axioms of the theorems named in MANIFEST.json

Made by `tools/axioms.py` with `#print axioms`.

## no axioms (6 theorems)

C118_dump_refuted, C20_tree, C28_functional, C37_analogous, C45_refuted, C83_total_cost

## propext (48 theorems)

C102_argument_refuted, C102_failed_refuted, C102_real_operand, C102_scalar_refuted, C102_shared_refuted, C102_sum_refuted, C105_construction_error_partial, C105_eq_sound, C107_variables_partial, C107_visit_effect, C108_blackbox_shape, C108_choice, C108_linear_refuted, C110_parse_partial, C110_parse_refuted, C110_unclean_refuted, C112_counts, C114_hash, C114_integers_raise, C114_left_refuted, C115_evaluate_error, C129_shape, C16_container_sensitive, C30_raises, C37_bool, C42_duplicate_init_refuted, C44_cycle_hangs, C46_refuted, C60_refuted, C62_literal_refuted, C62_refuted, C62_universal_refuted, C64_or_refuted, C74_duplicate, C74_unknown, C75_tuples, C78_given_refuted, C80_wrong_exception, C85_builtin_variate_refuted, C85_failed, C85_ode_name_refuted, C92_minus_refuted, C93_conditional_refuted, C94_conjunction_refuted, C95_metric_partial, C95_metric_refuted, C95_negation_refuted, C97_domain_ref

## propext, Classical.choice, Quot.sound (679 theorems)

C01_nnf_equiv_partial, C01_nnf_total_partial, C01_refuted, C01_returns_iff, C03_cnf_equiv, C03_cnf_partial, C03_refuted, C04_cnf_shape, C05_clauses_partial, C05_refuted, C05_single_clause_lost, C06_absorb_partial, C06_refuted, C07_complement, C07_negate_builtin_atom, C08_clash_partial, C08_prenex_partial, C08_refuted, C08_refuted_clash, C08_refuted_connective, C08_refuted_dropped, C08_refuted_swap, C08_sound_refuted, C09_qe_equiv_partial, C09_refuted, C100_model, C100_newline_refuted, C100_nullary_refuted, C100_read_partial, C100_serialize_inj, C100_serialized, C100_sound, C100_term_read, C100_term_sound, C100_text_partial, C100_text_refuted, C101_nested_refuted, C101_none_refuted, C101_read_partial, C101_refuted, C101_relevant_refuted, C101_schema_partial, C102_entry_refuted, C102_integer_refuted, C102_number, C102_number_left_partial, C102_product, C102_product_rounded, C102_transpose_partial, C102_view_refuted, C103_const_member, C103_copy_same, C103_copy_shares, C103_members_kept, C103_names_partial, C103_separate_partial, C103_sort_refuted, C103_symbol_refuted, C104_acyclic, C104_empty_refuted, C104_hypergraph_partial, C104_names, C104_names_refuted, C104_primal_partial, C105_bytes_roundtrip, C105_complete_refuted, C105_construction_partial, C105_construction_refuted, C105_one_identity_partial, C105_refuted, C106_all_actions, C106_costs_partial, C106_fresh, C106_fresh_found, C106_init_facts, C106_one_cost, C106_refuted, C106_var_injective, C106_var_is_variable, C107_equality_partial, C107_equality_refuted, C107_match_partial, C107_match_refuted, C107_match_term_partial, C107_variables_refuted, C108_blackbox, C108_blackbox_mismatch, C108_opt_type, C109_constructors, C10_qe_all, C10_qe_fails_iff, C10_qe_modes, C10_qe_removes, C110_atom, C110_content_file, C110_file_readable, C110_rule_readable, C111_clean_partial, C111_clean_refuted, C111_domain, C111_domain_exists, C111_domain_here, C111_failures, C111_frame, C111_no_solver, C112_children, C112_children_partition, C112_closest_returns, C112_declare, C112_dump, C112_fail, C112_listings, C112_remove, C112_silent, C112_vocabulary, C112_vocabulary_declare, C112_well_formed, C112_well_formed_intervals, C113_action_names_refuted, C113_case_insensitive_partial, C113_case_insensitive_refuted, C113_lower_files, C113_lowercased, C113_lowercased_conv, C113_option_accepts_more_refuted, C113_same_problem, C113_strings_refuted, C113_tokens, C114_bounded_refuted, C114_compare, C114_comparison, C114_comparison_iff, C114_defined, C114_hash_refuted, C114_integers_refuted, C114_number_refuted, C114_operator, C114_operator_iff, C114_value, C115_construct, C115_evaluate, C115_first_order, C115_meaning, C115_nnf, C115_nnf_equiv, C115_qe_partial, C115_qe_refuted, C115_qe_removes, C115_weak_refuted, C116_action_partial, C116_comma_refuted, C116_cost_refuted, C116_effect_partial, C116_formula_partial, C116_ident_partial, C116_leaf_refuted, C116_sort_refuted, C116_term_partial, C117_planning, C118_derived_partial, C118_ident_partial, C118_ode_partial, C118_params_refuted, C118_reaction_partial, C118_sensor_partial, C118_sort_refuted, C119_compiles, C119_functions, C119_intervals, C119_objects, C119_planning, C11_land, C11_lor, C11_neg_implies_equiv, C120_naive, C120_same_search, C121_wellformed, C122_planning, C122_strips, C123_read_write_read, C123_read_write_read_refuted, C124_ns_partial, C125_first_goal, C125_goal, C125_planning, C125_shortest, C126_files, C126_naive, C126_task, C127_refuted, C127_shown, C127_text, C127_text_partial, C128_any_problem, C128_files, C128_symbols, C129_atom_value, C129_eq, C129_from_atom, C129_strategy, C129_term_value, C12_flatten_equiv, C130_exception, C130_no_memory, C130_refuted, C130_timing_partial, C131_files, C131_same_plans, C131_written, C132_elements, C132_order_partial, C132_order_refuted, C133_forgotten_refuted, C133_keyword_refuted, C133_other, C133_read, C133_refuted, C133_removed_refuted, C13_refuted, C13_subst_constants_partial, C13_subst_partial, C13_subst_term_partial, C14_eliminates, C14_identity_partial, C14_identity_refuted, C15_free_variables_partial, C15_ite_missed, C15_refuted, C16_equal_equiv, C16_equality, C17_arithmetic_range, C17_identity_partial, C17_identity_refuted, C17_partial, C17_quantified_rejected, C17_refuted, C17_sound, C17_sound_term, C18_accepts, C18_holds, C18_value, C19_atomic, C19_atomic_refuted, C20_history, C20_partial_order, C20_query_pure, C20_refuted, C20_refuted_hang, C20_subtype_partial, C21_constant_call, C21_domains_partial, C21_interval_dom, C22_refuted, C22_sort_ids_partial, C23_index_bijection, C23_repeated_add, C24_progress, C24_returns, C24_universal_refuted, C25_order_partial, C25_order_refuted, C25_refuted, C25_returns_partial, C25_simultaneous_partial, C25_swap_refuted, C26_static, C27_complete, C27_exact, C27_expands, C27_goals, C27_levels, C27_plans, C28_deleteFree, C28_goal, C28_negative_refuted, C28_relaxation, C28_strips, C29_eliminated_partial, C29_nested_refuted, C29_noninterfering_partial, C29_refuted, C29_returns, C29_successor_partial, C30_add_delete_refuted, C30_bisimulation_partial, C30_refuted, C30_toggle_refuted, C31_actions, C31_evaluate, C31_idempotent, C31_nested_refuted, C31_original_refuted, C31_plan_partial, C31_plan_refuted, C31_refuted, C31_returns, C31_shape, C31_simplify, C31_simplify_raises, C31_symbols, C31_term, C31_truth_partial, C31_universal_refuted, C32_capture_refuted, C32_conjunctive_partial, C32_eliminates, C32_equiv_partial, C32_index_refuted, C32_occurs_refuted, C32_refuted, C32_returns, C32_shape_refuted, C32_sort_refuted, C33_conflicts, C33_ground, C33_lifted_refuted, C33_returns, C33_strips, C34_transitiveClosure, C35_minDistance, C36_closed, C36_composition_partial, C36_composition_refuted, C36_denotation_partial, C36_noComposition, C36_refuted, C36_star, C37_diff, C37_minDistance, C37_values, C38_acyclicity, C39_refuted, C39_unstable_refuted, C40_enumerate_refuted, C40_language, C40_partial_terms, C40_state_variables, C41_defined, C41_division_error, C41_natural_refuted, C41_refuted, C41_simplify_partial, C42_binding, C42_duplicate, C43_prenex_shape_partial, C43_refuted, C44_declarations_return_partial, C45_domain, C45_interval_call, C45_subsort_partial, C46_ground_partial, C46_welltyped, C47_interval_refuted, C47_refuted, C47_sound_partial, C47_unsolvable_partial, C47_variables_refuted, C48_compilers_agree_partial, C48_exact_partial, C48_refuted, C49_complete_partial, C49_exact_partial, C49_variables_partial, C50_history_partial, C50_iterate_empty, C50_iterate_refuted, C50_refuted, C51_contradiction_refuted, C51_goal_round_trip_partial, C51_integer_variable_refuted, C51_number_argument_refuted, C51_precondition_round_trip_partial, C51_real_number_refuted, C51_rebinding_refuted, C51_reserved_word_refuted, C51_upper_case_refuted, C51_variable_case_refuted, C52_action_round_trip_partial, C52_conditional_universal_refuted, C52_equality_effect_refuted, C52_parameter_case_refuted, C52_real_cost_refuted, C53_init_round_trip_partial, C53_number_subsort_refuted, C53_subsort_argument_refuted, C53_upper_case_refuted, C54_case_clash_refuted, C54_case_refuted, C54_derived_refuted, C54_domain_round_trip_partial, C54_integer_function_refuted, C54_interval_constant_refuted, C54_natural_parent_refuted, C54_nested_interval_refuted, C54_number_sort_refuted, C54_real_function_refuted, C54_real_sort_refuted, C54_symbolic_integer_refuted, C55_init_bounds_refuted, C55_no_goal_refuted, C55_problem_round_trip_partial, C55_real_bounds_refuted, C56_condition_refuted, C56_cost_refuted, C56_ite_refuted, C56_nothing_to_project_refuted, C56_project_partial, C56_project_problem_partial, C56_refuted, C57_all_variables, C57_function_free, C57_ground, C57_nodes, C57_quantifier_free, C58_queries_partial, C58_refuted, C59_classify, C59_exact, C59_meaning, C59_returns, C60_disjunction_refuted, C60_double_negation_refuted, C60_negation_refuted, C60_strips_partial, C60_top_refuted, C61_exact, C61_irrelevant, C62_raises_partial, C62_suffices_partial, C62_symbols_partial, C63_concepts_partial, C63_equal_refuted, C63_forall_refuted, C63_or_refuted, C63_refuted, C63_roles_partial, C64_and_partial, C64_comp_partial, C64_equal_partial, C64_exists_partial, C64_exists_refuted, C64_forall_partial, C64_not, C64_or_partial, C64_refuted, C64_restrict_partial, C65_action_outcome, C65_cost_refuted, C65_instance_partial, C65_raises, C65_refuted, C65_returns, C65_sort_refuted, C65_union_partial, C66_names_partial, C66_refuted, C67_clash_refuted, C67_nested_refuted, C67_or_refuted, C67_refuted, C67_solutions_partial, C68_changes_partial, C68_exact, C68_raises, C68_returns, C68_static_refuted, C68_universal_refuted, C68_variate_refuted, C69_complete_partial, C69_ground_partial, C69_ground_refuted, C69_index_partial, C69_positions, C69_refuted, C70_instances, C70_once, C70_returns, C70_transitions, C71_domain_refuted, C71_instances, C71_meaning, C71_names_refuted, C71_order_partial, C71_refuted, C72_faithful, C72_format_refuted, C72_initial_refuted, C72_metric_refuted, C72_returns, C72_unique_partial, C72_unique_refuted, C73_function, C73_operator, C73_symbols, C73_unary_raises, C73_unary_refuted, C74_atomic_refuted, C74_conservative, C74_domains, C74_fstrips_default, C74_language_contents, C74_language_iff, C74_language_returns, C74_load_iff, C74_names, C74_order, C74_returns, C75_equivalent, C75_rejects, C76_complete, C76_pattern, C77_goal, C77_init, C77_reachable, C77_solvable, C77_step, C78_covered_stays, C78_init, C78_length, C78_move, C78_never_cleared, C78_solvable_refuted, C79_arith_assign, C79_goal, C79_init, C79_solvable, C79_solvable_refuted, C79_step, C79_stuck, C80_accepts, C80_hang, C80_hierarchy, C80_objects_accepts, C80_objects_domains, C80_order_refuted, C80_parent, C80_parent_top, C80_single_refuted, C80_types, C81_constraints_partial, C81_count, C81_duplicate_raises, C81_flat_loses, C81_instances, C81_nested_exists_raises, C81_refuted, C82_arguments, C82_empty, C82_evaluate, C82_no_variables, C82_product, C82_returns_iff, C82_summation, C83_as_atoms, C83_equal_of_same, C83_equal_partial, C83_equal_refuted, C83_extensions, C83_rebuild, C83_text, C84_finite_partial, C84_key, C84_refuted, C84_search, C85_listed, C85_lookup, C85_ode_partial, C85_ode_refuted, C85_refused, C86_count, C86_odes, C86_raises, C86_reactions, C86_schemas, C86_sensors, C87_both_refuted, C87_constant, C87_unit, C87_zero, C88_integer_refuted, C88_objects_refuted, C88_pairs, C88_reads_partial, C88_subsort_refuted, C88_succeeds, C88_vars, C89_accepts, C89_effect_time, C89_effect_time_refuted, C89_keeps, C89_max_time_immediate, C89_max_time_partial, C89_max_time_refuted, C90_meaning_partial, C90_reads, C90_reads_refuted, C90_subtype_refuted, C90_two_variables_refuted, C91_binder_refuted, C91_fluent, C91_injective, C91_nary_refuted, C91_negation_refuted, C91_none_temporal, C91_open_refuted, C91_power_refuted, C91_read_back_partial, C91_three_refuted, C91_unary_refuted, C92_accepts_partial, C92_constant_refuted, C92_meaning, C92_object_refuted, C92_shadow_refuted, C93_accepts_partial, C93_action_partial, C93_equality_refuted, C93_illtyped_refuted, C93_scale_down_refuted, C94_accepts_partial, C94_durative_partial, C94_empty_refuted, C94_nested_refuted, C94_unbounded_refuted, C95_arity_refuted, C95_derived, C95_derived_accepts_partial, C95_head_refuted, C95_init_partial, C95_sequence, C95_sequence_accepts, C95_symbol_refuted, C96_case_partial, C96_case_refuted, C96_file_lines_partial, C96_file_lines_refuted, C96_line_after, C96_no_dt, C96_reads, C96_sound, C96_var_case, C96_words_distinct, C97_accepts, C97_domain, C97_names, C97_object_word, C97_objects, C97_objects_partial, C97_objects_refuted, C97_order_partial, C97_order_refuted, C97_predicates, C97_standard, C97_subtypes, C97_symbols, C97_types, C98_accepts, C98_default_partial, C98_default_refuted, C98_init_accepts, C98_init_true, C98_init_value, C98_last_partial, C98_last_refuted, C98_model, C98_objects, C98_overload_refuted, C98_subtypes, C98_symbols, C98_terms, C99_interval_refuted, C99_invariant_refuted, C99_max_refuted, C99_read_back_partial, C99_round_trip_partial, C99_subsort_refuted, C99_text_refuted, C99_twice_refuted, C99_written_refuted

## propext, Quot.sound (98 theorems)

C02_nnf_on_nnf, C02_nnf_shape, C06_absorbs, C102_entries, C102_equal, C102_hash_empty, C102_hash_refuted, C102_literal, C102_number_left_refuted, C102_product_dims, C102_rows, C102_vector, C103_independent_refuted, C105_complete_partial, C105_eq_hash, C105_eq_refl, C105_eq_symm, C105_eq_trans, C105_hash_boundaries_refuted, C108_linear_partial, C108_linear_scalar_partial, C108_vectorised_partial, C108_vectorised_refuted, C109_once, C109_primitives, C109_total_cost, C109_vocabulary, C110_in_file, C110_one_line, C111_lines, C111_silentremove, C112_bounds, C112_closest_builtin, C112_has, C112_well_formed_refuted, C114_integer_arguments, C114_integer_sums, C114_special, C114_special_refuted, C11_wf, C124_get_error, C124_get_many, C124_get_one, C124_ns_refuted, C125_plan, C125_search, C127_literal, C129_to_atom, C12_flatten_idem, C12_flatten_shape, C12_flatten_wf, C18_atomic, C18_discard, C18_remove, C18_value_error, C19_declares, C19_duplicate, C19_get, C19_get_undefined, C19_names_unique, C21_refuted, C26_affected, C27_deterministic, C27_errors, C27_finite_stops, C27_limit_stops, C30_negation_free, C37_int, C39_clash, C39_injective_partial, C39_reversible_partial, C39_tame, C40_actions, C40_enumerate, C40_state_variables_error, C40_substitutions, C40_tuples, C44_refuted, C45_declare, C45_domain_fails, C49_names, C60_accepts_partial, C60_atoms_partial, C60_literals_partial, C67_returns_partial, C69_raises, C69_returns, C71_start_end, C71_variables, C76_clear, C78_arguments, C80_object_refuted, C87_shape, C89_level, C89_lock, C92_scope, C97_required, C97_requirements

#!/usr/bin/env python3
"""Regenerates MANIFEST.json. Each claim: property -> (status, [theorems], note)."""
import json, os
C = {}
def c(p, status, theorems, note=""):
    C[p] = dict(property=p, status=status, theorems=["Tarski." + t for t in theorems.split()], note=note)

c("C01", "partial", "C01_refuted C01_nnf_equiv_partial C01_returns_iff C01_nnf_total_partial",
  "Code violates the property for negated top/bot (class objects are returned); proved whenever a formula is returned, with an exact characterisation of when it is.")
c("C02", "proved", "C02_nnf_shape C02_nnf_on_nnf")
c("C03", "partial", "C03_refuted C03_cnf_equiv C03_cnf_partial", "Inherits the negated top/bot defect of NNF; equivalence proved whenever the call returns.")
c("C04", "proved", "C04_cnf_shape")
c("C05", "partial", "C05_refuted C05_single_clause_lost C05_clauses_partial", "Single-clause results are lost by the code; proved for conjunctive results.")
c("C06", "partial", "C06_refuted C06_absorb_partial C06_absorbs", "Code drops subformulas beyond the second; proved for binary connectives.")
c("C07", "proved", "C07_complement C07_negate_builtin_atom")
c("C08", "partial", "C08_refuted C08_refuted_connective C08_sound_refuted C08_refuted_swap C08_refuted_clash C08_refuted_dropped C08_prenex_partial C08_clash_partial", "The code is wrong in several independent ways (each refuted with a witness); proved on the fragment stated in C08_prenex_partial.")
c("C09", "partial", "C09_refuted C09_qe_equiv_partial", "False when a variable is re-quantified in its own scope; proved otherwise.")
c("C10", "proved", "C10_qe_removes C10_qe_all C10_qe_modes C10_qe_fails_iff")
c("C11", "proved", "C11_land C11_lor C11_neg_implies_equiv C11_wf")
c("C12", "proved", "C12_flatten_equiv C12_flatten_shape C12_flatten_idem C12_flatten_wf")
c("C13", "partial", "C13_refuted C13_subst_partial C13_subst_term_partial C13_subst_constants_partial", "False when a quantifier re-binds a substituted variable; proved otherwise.")
c("C14", "partial", "C14_eliminates C14_identity_refuted C14_identity_partial", "Identity fails for == because of tuple/list containers; proved up to container kind.")
c("C15", "partial", "C15_refuted C15_ite_missed C15_free_variables_partial", "False for re-quantified variables and if-then-else terms; proved otherwise.")
c("C16", "proved", "C16_equality C16_equal_equiv C16_container_sensitive")
c("C19", "proved", "C19_names_unique C19_get C19_get_undefined C19_duplicate C19_declares C19_atomic C19_atomic_refuted", "Failing calls are atomic except attach_sort with a foreign parent (refuted).")
c("C20", "partial", "C20_refuted C20_refuted_hang C20_subtype_partial C20_query_pure C20_partial_order C20_tree C20_history", "False after set_parent(overwrite=True) (stale ancestors, non-termination); proved for hierarchies built by declarations, and exact answer given for all histories.")
c("C21", "partial", "C21_refuted C21_domains_partial C21_constant_call C21_interval_dom", "False after re-parenting a sort that has constants; proved for every declaration history.")
c("C22", "partial", "C22_refuted C22_sort_ids_partial", "Objects of sorts declared below an interval sort get no id; proved for every hierarchy without sorts below intervals.")
c("C23", "proved", "C23_index_bijection C23_repeated_add")
c("C42", "proved", "C42_binding C42_duplicate C42_duplicate_init_refuted", "The constructor does not reject duplicates (shown by C42_duplicate_init_refuted).")
c("C43", "partial", "C43_refuted C43_prenex_shape_partial")
c("C44", "partial", "C44_refuted C44_declarations_return_partial C44_cycle_hangs", "Re-parenting below a descendant never returns; all declarations and queries return in declared languages.")
c("C45", "partial", "C45_declare C45_interval_call C45_domain C45_domain_fails C45_refuted C45_subsort_partial", "Natural is not contained in Integer, and new intervals are not checked against their parent.")
c("C17", "partial", "C17_arithmetic_range C17_sound C17_sound_term C17_quantified_rejected C17_refuted C17_partial C17_identity_refuted C17_identity_partial", "Every returned verdict is the Tarskian truth value; the evaluator raises instead of answering on nested if-then-else (refuted); totality and identity proved on the stated fragments.")
c("C18", "proved", "C18_holds C18_value C18_value_error C18_atomic C18_remove C18_discard C18_accepts")
c("C46", "partial", "C46_welltyped C46_refuted C46_ground_partial", "model.add accepts variables and stores None for them (refuted); proved for every history without such calls.")

c("C24","proved","C24_progress C24_returns C24_universal_refuted","exact result of unconditional add/delete effect lists (adds win); deletes inside universal effects are not moved to the front (refuted variant shown)")
c("C25","partial","C25_refuted C25_order_refuted C25_swap_refuted C25_simultaneous_partial C25_returns_partial C25_order_partial","simultaneous semantics is false of the code in general (conditions and right-hand sides are read after earlier effects); proved when no effect reads a symbol that an earlier one writes")
c("C26","proved","C26_static C26_affected","symbols not classified as affected keep their extension along every plan")

c("C28","proved","C28_relaxation C28_goal C28_deleteFree C28_strips C28_negative_refuted C28_functional","general actions: the relaxed run either raises or dominates the original; for ground STRIPS operators it never raises; positivity is shown to be needed")
c("C29","partial","C29_refuted C29_nested_refuted C29_successor_partial C29_eliminated_partial C29_returns C29_noninterfering_partial","false in general: deletes coming out of a universal effect are moved before adds, nested universal effects remain; proved without deletes under universals, or for non-interfering effects")
c("C33","proved","C33_conflicts C33_returns C33_strips C33_ground C33_lifted_refuted","exact for syntactic atoms; acceptance of lifted effects does not carry over to instances (shown)")

c("C27","proved","C27_expands C27_complete C27_levels C27_goals C27_limit_stops C27_finite_stops C27_deterministic C27_errors C27_exact C27_plans","breadth-first search; states are identified through their key (str of the model), exact when that key is injective")
c("C34","proved","C34_transitiveClosure")
c("C35","proved","C35_minDistance")
c("C36","partial","C36_refuted C36_composition_refuted C36_composition_partial C36_denotation_partial C36_noComposition C36_closed C36_star","composition of roles is wrong in the code (refuted); every other constructor has its textbook denotation")
c("C37","proved","C37_int C37_bool C37_diff C37_analogous C37_minDistance C37_values")
c("C38","proved","C38_acyclicity","for every iteration order of the underlying sets")
c("C41","partial","C41_simplify_partial C41_refuted C41_defined C41_division_error C41_natural_refuted","false for division and for Natural subtraction (refuted); proved for the remaining expressions")


c("C39","partial","C39_refuted C39_unstable_refuted C39_reversible_partial C39_injective_partial C39_tame C39_clash","false when an unchanged symbol equals the later translation of another one (refuted); exact description of all histories; full property for tame symbols")
c("C40","proved","C40_tuples C40_actions C40_state_variables C40_state_variables_error C40_partial_terms C40_language C40_enumerate C40_substitutions C40_enumerate_refuted","")
c("C31","partial","C31_truth_partial C31_refuted C31_term C31_evaluate C31_shape C31_idempotent C31_returns C31_plan_partial C31_plan_refuted C31_actions C31_simplify C31_symbols C31_simplify_raises C31_nested_refuted C31_universal_refuted C31_original_refuted","truth preserved when quantified sorts are non-empty (refuted otherwise); simplified actions have the same plans and successors unless a precondition becomes the bool True (refuted); simplify() on problems characterised, with the cases in which it changes meaning refuted")
c("C32","partial","C32_refuted C32_shape_refuted C32_index_refuted C32_occurs_refuted C32_sort_refuted C32_capture_refuted C32_equiv_partial C32_conjunctive_partial C32_returns C32_eliminates","false in five ways (each refuted); equivalent, for every set iteration order, when every replacement made meets the stated side conditions, and for a class of inputs given by syntactic conditions; always returns, and leaves no equation on a quantified variable")
c("C30","partial","C30_bisimulation_partial C30_negation_free C30_refuted C30_toggle_refuted C30_add_delete_refuted C30_raises","false for disjunctive conditions (become conjunctions), for toggling effects and for add+delete of one atom (each refuted); otherwise every plan has the same outcome, with complementary states and equal goal values; output never contains negated atoms")

c("C47","partial","C47_sound_partial C47_unsolvable_partial C47_refuted C47_variables_refuted C47_interval_refuted","soundness of the reachability program for problems whose object names do not start with an upper case letter, whose variables have different capitalised names and range over declared constants; the full statement is refuted in each of the other cases")
c("C48","partial","C48_exact_partial C48_compilers_agree_partial C48_refuted","exact for problems of C47 without open existential subformulas; the full statement is refuted: an existential becomes an auxiliary symbol without arguments")
c("C49","partial","C49_complete_partial C49_exact_partial C49_variables_partial C49_names","given a correct answer of the solver; for the problems of C47 (completeness) and C48 (exactness)")
c("C50","partial","C50_history_partial C50_refuted C50_iterate_refuted C50_iterate_empty","independent of the history as long as ReachabilityLPUnsolvable is not raised; afterwards later calls answer without raising (refuted); iterate_over_schema_groundings yields nothing (refuted, and proved to yield nothing)")
c("C51","partial","C51_precondition_round_trip_partial C51_goal_round_trip_partial C51_contradiction_refuted C51_rebinding_refuted C51_number_argument_refuted C51_upper_case_refuted C51_reserved_word_refuted C51_integer_variable_refuted C51_real_number_refuted C51_variable_case_refuted","proved for every formula that PDDL can express (OkF), character by character through lexer, parser and visitor; the other formulas are not read back, or silently with another meaning (refuted)")
c("C52","partial","C52_action_round_trip_partial C52_conditional_universal_refuted C52_equality_effect_refuted C52_real_cost_refuted C52_parameter_case_refuted","proved for every action that PDDL can express (OkAction); refuted for the others")
c("C53","partial","C53_init_round_trip_partial C53_subsort_argument_refuted C53_number_subsort_refuted C53_upper_case_refuted","proved for every state reached by updates whose facts PDDL can express; refuted for the others")
c("C54","partial","C54_domain_round_trip_partial C54_integer_function_refuted C54_real_function_refuted C54_number_sort_refuted C54_natural_parent_refuted C54_symbolic_integer_refuted C54_nested_interval_refuted C54_real_sort_refuted C54_case_refuted C54_case_clash_refuted C54_interval_constant_refuted C54_derived_refuted","proved for every problem whose declarations PDDL can express (OkDomain), for any order of the requirements; refuted for the others")
c("C55","partial","C55_problem_round_trip_partial C55_no_goal_refuted C55_real_bounds_refuted C55_init_bounds_refuted","proved for every problem PDDL can express (OkProblem); refuted for the others")
c("C56","partial","C56_project_partial C56_project_problem_partial C56_nothing_to_project_refuted C56_condition_refuted C56_cost_refuted C56_ite_refuted C56_refuted","proved for closed actions where some parameter can be projected, whose variables in effect conditions and costs also occur in arguments of effects, without if-then-else terms in effects; refuted for the others")
c("C57","proved","C57_nodes C57_all_variables C57_ground C57_function_free C57_quantifier_free","")
c("C58","partial","C58_queries_partial C58_refuted","meaning and hash are kept; equality is kept exactly for expressions without tuples of subformulas: refuted for conjunctions as land builds them")
c("C59","proved","C59_returns C59_exact C59_meaning C59_classify","")
c("C60","partial","C60_literals_partial C60_atoms_partial C60_strips_partial C60_accepts_partial C60_disjunction_refuted C60_negation_refuted C60_top_refuted C60_double_negation_refuted C60_refuted","exact for formulas that are not true, disjunctions or negations; refuted for those")
c("C61","proved","C61_exact C61_irrelevant","")
c("C62","partial","C62_symbols_partial C62_suffices_partial C62_raises_partial C62_universal_refuted C62_literal_refuted C62_refuted","exact for problems without literal effects and without conditional universal effects; refuted for those")
c("C63","partial","C63_roles_partial C63_concepts_partial C63_forall_refuted C63_equal_refuted C63_or_refuted C63_refuted","roles: full; concepts: refuted for universal restrictions, equalities and disjunctions of different sorts, proved for the rest")
c("C64","partial","C64_exists_partial C64_not C64_forall_partial C64_and_partial C64_or_partial C64_equal_partial C64_restrict_partial C64_comp_partial C64_or_refuted C64_exists_refuted C64_refuted","proved for arguments with the right sort; refuted in general")
c("C65","partial","C65_returns C65_raises C65_action_outcome C65_instance_partial C65_refuted C65_union_partial C65_cost_refuted C65_sort_refuted","for actions that do not re-bind a parameter; refuted otherwise; ground_schema loses the cost (refuted)")
c("C66","partial","C66_names_partial C66_refuted","for names without commas and parentheses; refuted otherwise")
c("C67","partial","C67_solutions_partial C67_returns_partial C67_or_refuted C67_clash_refuted C67_nested_refuted C67_refuted","exact for conjunctions of flat literals without name clashes; refuted otherwise")
c("C68","partial","C68_exact C68_returns C68_raises C68_changes_partial C68_universal_refuted C68_static_refuted C68_variate_refuted","classification exact and terminating for all problems; changes of universal effects are missed (refuted), static terms can change (refuted: variables with other names; variates)")
c("C69","partial","C69_returns C69_raises C69_positions C69_index_partial C69_refuted C69_ground_partial C69_ground_refuted C69_complete_partial","exact for terms without repeated variables; refuted for p(x,x)")
c("C70","proved","C70_instances C70_transitions C70_once C70_returns","plain schemas: distinct variables, no quantifier re-binding a variable (C13)")
c("C71","partial","C71_variables C71_instances C71_meaning C71_order_partial C71_names_refuted C71_refuted C71_domain_refuted C71_start_end","instances exact, content independent of the iteration order; names and arguments depend on it (refuted), and only the first domain given for a variable counts (refuted)")
c("C72","partial","C72_faithful C72_returns C72_unique_partial C72_unique_refuted C72_metric_refuted C72_format_refuted C72_initial_refuted","the text describes the task and can be read back uniquely (names without line breaks); it is not in format 4 (refuted), ignores unit_costs (refuted) and does not check the initial state (refuted)")
c("C73","partial","C73_symbols C73_operator C73_function C73_unary_raises C73_unary_refuted","the statement about dispatch_unary_operator is false of the code (refuted); matrices and Python literals as operands are not modelled here")
c("C74","partial","C74_language_iff C74_language_contents C74_order C74_language_returns C74_fstrips_default C74_load_iff C74_returns C74_duplicate C74_names C74_unknown C74_conservative C74_domains C74_atomic_refuted","atomicity of a failing load is false of the code (refuted); everything else is proved for all histories")
c("C75","proved","C75_tuples C75_rejects C75_equivalent","")
c("C76","proved","C76_pattern C76_clear C76_complete","")
c("C77","proved","C77_init C77_step C77_reachable C77_goal C77_solvable","")
c("C78","partial","C78_init C78_length C78_arguments C78_given_refuted C78_move C78_never_cleared C78_covered_stays C78_solvable_refuted","the claims about rejecting invalid configurations and about execution with the library's progress are false of the code (refuted); everything else is proved")
c("C79","partial","C79_init C79_goal C79_step C79_solvable C79_arith_assign C79_stuck C79_solvable_refuted","the claim about execution with the library's progress is false of the code (refuted); everything else is proved")
c("C80","partial","C80_accepts C80_types C80_hierarchy C80_parent C80_parent_top C80_objects_accepts C80_objects_domains C80_wrong_exception C80_single_refuted C80_order_refuted C80_hang C80_object_refuted","Acceptance, hierarchy, parents and domains proved for all sections; rejection of multiple inheritance, independence of the order, termination and the type `object` are refuted (bugs in the code: `lineno()` called on an int, `added_supertype` test, `Object` versus `object`). The grammar rules that build the list of entries (either-types, bare keyword names) are not modelled.")
c("C81","partial","C81_instances C81_constraints_partial C81_count C81_refuted C81_nested_exists_raises C81_flat_loses C81_duplicate_raises","Full statement C81_full refuted (a constraint with an existential quantifier at the root is instantiated as if universal); proved for universal constraints with binary connectives; the counter and uniqueness for all constraints.")
c("C82","proved","C82_summation C82_product C82_evaluate C82_returns_iff C82_empty C82_no_variables C82_arguments","Variables that are quantified inside the expression are excluded by hypothesis (substitution replaces binders, see C08).")
c("C83","partial","C83_as_atoms C83_rebuild C83_text C83_extensions C83_equal_of_same C83_equal_partial C83_equal_refuted C83_total_cost","equality of models is exact for legible names that print differently and refuted in general")
c("C84","partial","C84_key C84_search C84_finite_partial C84_refuted","without the hypothesis that atoms print differently the claim is refuted by a concrete problem")
c("C85","partial","C85_lookup C85_listed C85_failed C85_refused C85_ode_partial C85_ode_refuted C85_ode_name_refuted C85_builtin_variate_refuted","Full for actions, derived predicates, reactions and sensing actions. For differential constraints the claim is false of the code (hybrid/problem.py:33 consults the table of reactions): refuted, and the exact behaviour proved.")
c("C86","proved","C86_reactions C86_sensors C86_odes C86_raises C86_count C86_schemas","Literal and black-box effects of reactions have no meaning in the model's semantics of effects.")
c("C87","partial","C87_unit C87_zero C87_constant C87_shape C87_both_refuted","Everything but the last sentence is proved; an action without a cost is both (refuted). Float costs are not modelled.")
c("C88","partial","C88_vars C88_pairs C88_reads_partial C88_succeeds C88_integer_refuted C88_subsort_refuted C88_objects_refuted","The code violates the full statement for integer variables, subsorts and integer objects.")
c("C89","partial","C89_accepts C89_lock C89_level C89_keeps C89_max_time_partial C89_max_time_immediate C89_effect_time C89_max_time_refuted C89_effect_time_refuted","The code violates the statement on end times when requests start late, and on effects that happen twice.")
c("C90","partial","C90_meaning_partial C90_reads C90_subtype_refuted C90_two_variables_refuted C90_reads_refuted","The code violates the full statement for variables declared with a strict subtype, aggregations over several variables, and legal expressions that raise. Not modelled: pyrddl's parser; terms as conditions of if-then-else.")
c("C91","partial","C91_read_back_partial C91_injective C91_fluent C91_none_temporal C91_negation_refuted C91_nary_refuted C91_three_refuted C91_binder_refuted C91_open_refuted C91_power_refuted C91_unary_refuted","The code violates the full statement for negations, more than two operands, bound variables named with ?, open-ended first operands, powers, remainders and unary minus. Escapes in the text of Python lists and str of compound terms are not modelled.")
c("C92","partial","C92_meaning C92_scope C92_accepts_partial C92_shadow_refuted C92_minus_refuted C92_object_refuted C92_constant_refuted","Meaning and scope proved for everything that is accepted; acceptance is partial because the reader rejects redeclared variables, the explicit type object and unary minus (refuted with witnesses). The LALR automaton is not modelled: derivation trees are the input.")
c("C93","partial","C93_action_partial C93_accepts_partial C93_conditional_refuted C93_scale_down_refuted C93_equality_refuted C93_illtyped_refuted","Proved for everything that is accepted except scale-down and equalities as effects, where the code is wrong (refuted with witnesses); conditional and quantified effects are never accepted.")
c("C94","partial","C94_durative_partial C94_accepts_partial C94_conjunction_refuted C94_empty_refuted C94_nested_refuted C94_unbounded_refuted","Proved for everything that is accepted (same exceptions as C93); acceptance only for flat conditions and effects, the code rejects the others (refuted).")
c("C95","partial","C95_derived C95_derived_accepts_partial C95_init_partial C95_metric_partial C95_sequence C95_sequence_accepts C95_arity_refuted C95_head_refuted C95_negation_refuted C95_symbol_refuted C95_metric_refuted","Independence of the definitions, derived predicates and positive initial states proved; the rest of the statement is violated by the code (refuted with witnesses).")
c("C96","partial","C96_reads C96_sound C96_line_after C96_words_distinct C96_no_dt C96_var_case C96_case_partial C96_case_refuted C96_file_lines_partial C96_file_lines_refuted","Proved for all texts and layouts. Partial: case-insensitivity fails for reserved words and variables, and lines of the second file are shifted (refuted); real numbers are kept as text.")
c("C97","partial","C97_requirements C97_required C97_accepts C97_symbols C97_types C97_subtypes C97_objects C97_objects_partial C97_objects_refuted C97_order_partial C97_order_refuted C97_object_word C97_names C97_standard C97_domain C97_predicates C97_domain_ref","Acceptance, symbols, subtypes and whole domains in full; membership of objects in late supertypes and independence of the order of sections are violated by the code.")
c("C98","partial","C98_terms C98_accepts C98_symbols C98_objects C98_subtypes C98_init_accepts C98_init_true C98_init_value C98_model C98_overload_refuted C98_last_partial C98_last_refuted C98_default_partial C98_default_refuted","acceptance, language, objects, state and parameters in full for entries whose arguments are names; the code rejects variables that differ only in arity, ignores default values, and `p = true; p = false;` leaves p true (refuted, with partial versions)")
c("C99","partial","C99_read_back_partial C99_round_trip_partial C99_written_refuted C99_max_refuted C99_twice_refuted C99_invariant_refuted C99_subsort_refuted C99_interval_refuted C99_text_refuted","whole files read back for tasks with legal names whose parameters have been given max_nondef_actions; each other defect is a theorem about the code")
c("C100","partial","C100_read_partial C100_text_partial C100_serialized C100_serialize_inj C100_sound C100_term_read C100_term_sound C100_model C100_text_refuted C100_nullary_refuted C100_newline_refuted","str(atom) without arguments and texts ending in white space are rejected by the code; everything else is proved")
c("C101","partial","C101_read_partial C101_schema_partial C101_relevant_refuted C101_refuted C101_none_refuted C101_nested_refuted","files are read back except for the effect-relevant variables when all parameters are effect-relevant (refuted for every reader); nested terms give truncated or wrong files (refuted)")
c("C102","partial","C102_product_rounded C102_product C102_product_dims C102_literal C102_entries C102_number C102_number_left_partial C102_equal C102_rows C102_vector C102_real_operand C102_hash_empty C102_transpose_partial C102_sum_refuted C102_integer_refuted C102_entry_refuted C102_number_left_refuted C102_hash_refuted C102_shared_refuted C102_argument_refuted C102_failed_refuted C102_scalar_refuted C102_view_refuted","products, scalar operations and transposition proved where the code supports them; each unsupported case is a theorem about the code")
c("C103","partial","C103_names_partial C103_separate_partial C103_copy_same C103_copy_shares C103_members_kept C103_const_member C103_independent_refuted C103_sort_refuted C103_symbol_refuted","full independence of deep copies is false of the code; proved: independence of names in all histories, full independence of languages that are never copied, what exactly is shared. Numeric sorts, set_parent with overwrite, remove_symbol and operators are not in this model.")
c("C104","partial","C104_hypergraph_partial C104_primal_partial C104_acyclic C104_names C104_names_refuted C104_empty_refuted","holds for all conjunctive preconditions with at least one atom; the empty conjunction is rejected by the code and names are only faithful for variables written with a question mark")
c("C105","partial","C105_eq_refl C105_eq_symm C105_eq_trans C105_eq_hash C105_eq_sound C105_complete_partial C105_one_identity_partial C105_complete_refuted C105_refuted C105_construction_partial C105_construction_error_partial C105_construction_refuted C105_bytes_roundtrip C105_hash_boundaries_refuted","completeness of equality and totality of construction are false of the code (refuted); what holds instead is proved exactly. SHA-256 is an arbitrary digest function")
c("C106","partial","C106_costs_partial C106_one_cost C106_refuted C106_var_injective C106_var_is_variable C106_fresh C106_fresh_found C106_all_actions C106_init_facts","fractional constant costs are truncated by the code (refuted); everything else is proved")
c("C107","partial","C107_match_partial C107_match_term_partial C107_match_refuted C107_variables_partial C107_variables_refuted C107_equality_partial C107_equality_refuted C107_visit_effect","the code violates the full statements (refuted with witnesses); visit_effect proved in full for the effects it accepts")
c("C108","partial","C108_vectorised_partial C108_vectorised_refuted C108_linear_partial C108_linear_refuted C108_linear_scalar_partial C108_blackbox C108_blackbox_shape C108_blackbox_mismatch C108_choice C108_opt_type","vectorised and linear effects violate the full statements (refuted, exact behaviour characterized); the rest proved in full")
c("C109","proved","C109_vocabulary C109_constructors C109_primitives C109_once C109_total_cost","")
c("C110","partial","C110_atom C110_rule_readable C110_file_readable C110_in_file C110_one_line C110_unclean_refuted C110_parse_partial C110_parse_refuted C110_content_file","readability proved for words without punctuation (refuted otherwise); parse_model refuses the empty text (refuted), proved for the others")
c("C111","partial","C111_lines C111_silentremove C111_frame C111_clean_partial C111_clean_refuted C111_failures C111_no_solver C111_domain C111_domain_here C111_domain_exists","clean-up of the temporary files is refuted for runs with warnings or failures, proved for the others; everything else in full")
c("C112","partial","C112_listings C112_has C112_counts C112_declare C112_fail C112_silent C112_remove C112_vocabulary_declare C112_vocabulary C112_children C112_children_partition C112_closest_builtin C112_closest_returns C112_well_formed C112_well_formed_intervals C112_bounds C112_dump C112_well_formed_refuted","all parts proved, except that check_well_formed does not detect intervals whose bounds were set the wrong way round (refuted with a witness)")
c("C113","partial","C113_tokens C113_case_insensitive_partial C113_same_problem C113_lowercased C113_lowercased_conv C113_lower_files C113_case_insensitive_refuted C113_action_names_refuted C113_strings_refuted C113_option_accepts_more_refuted","full case-insensitivity is false of the code (witnesses proved); the proved part covers all files whose action names differ whatever their case")
c("C114","partial","C114_value C114_compare C114_defined C114_integers_raise C114_integers_refuted C114_integer_arguments C114_integer_sums C114_operator C114_operator_iff C114_comparison C114_comparison_iff C114_number_refuted C114_bounded_refuted C114_left_refuted C114_special C114_special_refuted C114_hash C114_hash_refuted","Over numbers without rounding. The code violates the full claim for integers under min, max, abs and sgn, for numbers outside of the sort of the other operand, for numbers at the left of ** and %, and for min/max of two numbers (refuted).")
c("C115","partial","C115_construct C115_meaning C115_weak_refuted C115_qe_partial C115_qe_refuted C115_qe_removes C115_first_order C115_nnf C115_nnf_equiv C115_evaluate C115_evaluate_error","partial because the code violates it: W always raises, and quantifier elimination is wrong for re-bound variables")
c("C116","partial","C116_term_partial C116_formula_partial C116_effect_partial C116_ident_partial C116_action_partial C116_sort_refuted C116_leaf_refuted C116_comma_refuted C116_cost_refuted","Proved for vocabularies whose texts are told apart and without delimiters in names (functions not named ite/2, ADD, DEL, LIT; predicates not named like the builtin symbols); the code violates the claim without these conditions. Effects over Python lists of variables; choice, procedural and vectorised effects are not covered.")
c("C117","proved","C117_planning","STRIPS problems as stated. The solver is assumed to be correct (its answer lists exactly the consequences of the program), as in C49.")
c("C118","partial","C118_ident_partial C118_derived_partial C118_reaction_partial C118_sensor_partial C118_ode_partial C118_params_refuted C118_sort_refuted C118_dump_refuted","The code violates the full statement: parameters are not printed, and dump() raises for every object; proved for what is printed, over vocabularies whose texts are told apart.")
c("C119","proved","C119_planning C119_compiles C119_objects C119_intervals C119_functions","End-to-end: PDDL problem, logic program, grounding, breadth-first search.")
c("C120","proved","C120_naive C120_same_search","")
c("C121","proved","C121_wellformed","every problem that readProblemFiles returns is well formed, for all texts")
c("C122","proved","C122_strips C122_planning","end to end for all accepted STRIPS files; the ASP solver is assumed to return the least model")
c("C123","proved","C123_read_write_read C123_read_write_read_refuted","the claim about files without reserved words in other letters is proved; without that condition it is refuted with two files (predicate `Within`); functions, numbers, costs and metrics are left to C55")
c("C124","partial","C124_get_one C124_get_many C124_get_error C124_ns_partial C124_ns_refuted","The clauses about get are proved in full. The clause about the namespace fails for a symbol called lang (the attribute that holds the language hides it) and for the names of the attributes of every Python object; C124_ns_refuted shows it, C124_ns_partial proves the clause for all other names.")
c("C125","proved","C125_search C125_plan C125_shortest C125_first_goal C125_goal C125_planning","Hypothesis of the optimality clauses: states the search takes for equal (same key) behave alike (KeyOk), as in C27.")
c("C126","proved","C126_task C126_files C126_naive","the solver of the logic program is assumed to return the least model")
c("C127","partial","C127_shown C127_text C127_text_partial C127_refuted C127_literal","The code violates the statement for requests for a level and for universal effects; characterised in full.")
c("C128","proved","C128_symbols C128_any_problem C128_files","the order of Python sets is taken to be some order; effects on builtin predicates, which PDDL files cannot contain, are left out")
c("C129","proved","C129_shape C129_atom_value C129_term_value C129_from_atom C129_to_atom C129_eq C129_strategy","")
c("C130","partial","C130_timing_partial C130_no_memory C130_exception C130_refuted","Full statement: C130_full. It fails for blocks that return on platforms without psutil (C130_no_memory): the formatting of \"-\" with %.2f raises TypeError. Proved: the whole claim when the memory use can be read, and exceptions in any case.")
c("C131","proved","C131_same_plans C131_written C131_files","For problems with functions or numbers the runs are those of the atoms only (functions have no meaning in LiftedRun).")
c("C132","partial","C132_elements C132_order_partial C132_order_refuted","The code violates the part about the order for ten or more counters: names are sorted as texts, so c10 comes before c2; the negation is proved for every n >= 10. Everything else is proved for all n.")
c("C133","partial","C133_read C133_other C133_keyword_refuted C133_forgotten_refuted C133_removed_refuted C133_refuted","The code violates the property: constraints with a keyword raise TypeError, and others are read and forgotten; both are proved for all domains and instances, with the exact set of sections that are read. The constraints are given as parse trees, not as text.")
root = os.path.dirname(os.path.dirname(os.path.abspath(__file__)))
json.dump({"claims": [C[k] for k in sorted(C)]}, open(os.path.join(root, "MANIFEST.json"), "w"), indent=1)

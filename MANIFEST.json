{
 "claims": [
  {
   "property": "C01",
   "status": "partial",
   "theorems": [
    "Tarski.C01_refuted",
    "Tarski.C01_nnf_equiv_partial",
    "Tarski.C01_returns_iff",
    "Tarski.C01_nnf_total_partial"
   ],
   "note": "Code violates the property for negated top/bot (class objects are returned); proved whenever a formula is returned, with an exact characterisation of when it is."
  },
  {
   "property": "C02",
   "status": "proved",
   "theorems": [
    "Tarski.C02_nnf_shape",
    "Tarski.C02_nnf_on_nnf"
   ],
   "note": ""
  },
  {
   "property": "C03",
   "status": "partial",
   "theorems": [
    "Tarski.C03_refuted",
    "Tarski.C03_cnf_equiv",
    "Tarski.C03_cnf_partial"
   ],
   "note": "Inherits the negated top/bot defect of NNF; equivalence proved whenever the call returns."
  },
  {
   "property": "C04",
   "status": "proved",
   "theorems": [
    "Tarski.C04_cnf_shape"
   ],
   "note": ""
  },
  {
   "property": "C05",
   "status": "partial",
   "theorems": [
    "Tarski.C05_refuted",
    "Tarski.C05_single_clause_lost",
    "Tarski.C05_clauses_partial"
   ],
   "note": "Single-clause results are lost by the code; proved for conjunctive results."
  },
  {
   "property": "C06",
   "status": "partial",
   "theorems": [
    "Tarski.C06_refuted",
    "Tarski.C06_absorb_partial",
    "Tarski.C06_absorbs"
   ],
   "note": "Code drops subformulas beyond the second; proved for binary connectives."
  },
  {
   "property": "C07",
   "status": "proved",
   "theorems": [
    "Tarski.C07_complement",
    "Tarski.C07_negate_builtin_atom"
   ],
   "note": ""
  },
  {
   "property": "C08",
   "status": "partial",
   "theorems": [
    "Tarski.C08_refuted",
    "Tarski.C08_refuted_connective",
    "Tarski.C08_sound_refuted",
    "Tarski.C08_refuted_swap",
    "Tarski.C08_refuted_clash",
    "Tarski.C08_refuted_dropped",
    "Tarski.C08_prenex_partial",
    "Tarski.C08_clash_partial"
   ],
   "note": "The code is wrong in several independent ways (each refuted with a witness); proved on the fragment stated in C08_prenex_partial."
  },
  {
   "property": "C09",
   "status": "partial",
   "theorems": [
    "Tarski.C09_refuted",
    "Tarski.C09_qe_equiv_partial"
   ],
   "note": "False when a variable is re-quantified in its own scope; proved otherwise."
  },
  {
   "property": "C10",
   "status": "proved",
   "theorems": [
    "Tarski.C10_qe_removes",
    "Tarski.C10_qe_all",
    "Tarski.C10_qe_modes",
    "Tarski.C10_qe_fails_iff"
   ],
   "note": ""
  },
  {
   "property": "C100",
   "status": "partial",
   "theorems": [
    "Tarski.C100_read_partial",
    "Tarski.C100_text_partial",
    "Tarski.C100_serialized",
    "Tarski.C100_serialize_inj",
    "Tarski.C100_sound",
    "Tarski.C100_term_read",
    "Tarski.C100_term_sound",
    "Tarski.C100_model",
    "Tarski.C100_text_refuted",
    "Tarski.C100_nullary_refuted",
    "Tarski.C100_newline_refuted"
   ],
   "note": "str(atom) without arguments and texts ending in white space are rejected by the code; everything else is proved"
  },
  {
   "property": "C101",
   "status": "partial",
   "theorems": [
    "Tarski.C101_read_partial",
    "Tarski.C101_schema_partial",
    "Tarski.C101_relevant_refuted",
    "Tarski.C101_refuted",
    "Tarski.C101_none_refuted",
    "Tarski.C101_nested_refuted"
   ],
   "note": "files are read back except for the effect-relevant variables when all parameters are effect-relevant (refuted for every reader); nested terms give truncated or wrong files (refuted)"
  },
  {
   "property": "C102",
   "status": "partial",
   "theorems": [
    "Tarski.C102_product_rounded",
    "Tarski.C102_product",
    "Tarski.C102_product_dims",
    "Tarski.C102_literal",
    "Tarski.C102_entries",
    "Tarski.C102_number",
    "Tarski.C102_number_left_partial",
    "Tarski.C102_equal",
    "Tarski.C102_rows",
    "Tarski.C102_vector",
    "Tarski.C102_real_operand",
    "Tarski.C102_hash_empty",
    "Tarski.C102_transpose_partial",
    "Tarski.C102_sum_refuted",
    "Tarski.C102_integer_refuted",
    "Tarski.C102_entry_refuted",
    "Tarski.C102_number_left_refuted",
    "Tarski.C102_hash_refuted",
    "Tarski.C102_shared_refuted",
    "Tarski.C102_argument_refuted",
    "Tarski.C102_failed_refuted",
    "Tarski.C102_scalar_refuted",
    "Tarski.C102_view_refuted"
   ],
   "note": "products, scalar operations and transposition proved where the code supports them; each unsupported case is a theorem about the code"
  },
  {
   "property": "C103",
   "status": "partial",
   "theorems": [
    "Tarski.C103_names_partial",
    "Tarski.C103_separate_partial",
    "Tarski.C103_copy_same",
    "Tarski.C103_copy_shares",
    "Tarski.C103_members_kept",
    "Tarski.C103_const_member",
    "Tarski.C103_independent_refuted",
    "Tarski.C103_sort_refuted",
    "Tarski.C103_symbol_refuted"
   ],
   "note": "full independence of deep copies is false of the code; proved: independence of names in all histories, full independence of languages that are never copied, what exactly is shared. Numeric sorts, set_parent with overwrite, remove_symbol and operators are not in this model."
  },
  {
   "property": "C104",
   "status": "partial",
   "theorems": [
    "Tarski.C104_hypergraph_partial",
    "Tarski.C104_primal_partial",
    "Tarski.C104_acyclic",
    "Tarski.C104_names",
    "Tarski.C104_names_refuted",
    "Tarski.C104_empty_refuted"
   ],
   "note": "holds for all conjunctive preconditions with at least one atom; the empty conjunction is rejected by the code and names are only faithful for variables written with a question mark"
  },
  {
   "property": "C105",
   "status": "partial",
   "theorems": [
    "Tarski.C105_eq_refl",
    "Tarski.C105_eq_symm",
    "Tarski.C105_eq_trans",
    "Tarski.C105_eq_hash",
    "Tarski.C105_eq_sound",
    "Tarski.C105_complete_partial",
    "Tarski.C105_one_identity_partial",
    "Tarski.C105_complete_refuted",
    "Tarski.C105_refuted",
    "Tarski.C105_construction_partial",
    "Tarski.C105_construction_error_partial",
    "Tarski.C105_construction_refuted",
    "Tarski.C105_bytes_roundtrip",
    "Tarski.C105_hash_boundaries_refuted"
   ],
   "note": "completeness of equality and totality of construction are false of the code (refuted); what holds instead is proved exactly. SHA-256 is an arbitrary digest function"
  },
  {
   "property": "C106",
   "status": "partial",
   "theorems": [
    "Tarski.C106_costs_partial",
    "Tarski.C106_one_cost",
    "Tarski.C106_refuted",
    "Tarski.C106_var_injective",
    "Tarski.C106_var_is_variable",
    "Tarski.C106_fresh",
    "Tarski.C106_fresh_found",
    "Tarski.C106_all_actions",
    "Tarski.C106_init_facts"
   ],
   "note": "fractional constant costs are truncated by the code (refuted); everything else is proved"
  },
  {
   "property": "C107",
   "status": "partial",
   "theorems": [
    "Tarski.C107_match_partial",
    "Tarski.C107_match_term_partial",
    "Tarski.C107_match_refuted",
    "Tarski.C107_variables_partial",
    "Tarski.C107_variables_refuted",
    "Tarski.C107_equality_partial",
    "Tarski.C107_equality_refuted",
    "Tarski.C107_visit_effect"
   ],
   "note": "the code violates the full statements (refuted with witnesses); visit_effect proved in full for the effects it accepts"
  },
  {
   "property": "C108",
   "status": "partial",
   "theorems": [
    "Tarski.C108_vectorised_partial",
    "Tarski.C108_vectorised_refuted",
    "Tarski.C108_linear_partial",
    "Tarski.C108_linear_refuted",
    "Tarski.C108_linear_scalar_partial",
    "Tarski.C108_blackbox",
    "Tarski.C108_blackbox_shape",
    "Tarski.C108_blackbox_mismatch",
    "Tarski.C108_choice",
    "Tarski.C108_opt_type"
   ],
   "note": "vectorised and linear effects violate the full statements (refuted, exact behaviour characterized); the rest proved in full"
  },
  {
   "property": "C109",
   "status": "proved",
   "theorems": [
    "Tarski.C109_vocabulary",
    "Tarski.C109_constructors",
    "Tarski.C109_primitives",
    "Tarski.C109_once",
    "Tarski.C109_total_cost"
   ],
   "note": ""
  },
  {
   "property": "C11",
   "status": "proved",
   "theorems": [
    "Tarski.C11_land",
    "Tarski.C11_lor",
    "Tarski.C11_neg_implies_equiv",
    "Tarski.C11_wf"
   ],
   "note": ""
  },
  {
   "property": "C110",
   "status": "partial",
   "theorems": [
    "Tarski.C110_atom",
    "Tarski.C110_rule_readable",
    "Tarski.C110_file_readable",
    "Tarski.C110_in_file",
    "Tarski.C110_one_line",
    "Tarski.C110_unclean_refuted",
    "Tarski.C110_parse_partial",
    "Tarski.C110_parse_refuted",
    "Tarski.C110_content_file"
   ],
   "note": "readability proved for words without punctuation (refuted otherwise); parse_model refuses the empty text (refuted), proved for the others"
  },
  {
   "property": "C111",
   "status": "partial",
   "theorems": [
    "Tarski.C111_lines",
    "Tarski.C111_silentremove",
    "Tarski.C111_frame",
    "Tarski.C111_clean_partial",
    "Tarski.C111_clean_refuted",
    "Tarski.C111_failures",
    "Tarski.C111_no_solver",
    "Tarski.C111_domain",
    "Tarski.C111_domain_here",
    "Tarski.C111_domain_exists"
   ],
   "note": "clean-up of the temporary files is refuted for runs with warnings or failures, proved for the others; everything else in full"
  },
  {
   "property": "C112",
   "status": "partial",
   "theorems": [
    "Tarski.C112_listings",
    "Tarski.C112_has",
    "Tarski.C112_counts",
    "Tarski.C112_declare",
    "Tarski.C112_fail",
    "Tarski.C112_silent",
    "Tarski.C112_remove",
    "Tarski.C112_vocabulary_declare",
    "Tarski.C112_vocabulary",
    "Tarski.C112_children",
    "Tarski.C112_children_partition",
    "Tarski.C112_closest_builtin",
    "Tarski.C112_closest_returns",
    "Tarski.C112_well_formed",
    "Tarski.C112_well_formed_intervals",
    "Tarski.C112_bounds",
    "Tarski.C112_dump",
    "Tarski.C112_well_formed_refuted"
   ],
   "note": "all parts proved, except that check_well_formed does not detect intervals whose bounds were set the wrong way round (refuted with a witness)"
  },
  {
   "property": "C113",
   "status": "partial",
   "theorems": [
    "Tarski.C113_tokens",
    "Tarski.C113_case_insensitive_partial",
    "Tarski.C113_same_problem",
    "Tarski.C113_lowercased",
    "Tarski.C113_lowercased_conv",
    "Tarski.C113_lower_files",
    "Tarski.C113_case_insensitive_refuted",
    "Tarski.C113_action_names_refuted",
    "Tarski.C113_strings_refuted",
    "Tarski.C113_option_accepts_more_refuted"
   ],
   "note": "full case-insensitivity is false of the code (witnesses proved); the proved part covers all files whose action names differ whatever their case"
  },
  {
   "property": "C114",
   "status": "partial",
   "theorems": [
    "Tarski.C114_value",
    "Tarski.C114_compare",
    "Tarski.C114_defined",
    "Tarski.C114_integers_raise",
    "Tarski.C114_integers_refuted",
    "Tarski.C114_integer_arguments",
    "Tarski.C114_integer_sums",
    "Tarski.C114_operator",
    "Tarski.C114_operator_iff",
    "Tarski.C114_comparison",
    "Tarski.C114_comparison_iff",
    "Tarski.C114_number_refuted",
    "Tarski.C114_bounded_refuted",
    "Tarski.C114_left_refuted",
    "Tarski.C114_special",
    "Tarski.C114_special_refuted",
    "Tarski.C114_hash",
    "Tarski.C114_hash_refuted"
   ],
   "note": "Over numbers without rounding. The code violates the full claim for integers under min, max, abs and sgn, for numbers outside of the sort of the other operand, for numbers at the left of ** and %, and for min/max of two numbers (refuted)."
  },
  {
   "property": "C115",
   "status": "partial",
   "theorems": [
    "Tarski.C115_construct",
    "Tarski.C115_meaning",
    "Tarski.C115_weak_refuted",
    "Tarski.C115_qe_partial",
    "Tarski.C115_qe_refuted",
    "Tarski.C115_qe_removes",
    "Tarski.C115_first_order",
    "Tarski.C115_nnf",
    "Tarski.C115_nnf_equiv",
    "Tarski.C115_evaluate",
    "Tarski.C115_evaluate_error"
   ],
   "note": "partial because the code violates it: W always raises, and quantifier elimination is wrong for re-bound variables"
  },
  {
   "property": "C116",
   "status": "partial",
   "theorems": [
    "Tarski.C116_term_partial",
    "Tarski.C116_formula_partial",
    "Tarski.C116_effect_partial",
    "Tarski.C116_ident_partial",
    "Tarski.C116_action_partial",
    "Tarski.C116_sort_refuted",
    "Tarski.C116_leaf_refuted",
    "Tarski.C116_comma_refuted",
    "Tarski.C116_cost_refuted"
   ],
   "note": "Proved for vocabularies whose texts are told apart and without delimiters in names (functions not named ite/2, ADD, DEL, LIT; predicates not named like the builtin symbols); the code violates the claim without these conditions. Effects over Python lists of variables; choice, procedural and vectorised effects are not covered."
  },
  {
   "property": "C117",
   "status": "proved",
   "theorems": [
    "Tarski.C117_planning"
   ],
   "note": "STRIPS problems as stated. The solver is assumed to be correct (its answer lists exactly the consequences of the program), as in C49."
  },
  {
   "property": "C118",
   "status": "partial",
   "theorems": [
    "Tarski.C118_ident_partial",
    "Tarski.C118_derived_partial",
    "Tarski.C118_reaction_partial",
    "Tarski.C118_sensor_partial",
    "Tarski.C118_ode_partial",
    "Tarski.C118_params_refuted",
    "Tarski.C118_sort_refuted",
    "Tarski.C118_dump_refuted"
   ],
   "note": "The code violates the full statement: parameters are not printed, and dump() raises for every object; proved for what is printed, over vocabularies whose texts are told apart."
  },
  {
   "property": "C119",
   "status": "proved",
   "theorems": [
    "Tarski.C119_planning",
    "Tarski.C119_compiles",
    "Tarski.C119_objects",
    "Tarski.C119_intervals",
    "Tarski.C119_functions"
   ],
   "note": "End-to-end: PDDL problem, logic program, grounding, breadth-first search."
  },
  {
   "property": "C12",
   "status": "proved",
   "theorems": [
    "Tarski.C12_flatten_equiv",
    "Tarski.C12_flatten_shape",
    "Tarski.C12_flatten_idem",
    "Tarski.C12_flatten_wf"
   ],
   "note": ""
  },
  {
   "property": "C120",
   "status": "proved",
   "theorems": [
    "Tarski.C120_naive",
    "Tarski.C120_same_search"
   ],
   "note": ""
  },
  {
   "property": "C121",
   "status": "proved",
   "theorems": [
    "Tarski.C121_wellformed"
   ],
   "note": "every problem that readProblemFiles returns is well formed, for all texts"
  },
  {
   "property": "C122",
   "status": "proved",
   "theorems": [
    "Tarski.C122_strips",
    "Tarski.C122_planning"
   ],
   "note": "end to end for all accepted STRIPS files; the ASP solver is assumed to return the least model"
  },
  {
   "property": "C123",
   "status": "proved",
   "theorems": [
    "Tarski.C123_read_write_read",
    "Tarski.C123_read_write_read_refuted"
   ],
   "note": "the claim about files without reserved words in other letters is proved; without that condition it is refuted with two files (predicate `Within`); functions, numbers, costs and metrics are left to C55"
  },
  {
   "property": "C124",
   "status": "partial",
   "theorems": [
    "Tarski.C124_get_one",
    "Tarski.C124_get_many",
    "Tarski.C124_get_error",
    "Tarski.C124_ns_partial",
    "Tarski.C124_ns_refuted"
   ],
   "note": "The clauses about get are proved in full. The clause about the namespace fails for a symbol called lang (the attribute that holds the language hides it) and for the names of the attributes of every Python object; C124_ns_refuted shows it, C124_ns_partial proves the clause for all other names."
  },
  {
   "property": "C125",
   "status": "proved",
   "theorems": [
    "Tarski.C125_search",
    "Tarski.C125_plan",
    "Tarski.C125_shortest",
    "Tarski.C125_first_goal",
    "Tarski.C125_goal",
    "Tarski.C125_planning"
   ],
   "note": "Hypothesis of the optimality clauses: states the search takes for equal (same key) behave alike (KeyOk), as in C27."
  },
  {
   "property": "C126",
   "status": "proved",
   "theorems": [
    "Tarski.C126_task",
    "Tarski.C126_files",
    "Tarski.C126_naive"
   ],
   "note": "the solver of the logic program is assumed to return the least model"
  },
  {
   "property": "C127",
   "status": "partial",
   "theorems": [
    "Tarski.C127_shown",
    "Tarski.C127_text",
    "Tarski.C127_text_partial",
    "Tarski.C127_refuted",
    "Tarski.C127_literal"
   ],
   "note": "The code violates the statement for requests for a level and for universal effects; characterised in full."
  },
  {
   "property": "C128",
   "status": "proved",
   "theorems": [
    "Tarski.C128_symbols",
    "Tarski.C128_any_problem",
    "Tarski.C128_files"
   ],
   "note": "the order of Python sets is taken to be some order; effects on builtin predicates, which PDDL files cannot contain, are left out"
  },
  {
   "property": "C129",
   "status": "proved",
   "theorems": [
    "Tarski.C129_shape",
    "Tarski.C129_atom_value",
    "Tarski.C129_term_value",
    "Tarski.C129_from_atom",
    "Tarski.C129_to_atom",
    "Tarski.C129_eq",
    "Tarski.C129_strategy"
   ],
   "note": ""
  },
  {
   "property": "C13",
   "status": "partial",
   "theorems": [
    "Tarski.C13_refuted",
    "Tarski.C13_subst_partial",
    "Tarski.C13_subst_term_partial",
    "Tarski.C13_subst_constants_partial"
   ],
   "note": "False when a quantifier re-binds a substituted variable; proved otherwise."
  },
  {
   "property": "C130",
   "status": "partial",
   "theorems": [
    "Tarski.C130_timing_partial",
    "Tarski.C130_no_memory",
    "Tarski.C130_exception",
    "Tarski.C130_refuted"
   ],
   "note": "Full statement: C130_full. It fails for blocks that return on platforms without psutil (C130_no_memory): the formatting of \"-\" with %.2f raises TypeError. Proved: the whole claim when the memory use can be read, and exceptions in any case."
  },
  {
   "property": "C131",
   "status": "proved",
   "theorems": [
    "Tarski.C131_same_plans",
    "Tarski.C131_written",
    "Tarski.C131_files"
   ],
   "note": "For problems with functions or numbers the runs are those of the atoms only (functions have no meaning in LiftedRun)."
  },
  {
   "property": "C132",
   "status": "partial",
   "theorems": [
    "Tarski.C132_elements",
    "Tarski.C132_order_partial",
    "Tarski.C132_order_refuted"
   ],
   "note": "The code violates the part about the order for ten or more counters: names are sorted as texts, so c10 comes before c2; the negation is proved for every n >= 10. Everything else is proved for all n."
  },
  {
   "property": "C133",
   "status": "partial",
   "theorems": [
    "Tarski.C133_read",
    "Tarski.C133_other",
    "Tarski.C133_keyword_refuted",
    "Tarski.C133_forgotten_refuted",
    "Tarski.C133_removed_refuted",
    "Tarski.C133_refuted"
   ],
   "note": "The code violates the property: constraints with a keyword raise TypeError, and others are read and forgotten; both are proved for all domains and instances, with the exact set of sections that are read. The constraints are given as parse trees, not as text."
  },
  {
   "property": "C14",
   "status": "partial",
   "theorems": [
    "Tarski.C14_eliminates",
    "Tarski.C14_identity_refuted",
    "Tarski.C14_identity_partial"
   ],
   "note": "Identity fails for == because of tuple/list containers; proved up to container kind."
  },
  {
   "property": "C15",
   "status": "partial",
   "theorems": [
    "Tarski.C15_refuted",
    "Tarski.C15_ite_missed",
    "Tarski.C15_free_variables_partial"
   ],
   "note": "False for re-quantified variables and if-then-else terms; proved otherwise."
  },
  {
   "property": "C16",
   "status": "proved",
   "theorems": [
    "Tarski.C16_equality",
    "Tarski.C16_equal_equiv",
    "Tarski.C16_container_sensitive"
   ],
   "note": ""
  },
  {
   "property": "C17",
   "status": "partial",
   "theorems": [
    "Tarski.C17_arithmetic_range",
    "Tarski.C17_sound",
    "Tarski.C17_sound_term",
    "Tarski.C17_quantified_rejected",
    "Tarski.C17_refuted",
    "Tarski.C17_partial",
    "Tarski.C17_identity_refuted",
    "Tarski.C17_identity_partial"
   ],
   "note": "Every returned verdict is the Tarskian truth value; the evaluator raises instead of answering on nested if-then-else (refuted); totality and identity proved on the stated fragments."
  },
  {
   "property": "C18",
   "status": "proved",
   "theorems": [
    "Tarski.C18_holds",
    "Tarski.C18_value",
    "Tarski.C18_value_error",
    "Tarski.C18_atomic",
    "Tarski.C18_remove",
    "Tarski.C18_discard",
    "Tarski.C18_accepts"
   ],
   "note": ""
  },
  {
   "property": "C19",
   "status": "proved",
   "theorems": [
    "Tarski.C19_names_unique",
    "Tarski.C19_get",
    "Tarski.C19_get_undefined",
    "Tarski.C19_duplicate",
    "Tarski.C19_declares",
    "Tarski.C19_atomic",
    "Tarski.C19_atomic_refuted"
   ],
   "note": "Failing calls are atomic except attach_sort with a foreign parent (refuted)."
  },
  {
   "property": "C20",
   "status": "partial",
   "theorems": [
    "Tarski.C20_refuted",
    "Tarski.C20_refuted_hang",
    "Tarski.C20_subtype_partial",
    "Tarski.C20_query_pure",
    "Tarski.C20_partial_order",
    "Tarski.C20_tree",
    "Tarski.C20_history"
   ],
   "note": "False after set_parent(overwrite=True) (stale ancestors, non-termination); proved for hierarchies built by declarations, and exact answer given for all histories."
  },
  {
   "property": "C21",
   "status": "partial",
   "theorems": [
    "Tarski.C21_refuted",
    "Tarski.C21_domains_partial",
    "Tarski.C21_constant_call",
    "Tarski.C21_interval_dom"
   ],
   "note": "False after re-parenting a sort that has constants; proved for every declaration history."
  },
  {
   "property": "C22",
   "status": "partial",
   "theorems": [
    "Tarski.C22_refuted",
    "Tarski.C22_sort_ids_partial"
   ],
   "note": "Objects of sorts declared below an interval sort get no id; proved for every hierarchy without sorts below intervals."
  },
  {
   "property": "C23",
   "status": "proved",
   "theorems": [
    "Tarski.C23_index_bijection",
    "Tarski.C23_repeated_add"
   ],
   "note": ""
  },
  {
   "property": "C24",
   "status": "proved",
   "theorems": [
    "Tarski.C24_progress",
    "Tarski.C24_returns",
    "Tarski.C24_universal_refuted"
   ],
   "note": "exact result of unconditional add/delete effect lists (adds win); deletes inside universal effects are not moved to the front (refuted variant shown)"
  },
  {
   "property": "C25",
   "status": "partial",
   "theorems": [
    "Tarski.C25_refuted",
    "Tarski.C25_order_refuted",
    "Tarski.C25_swap_refuted",
    "Tarski.C25_simultaneous_partial",
    "Tarski.C25_returns_partial",
    "Tarski.C25_order_partial"
   ],
   "note": "simultaneous semantics is false of the code in general (conditions and right-hand sides are read after earlier effects); proved when no effect reads a symbol that an earlier one writes"
  },
  {
   "property": "C26",
   "status": "proved",
   "theorems": [
    "Tarski.C26_static",
    "Tarski.C26_affected"
   ],
   "note": "symbols not classified as affected keep their extension along every plan"
  },
  {
   "property": "C27",
   "status": "proved",
   "theorems": [
    "Tarski.C27_expands",
    "Tarski.C27_complete",
    "Tarski.C27_levels",
    "Tarski.C27_goals",
    "Tarski.C27_limit_stops",
    "Tarski.C27_finite_stops",
    "Tarski.C27_deterministic",
    "Tarski.C27_errors",
    "Tarski.C27_exact",
    "Tarski.C27_plans"
   ],
   "note": "breadth-first search; states are identified through their key (str of the model), exact when that key is injective"
  },
  {
   "property": "C28",
   "status": "proved",
   "theorems": [
    "Tarski.C28_relaxation",
    "Tarski.C28_goal",
    "Tarski.C28_deleteFree",
    "Tarski.C28_strips",
    "Tarski.C28_negative_refuted",
    "Tarski.C28_functional"
   ],
   "note": "general actions: the relaxed run either raises or dominates the original; for ground STRIPS operators it never raises; positivity is shown to be needed"
  },
  {
   "property": "C29",
   "status": "partial",
   "theorems": [
    "Tarski.C29_refuted",
    "Tarski.C29_nested_refuted",
    "Tarski.C29_successor_partial",
    "Tarski.C29_eliminated_partial",
    "Tarski.C29_returns",
    "Tarski.C29_noninterfering_partial"
   ],
   "note": "false in general: deletes coming out of a universal effect are moved before adds, nested universal effects remain; proved without deletes under universals, or for non-interfering effects"
  },
  {
   "property": "C30",
   "status": "partial",
   "theorems": [
    "Tarski.C30_bisimulation_partial",
    "Tarski.C30_negation_free",
    "Tarski.C30_refuted",
    "Tarski.C30_toggle_refuted",
    "Tarski.C30_add_delete_refuted",
    "Tarski.C30_raises"
   ],
   "note": "false for disjunctive conditions (become conjunctions), for toggling effects and for add+delete of one atom (each refuted); otherwise every plan has the same outcome, with complementary states and equal goal values; output never contains negated atoms"
  },
  {
   "property": "C31",
   "status": "partial",
   "theorems": [
    "Tarski.C31_truth_partial",
    "Tarski.C31_refuted",
    "Tarski.C31_term",
    "Tarski.C31_evaluate",
    "Tarski.C31_shape",
    "Tarski.C31_idempotent",
    "Tarski.C31_returns",
    "Tarski.C31_plan_partial",
    "Tarski.C31_plan_refuted",
    "Tarski.C31_actions",
    "Tarski.C31_simplify",
    "Tarski.C31_symbols",
    "Tarski.C31_simplify_raises",
    "Tarski.C31_nested_refuted",
    "Tarski.C31_universal_refuted",
    "Tarski.C31_original_refuted"
   ],
   "note": "truth preserved when quantified sorts are non-empty (refuted otherwise); simplified actions have the same plans and successors unless a precondition becomes the bool True (refuted); simplify() on problems characterised, with the cases in which it changes meaning refuted"
  },
  {
   "property": "C32",
   "status": "partial",
   "theorems": [
    "Tarski.C32_refuted",
    "Tarski.C32_shape_refuted",
    "Tarski.C32_index_refuted",
    "Tarski.C32_occurs_refuted",
    "Tarski.C32_sort_refuted",
    "Tarski.C32_capture_refuted",
    "Tarski.C32_equiv_partial",
    "Tarski.C32_conjunctive_partial",
    "Tarski.C32_returns",
    "Tarski.C32_eliminates"
   ],
   "note": "false in five ways (each refuted); equivalent, for every set iteration order, when every replacement made meets the stated side conditions, and for a class of inputs given by syntactic conditions; always returns, and leaves no equation on a quantified variable"
  },
  {
   "property": "C33",
   "status": "proved",
   "theorems": [
    "Tarski.C33_conflicts",
    "Tarski.C33_returns",
    "Tarski.C33_strips",
    "Tarski.C33_ground",
    "Tarski.C33_lifted_refuted"
   ],
   "note": "exact for syntactic atoms; acceptance of lifted effects does not carry over to instances (shown)"
  },
  {
   "property": "C34",
   "status": "proved",
   "theorems": [
    "Tarski.C34_transitiveClosure"
   ],
   "note": ""
  },
  {
   "property": "C35",
   "status": "proved",
   "theorems": [
    "Tarski.C35_minDistance"
   ],
   "note": ""
  },
  {
   "property": "C36",
   "status": "partial",
   "theorems": [
    "Tarski.C36_refuted",
    "Tarski.C36_composition_refuted",
    "Tarski.C36_composition_partial",
    "Tarski.C36_denotation_partial",
    "Tarski.C36_noComposition",
    "Tarski.C36_closed",
    "Tarski.C36_star"
   ],
   "note": "composition of roles is wrong in the code (refuted); every other constructor has its textbook denotation"
  },
  {
   "property": "C37",
   "status": "proved",
   "theorems": [
    "Tarski.C37_int",
    "Tarski.C37_bool",
    "Tarski.C37_diff",
    "Tarski.C37_analogous",
    "Tarski.C37_minDistance",
    "Tarski.C37_values"
   ],
   "note": ""
  },
  {
   "property": "C38",
   "status": "proved",
   "theorems": [
    "Tarski.C38_acyclicity"
   ],
   "note": "for every iteration order of the underlying sets"
  },
  {
   "property": "C39",
   "status": "partial",
   "theorems": [
    "Tarski.C39_refuted",
    "Tarski.C39_unstable_refuted",
    "Tarski.C39_reversible_partial",
    "Tarski.C39_injective_partial",
    "Tarski.C39_tame",
    "Tarski.C39_clash"
   ],
   "note": "false when an unchanged symbol equals the later translation of another one (refuted); exact description of all histories; full property for tame symbols"
  },
  {
   "property": "C40",
   "status": "proved",
   "theorems": [
    "Tarski.C40_tuples",
    "Tarski.C40_actions",
    "Tarski.C40_state_variables",
    "Tarski.C40_state_variables_error",
    "Tarski.C40_partial_terms",
    "Tarski.C40_language",
    "Tarski.C40_enumerate",
    "Tarski.C40_substitutions",
    "Tarski.C40_enumerate_refuted"
   ],
   "note": ""
  },
  {
   "property": "C41",
   "status": "partial",
   "theorems": [
    "Tarski.C41_simplify_partial",
    "Tarski.C41_refuted",
    "Tarski.C41_defined",
    "Tarski.C41_division_error",
    "Tarski.C41_natural_refuted"
   ],
   "note": "false for division and for Natural subtraction (refuted); proved for the remaining expressions"
  },
  {
   "property": "C42",
   "status": "proved",
   "theorems": [
    "Tarski.C42_binding",
    "Tarski.C42_duplicate",
    "Tarski.C42_duplicate_init_refuted"
   ],
   "note": "The constructor does not reject duplicates (shown by C42_duplicate_init_refuted)."
  },
  {
   "property": "C43",
   "status": "partial",
   "theorems": [
    "Tarski.C43_refuted",
    "Tarski.C43_prenex_shape_partial"
   ],
   "note": ""
  },
  {
   "property": "C44",
   "status": "partial",
   "theorems": [
    "Tarski.C44_refuted",
    "Tarski.C44_declarations_return_partial",
    "Tarski.C44_cycle_hangs"
   ],
   "note": "Re-parenting below a descendant never returns; all declarations and queries return in declared languages."
  },
  {
   "property": "C45",
   "status": "partial",
   "theorems": [
    "Tarski.C45_declare",
    "Tarski.C45_interval_call",
    "Tarski.C45_domain",
    "Tarski.C45_domain_fails",
    "Tarski.C45_refuted",
    "Tarski.C45_subsort_partial"
   ],
   "note": "Natural is not contained in Integer, and new intervals are not checked against their parent."
  },
  {
   "property": "C46",
   "status": "partial",
   "theorems": [
    "Tarski.C46_welltyped",
    "Tarski.C46_refuted",
    "Tarski.C46_ground_partial"
   ],
   "note": "model.add accepts variables and stores None for them (refuted); proved for every history without such calls."
  },
  {
   "property": "C47",
   "status": "partial",
   "theorems": [
    "Tarski.C47_sound_partial",
    "Tarski.C47_unsolvable_partial",
    "Tarski.C47_refuted",
    "Tarski.C47_variables_refuted",
    "Tarski.C47_interval_refuted"
   ],
   "note": "soundness of the reachability program for problems whose object names do not start with an upper case letter, whose variables have different capitalised names and range over declared constants; the full statement is refuted in each of the other cases"
  },
  {
   "property": "C48",
   "status": "partial",
   "theorems": [
    "Tarski.C48_exact_partial",
    "Tarski.C48_compilers_agree_partial",
    "Tarski.C48_refuted"
   ],
   "note": "exact for problems of C47 without open existential subformulas; the full statement is refuted: an existential becomes an auxiliary symbol without arguments"
  },
  {
   "property": "C49",
   "status": "partial",
   "theorems": [
    "Tarski.C49_complete_partial",
    "Tarski.C49_exact_partial",
    "Tarski.C49_variables_partial",
    "Tarski.C49_names"
   ],
   "note": "given a correct answer of the solver; for the problems of C47 (completeness) and C48 (exactness)"
  },
  {
   "property": "C50",
   "status": "partial",
   "theorems": [
    "Tarski.C50_history_partial",
    "Tarski.C50_refuted",
    "Tarski.C50_iterate_refuted",
    "Tarski.C50_iterate_empty"
   ],
   "note": "independent of the history as long as ReachabilityLPUnsolvable is not raised; afterwards later calls answer without raising (refuted); iterate_over_schema_groundings yields nothing (refuted, and proved to yield nothing)"
  },
  {
   "property": "C51",
   "status": "partial",
   "theorems": [
    "Tarski.C51_precondition_round_trip_partial",
    "Tarski.C51_goal_round_trip_partial",
    "Tarski.C51_contradiction_refuted",
    "Tarski.C51_rebinding_refuted",
    "Tarski.C51_number_argument_refuted",
    "Tarski.C51_upper_case_refuted",
    "Tarski.C51_reserved_word_refuted",
    "Tarski.C51_integer_variable_refuted",
    "Tarski.C51_real_number_refuted",
    "Tarski.C51_variable_case_refuted"
   ],
   "note": "proved for every formula that PDDL can express (OkF), character by character through lexer, parser and visitor; the other formulas are not read back, or silently with another meaning (refuted)"
  },
  {
   "property": "C52",
   "status": "partial",
   "theorems": [
    "Tarski.C52_action_round_trip_partial",
    "Tarski.C52_conditional_universal_refuted",
    "Tarski.C52_equality_effect_refuted",
    "Tarski.C52_real_cost_refuted",
    "Tarski.C52_parameter_case_refuted"
   ],
   "note": "proved for every action that PDDL can express (OkAction); refuted for the others"
  },
  {
   "property": "C53",
   "status": "partial",
   "theorems": [
    "Tarski.C53_init_round_trip_partial",
    "Tarski.C53_subsort_argument_refuted",
    "Tarski.C53_number_subsort_refuted",
    "Tarski.C53_upper_case_refuted"
   ],
   "note": "proved for every state reached by updates whose facts PDDL can express; refuted for the others"
  },
  {
   "property": "C54",
   "status": "partial",
   "theorems": [
    "Tarski.C54_domain_round_trip_partial",
    "Tarski.C54_integer_function_refuted",
    "Tarski.C54_real_function_refuted",
    "Tarski.C54_number_sort_refuted",
    "Tarski.C54_natural_parent_refuted",
    "Tarski.C54_symbolic_integer_refuted",
    "Tarski.C54_nested_interval_refuted",
    "Tarski.C54_real_sort_refuted",
    "Tarski.C54_case_refuted",
    "Tarski.C54_case_clash_refuted",
    "Tarski.C54_interval_constant_refuted",
    "Tarski.C54_derived_refuted"
   ],
   "note": "proved for every problem whose declarations PDDL can express (OkDomain), for any order of the requirements; refuted for the others"
  },
  {
   "property": "C55",
   "status": "partial",
   "theorems": [
    "Tarski.C55_problem_round_trip_partial",
    "Tarski.C55_no_goal_refuted",
    "Tarski.C55_real_bounds_refuted",
    "Tarski.C55_init_bounds_refuted"
   ],
   "note": "proved for every problem PDDL can express (OkProblem); refuted for the others"
  },
  {
   "property": "C56",
   "status": "partial",
   "theorems": [
    "Tarski.C56_project_partial",
    "Tarski.C56_project_problem_partial",
    "Tarski.C56_nothing_to_project_refuted",
    "Tarski.C56_condition_refuted",
    "Tarski.C56_cost_refuted",
    "Tarski.C56_ite_refuted",
    "Tarski.C56_refuted"
   ],
   "note": "proved for closed actions where some parameter can be projected, whose variables in effect conditions and costs also occur in arguments of effects, without if-then-else terms in effects; refuted for the others"
  },
  {
   "property": "C57",
   "status": "proved",
   "theorems": [
    "Tarski.C57_nodes",
    "Tarski.C57_all_variables",
    "Tarski.C57_ground",
    "Tarski.C57_function_free",
    "Tarski.C57_quantifier_free"
   ],
   "note": ""
  },
  {
   "property": "C58",
   "status": "partial",
   "theorems": [
    "Tarski.C58_queries_partial",
    "Tarski.C58_refuted"
   ],
   "note": "meaning and hash are kept; equality is kept exactly for expressions without tuples of subformulas: refuted for conjunctions as land builds them"
  },
  {
   "property": "C59",
   "status": "proved",
   "theorems": [
    "Tarski.C59_returns",
    "Tarski.C59_exact",
    "Tarski.C59_meaning",
    "Tarski.C59_classify"
   ],
   "note": ""
  },
  {
   "property": "C60",
   "status": "partial",
   "theorems": [
    "Tarski.C60_literals_partial",
    "Tarski.C60_atoms_partial",
    "Tarski.C60_strips_partial",
    "Tarski.C60_accepts_partial",
    "Tarski.C60_disjunction_refuted",
    "Tarski.C60_negation_refuted",
    "Tarski.C60_top_refuted",
    "Tarski.C60_double_negation_refuted",
    "Tarski.C60_refuted"
   ],
   "note": "exact for formulas that are not true, disjunctions or negations; refuted for those"
  },
  {
   "property": "C61",
   "status": "proved",
   "theorems": [
    "Tarski.C61_exact",
    "Tarski.C61_irrelevant"
   ],
   "note": ""
  },
  {
   "property": "C62",
   "status": "partial",
   "theorems": [
    "Tarski.C62_symbols_partial",
    "Tarski.C62_suffices_partial",
    "Tarski.C62_raises_partial",
    "Tarski.C62_universal_refuted",
    "Tarski.C62_literal_refuted",
    "Tarski.C62_refuted"
   ],
   "note": "exact for problems without literal effects and without conditional universal effects; refuted for those"
  },
  {
   "property": "C63",
   "status": "partial",
   "theorems": [
    "Tarski.C63_roles_partial",
    "Tarski.C63_concepts_partial",
    "Tarski.C63_forall_refuted",
    "Tarski.C63_equal_refuted",
    "Tarski.C63_or_refuted",
    "Tarski.C63_refuted"
   ],
   "note": "roles: full; concepts: refuted for universal restrictions, equalities and disjunctions of different sorts, proved for the rest"
  },
  {
   "property": "C64",
   "status": "partial",
   "theorems": [
    "Tarski.C64_exists_partial",
    "Tarski.C64_not",
    "Tarski.C64_forall_partial",
    "Tarski.C64_and_partial",
    "Tarski.C64_or_partial",
    "Tarski.C64_equal_partial",
    "Tarski.C64_restrict_partial",
    "Tarski.C64_comp_partial",
    "Tarski.C64_or_refuted",
    "Tarski.C64_exists_refuted",
    "Tarski.C64_refuted"
   ],
   "note": "proved for arguments with the right sort; refuted in general"
  },
  {
   "property": "C65",
   "status": "partial",
   "theorems": [
    "Tarski.C65_returns",
    "Tarski.C65_raises",
    "Tarski.C65_action_outcome",
    "Tarski.C65_instance_partial",
    "Tarski.C65_refuted",
    "Tarski.C65_union_partial",
    "Tarski.C65_cost_refuted",
    "Tarski.C65_sort_refuted"
   ],
   "note": "for actions that do not re-bind a parameter; refuted otherwise; ground_schema loses the cost (refuted)"
  },
  {
   "property": "C66",
   "status": "partial",
   "theorems": [
    "Tarski.C66_names_partial",
    "Tarski.C66_refuted"
   ],
   "note": "for names without commas and parentheses; refuted otherwise"
  },
  {
   "property": "C67",
   "status": "partial",
   "theorems": [
    "Tarski.C67_solutions_partial",
    "Tarski.C67_returns_partial",
    "Tarski.C67_or_refuted",
    "Tarski.C67_clash_refuted",
    "Tarski.C67_nested_refuted",
    "Tarski.C67_refuted"
   ],
   "note": "exact for conjunctions of flat literals without name clashes; refuted otherwise"
  },
  {
   "property": "C68",
   "status": "partial",
   "theorems": [
    "Tarski.C68_exact",
    "Tarski.C68_returns",
    "Tarski.C68_raises",
    "Tarski.C68_changes_partial",
    "Tarski.C68_universal_refuted",
    "Tarski.C68_static_refuted",
    "Tarski.C68_variate_refuted"
   ],
   "note": "classification exact and terminating for all problems; changes of universal effects are missed (refuted), static terms can change (refuted: variables with other names; variates)"
  },
  {
   "property": "C69",
   "status": "partial",
   "theorems": [
    "Tarski.C69_returns",
    "Tarski.C69_raises",
    "Tarski.C69_positions",
    "Tarski.C69_index_partial",
    "Tarski.C69_refuted",
    "Tarski.C69_ground_partial",
    "Tarski.C69_ground_refuted",
    "Tarski.C69_complete_partial"
   ],
   "note": "exact for terms without repeated variables; refuted for p(x,x)"
  },
  {
   "property": "C70",
   "status": "proved",
   "theorems": [
    "Tarski.C70_instances",
    "Tarski.C70_transitions",
    "Tarski.C70_once",
    "Tarski.C70_returns"
   ],
   "note": "plain schemas: distinct variables, no quantifier re-binding a variable (C13)"
  },
  {
   "property": "C71",
   "status": "partial",
   "theorems": [
    "Tarski.C71_variables",
    "Tarski.C71_instances",
    "Tarski.C71_meaning",
    "Tarski.C71_order_partial",
    "Tarski.C71_names_refuted",
    "Tarski.C71_refuted",
    "Tarski.C71_domain_refuted",
    "Tarski.C71_start_end"
   ],
   "note": "instances exact, content independent of the iteration order; names and arguments depend on it (refuted), and only the first domain given for a variable counts (refuted)"
  },
  {
   "property": "C72",
   "status": "partial",
   "theorems": [
    "Tarski.C72_faithful",
    "Tarski.C72_returns",
    "Tarski.C72_unique_partial",
    "Tarski.C72_unique_refuted",
    "Tarski.C72_metric_refuted",
    "Tarski.C72_format_refuted",
    "Tarski.C72_initial_refuted"
   ],
   "note": "the text describes the task and can be read back uniquely (names without line breaks); it is not in format 4 (refuted), ignores unit_costs (refuted) and does not check the initial state (refuted)"
  },
  {
   "property": "C73",
   "status": "partial",
   "theorems": [
    "Tarski.C73_symbols",
    "Tarski.C73_operator",
    "Tarski.C73_function",
    "Tarski.C73_unary_raises",
    "Tarski.C73_unary_refuted"
   ],
   "note": "the statement about dispatch_unary_operator is false of the code (refuted); matrices and Python literals as operands are not modelled here"
  },
  {
   "property": "C74",
   "status": "partial",
   "theorems": [
    "Tarski.C74_language_iff",
    "Tarski.C74_language_contents",
    "Tarski.C74_order",
    "Tarski.C74_language_returns",
    "Tarski.C74_fstrips_default",
    "Tarski.C74_load_iff",
    "Tarski.C74_returns",
    "Tarski.C74_duplicate",
    "Tarski.C74_names",
    "Tarski.C74_unknown",
    "Tarski.C74_conservative",
    "Tarski.C74_domains",
    "Tarski.C74_atomic_refuted"
   ],
   "note": "atomicity of a failing load is false of the code (refuted); everything else is proved for all histories"
  },
  {
   "property": "C75",
   "status": "proved",
   "theorems": [
    "Tarski.C75_tuples",
    "Tarski.C75_rejects",
    "Tarski.C75_equivalent"
   ],
   "note": ""
  },
  {
   "property": "C76",
   "status": "proved",
   "theorems": [
    "Tarski.C76_pattern",
    "Tarski.C76_clear",
    "Tarski.C76_complete"
   ],
   "note": ""
  },
  {
   "property": "C77",
   "status": "proved",
   "theorems": [
    "Tarski.C77_init",
    "Tarski.C77_step",
    "Tarski.C77_reachable",
    "Tarski.C77_goal",
    "Tarski.C77_solvable"
   ],
   "note": ""
  },
  {
   "property": "C78",
   "status": "partial",
   "theorems": [
    "Tarski.C78_init",
    "Tarski.C78_length",
    "Tarski.C78_arguments",
    "Tarski.C78_given_refuted",
    "Tarski.C78_move",
    "Tarski.C78_never_cleared",
    "Tarski.C78_covered_stays",
    "Tarski.C78_solvable_refuted"
   ],
   "note": "the claims about rejecting invalid configurations and about execution with the library's progress are false of the code (refuted); everything else is proved"
  },
  {
   "property": "C79",
   "status": "partial",
   "theorems": [
    "Tarski.C79_init",
    "Tarski.C79_goal",
    "Tarski.C79_step",
    "Tarski.C79_solvable",
    "Tarski.C79_arith_assign",
    "Tarski.C79_stuck",
    "Tarski.C79_solvable_refuted"
   ],
   "note": "the claim about execution with the library's progress is false of the code (refuted); everything else is proved"
  },
  {
   "property": "C80",
   "status": "partial",
   "theorems": [
    "Tarski.C80_accepts",
    "Tarski.C80_types",
    "Tarski.C80_hierarchy",
    "Tarski.C80_parent",
    "Tarski.C80_parent_top",
    "Tarski.C80_objects_accepts",
    "Tarski.C80_objects_domains",
    "Tarski.C80_wrong_exception",
    "Tarski.C80_single_refuted",
    "Tarski.C80_order_refuted",
    "Tarski.C80_hang",
    "Tarski.C80_object_refuted"
   ],
   "note": "Acceptance, hierarchy, parents and domains proved for all sections; rejection of multiple inheritance, independence of the order, termination and the type `object` are refuted (bugs in the code: `lineno()` called on an int, `added_supertype` test, `Object` versus `object`). The grammar rules that build the list of entries (either-types, bare keyword names) are not modelled."
  },
  {
   "property": "C81",
   "status": "partial",
   "theorems": [
    "Tarski.C81_instances",
    "Tarski.C81_constraints_partial",
    "Tarski.C81_count",
    "Tarski.C81_refuted",
    "Tarski.C81_nested_exists_raises",
    "Tarski.C81_flat_loses",
    "Tarski.C81_duplicate_raises"
   ],
   "note": "Full statement C81_full refuted (a constraint with an existential quantifier at the root is instantiated as if universal); proved for universal constraints with binary connectives; the counter and uniqueness for all constraints."
  },
  {
   "property": "C82",
   "status": "proved",
   "theorems": [
    "Tarski.C82_summation",
    "Tarski.C82_product",
    "Tarski.C82_evaluate",
    "Tarski.C82_returns_iff",
    "Tarski.C82_empty",
    "Tarski.C82_no_variables",
    "Tarski.C82_arguments"
   ],
   "note": "Variables that are quantified inside the expression are excluded by hypothesis (substitution replaces binders, see C08)."
  },
  {
   "property": "C83",
   "status": "partial",
   "theorems": [
    "Tarski.C83_as_atoms",
    "Tarski.C83_rebuild",
    "Tarski.C83_text",
    "Tarski.C83_extensions",
    "Tarski.C83_equal_of_same",
    "Tarski.C83_equal_partial",
    "Tarski.C83_equal_refuted",
    "Tarski.C83_total_cost"
   ],
   "note": "equality of models is exact for legible names that print differently and refuted in general"
  },
  {
   "property": "C84",
   "status": "partial",
   "theorems": [
    "Tarski.C84_key",
    "Tarski.C84_search",
    "Tarski.C84_finite_partial",
    "Tarski.C84_refuted"
   ],
   "note": "without the hypothesis that atoms print differently the claim is refuted by a concrete problem"
  },
  {
   "property": "C85",
   "status": "partial",
   "theorems": [
    "Tarski.C85_lookup",
    "Tarski.C85_listed",
    "Tarski.C85_failed",
    "Tarski.C85_refused",
    "Tarski.C85_ode_partial",
    "Tarski.C85_ode_refuted",
    "Tarski.C85_ode_name_refuted",
    "Tarski.C85_builtin_variate_refuted"
   ],
   "note": "Full for actions, derived predicates, reactions and sensing actions. For differential constraints the claim is false of the code (hybrid/problem.py:33 consults the table of reactions): refuted, and the exact behaviour proved."
  },
  {
   "property": "C86",
   "status": "proved",
   "theorems": [
    "Tarski.C86_reactions",
    "Tarski.C86_sensors",
    "Tarski.C86_odes",
    "Tarski.C86_raises",
    "Tarski.C86_count",
    "Tarski.C86_schemas"
   ],
   "note": "Literal and black-box effects of reactions have no meaning in the model's semantics of effects."
  },
  {
   "property": "C87",
   "status": "partial",
   "theorems": [
    "Tarski.C87_unit",
    "Tarski.C87_zero",
    "Tarski.C87_constant",
    "Tarski.C87_shape",
    "Tarski.C87_both_refuted"
   ],
   "note": "Everything but the last sentence is proved; an action without a cost is both (refuted). Float costs are not modelled."
  },
  {
   "property": "C88",
   "status": "partial",
   "theorems": [
    "Tarski.C88_vars",
    "Tarski.C88_pairs",
    "Tarski.C88_reads_partial",
    "Tarski.C88_succeeds",
    "Tarski.C88_integer_refuted",
    "Tarski.C88_subsort_refuted",
    "Tarski.C88_objects_refuted"
   ],
   "note": "The code violates the full statement for integer variables, subsorts and integer objects."
  },
  {
   "property": "C89",
   "status": "partial",
   "theorems": [
    "Tarski.C89_accepts",
    "Tarski.C89_lock",
    "Tarski.C89_level",
    "Tarski.C89_keeps",
    "Tarski.C89_max_time_partial",
    "Tarski.C89_max_time_immediate",
    "Tarski.C89_effect_time",
    "Tarski.C89_max_time_refuted",
    "Tarski.C89_effect_time_refuted"
   ],
   "note": "The code violates the statement on end times when requests start late, and on effects that happen twice."
  },
  {
   "property": "C90",
   "status": "partial",
   "theorems": [
    "Tarski.C90_meaning_partial",
    "Tarski.C90_reads",
    "Tarski.C90_subtype_refuted",
    "Tarski.C90_two_variables_refuted",
    "Tarski.C90_reads_refuted"
   ],
   "note": "The code violates the full statement for variables declared with a strict subtype, aggregations over several variables, and legal expressions that raise. Not modelled: pyrddl's parser; terms as conditions of if-then-else."
  },
  {
   "property": "C91",
   "status": "partial",
   "theorems": [
    "Tarski.C91_read_back_partial",
    "Tarski.C91_injective",
    "Tarski.C91_fluent",
    "Tarski.C91_none_temporal",
    "Tarski.C91_negation_refuted",
    "Tarski.C91_nary_refuted",
    "Tarski.C91_three_refuted",
    "Tarski.C91_binder_refuted",
    "Tarski.C91_open_refuted",
    "Tarski.C91_power_refuted",
    "Tarski.C91_unary_refuted"
   ],
   "note": "The code violates the full statement for negations, more than two operands, bound variables named with ?, open-ended first operands, powers, remainders and unary minus. Escapes in the text of Python lists and str of compound terms are not modelled."
  },
  {
   "property": "C92",
   "status": "partial",
   "theorems": [
    "Tarski.C92_meaning",
    "Tarski.C92_scope",
    "Tarski.C92_accepts_partial",
    "Tarski.C92_shadow_refuted",
    "Tarski.C92_minus_refuted",
    "Tarski.C92_object_refuted",
    "Tarski.C92_constant_refuted"
   ],
   "note": "Meaning and scope proved for everything that is accepted; acceptance is partial because the reader rejects redeclared variables, the explicit type object and unary minus (refuted with witnesses). The LALR automaton is not modelled: derivation trees are the input."
  },
  {
   "property": "C93",
   "status": "partial",
   "theorems": [
    "Tarski.C93_action_partial",
    "Tarski.C93_accepts_partial",
    "Tarski.C93_conditional_refuted",
    "Tarski.C93_scale_down_refuted",
    "Tarski.C93_equality_refuted",
    "Tarski.C93_illtyped_refuted"
   ],
   "note": "Proved for everything that is accepted except scale-down and equalities as effects, where the code is wrong (refuted with witnesses); conditional and quantified effects are never accepted."
  },
  {
   "property": "C94",
   "status": "partial",
   "theorems": [
    "Tarski.C94_durative_partial",
    "Tarski.C94_accepts_partial",
    "Tarski.C94_conjunction_refuted",
    "Tarski.C94_empty_refuted",
    "Tarski.C94_nested_refuted",
    "Tarski.C94_unbounded_refuted"
   ],
   "note": "Proved for everything that is accepted (same exceptions as C93); acceptance only for flat conditions and effects, the code rejects the others (refuted)."
  },
  {
   "property": "C95",
   "status": "partial",
   "theorems": [
    "Tarski.C95_derived",
    "Tarski.C95_derived_accepts_partial",
    "Tarski.C95_init_partial",
    "Tarski.C95_metric_partial",
    "Tarski.C95_sequence",
    "Tarski.C95_sequence_accepts",
    "Tarski.C95_arity_refuted",
    "Tarski.C95_head_refuted",
    "Tarski.C95_negation_refuted",
    "Tarski.C95_symbol_refuted",
    "Tarski.C95_metric_refuted"
   ],
   "note": "Independence of the definitions, derived predicates and positive initial states proved; the rest of the statement is violated by the code (refuted with witnesses)."
  },
  {
   "property": "C96",
   "status": "partial",
   "theorems": [
    "Tarski.C96_reads",
    "Tarski.C96_sound",
    "Tarski.C96_line_after",
    "Tarski.C96_words_distinct",
    "Tarski.C96_no_dt",
    "Tarski.C96_var_case",
    "Tarski.C96_case_partial",
    "Tarski.C96_case_refuted",
    "Tarski.C96_file_lines_partial",
    "Tarski.C96_file_lines_refuted"
   ],
   "note": "Proved for all texts and layouts. Partial: case-insensitivity fails for reserved words and variables, and lines of the second file are shifted (refuted); real numbers are kept as text."
  },
  {
   "property": "C97",
   "status": "partial",
   "theorems": [
    "Tarski.C97_requirements",
    "Tarski.C97_required",
    "Tarski.C97_accepts",
    "Tarski.C97_symbols",
    "Tarski.C97_types",
    "Tarski.C97_subtypes",
    "Tarski.C97_objects",
    "Tarski.C97_objects_partial",
    "Tarski.C97_objects_refuted",
    "Tarski.C97_order_partial",
    "Tarski.C97_order_refuted",
    "Tarski.C97_object_word",
    "Tarski.C97_names",
    "Tarski.C97_standard",
    "Tarski.C97_domain",
    "Tarski.C97_predicates",
    "Tarski.C97_domain_ref"
   ],
   "note": "Acceptance, symbols, subtypes and whole domains in full; membership of objects in late supertypes and independence of the order of sections are violated by the code."
  },
  {
   "property": "C98",
   "status": "partial",
   "theorems": [
    "Tarski.C98_terms",
    "Tarski.C98_accepts",
    "Tarski.C98_symbols",
    "Tarski.C98_objects",
    "Tarski.C98_subtypes",
    "Tarski.C98_init_accepts",
    "Tarski.C98_init_true",
    "Tarski.C98_init_value",
    "Tarski.C98_model",
    "Tarski.C98_overload_refuted",
    "Tarski.C98_last_partial",
    "Tarski.C98_last_refuted",
    "Tarski.C98_default_partial",
    "Tarski.C98_default_refuted"
   ],
   "note": "acceptance, language, objects, state and parameters in full for entries whose arguments are names; the code rejects variables that differ only in arity, ignores default values, and `p = true; p = false;` leaves p true (refuted, with partial versions)"
  },
  {
   "property": "C99",
   "status": "partial",
   "theorems": [
    "Tarski.C99_read_back_partial",
    "Tarski.C99_round_trip_partial",
    "Tarski.C99_written_refuted",
    "Tarski.C99_max_refuted",
    "Tarski.C99_twice_refuted",
    "Tarski.C99_invariant_refuted",
    "Tarski.C99_subsort_refuted",
    "Tarski.C99_interval_refuted",
    "Tarski.C99_text_refuted"
   ],
   "note": "whole files read back for tasks with legal names whose parameters have been given max_nondef_actions; each other defect is a theorem about the code"
  }
 ]
}
{"id": "C01", "title": "Negation normal form preserves meaning", "statement": "to_negation_normal_form(phi) returns a formula that is true in exactly the same interpretations, under exactly the same variable assignments, as phi.", "quantifier": "every formula (any nesting, any arity of and/or, quantifiers, if-then-else terms), every first-order interpretation, every assignment", "why_tests_cant": "infinitely many formulas and interpretations (also infinite ones); a test only compares a few outputs with expected syntax", "anchors": ["src/tarski/syntax/transform/nnf.py: NNFTransformation._convert, to_negation_normal_form, negate_connective", "src/tarski/syntax/formulas.py: negate_quantifier, neg"]}
{"id": "C02", "title": "Negation normal form has the right shape and is stable", "statement": "In the output of to_negation_normal_form every negation is applied directly to an atom; the and/or/quantifier skeleton has the same size; applying the transformation again returns the same formula.", "quantifier": "every formula", "why_tests_cant": "shape must hold at every node of every possible formula", "anchors": ["src/tarski/syntax/transform/nnf.py: NNFTransformation._convert"]}
{"id": "C03", "title": "CNF transformation preserves meaning", "statement": "For a quantifier-free phi, to_conjunctive_normal_form(lang, phi) is equivalent to phi in every interpretation; on a formula where a quantifier is met it raises TransformationError and never returns a formula.", "quantifier": "every formula, every interpretation, every assignment", "why_tests_cant": "unbounded nesting and arity of connectives; distribution blows up so tests stay tiny", "anchors": ["src/tarski/syntax/transform/cnf.py: CNFTransformation._convert, distribute"]}
{"id": "C04", "title": "CNF output is a conjunction of disjunctions of literals", "statement": "For quantifier-free phi the result of to_conjunctive_normal_form is built from literals by disjunctions first and then conjunctions only: no conjunction occurs below a disjunction and negations apply to atoms only.", "quantifier": "every quantifier-free formula", "why_tests_cant": "must hold for all shapes of nested and/or", "anchors": ["src/tarski/syntax/transform/cnf.py: CNFTransformation._convert, distribute"]}
{"id": "C05", "title": "CNF clause list denotes the formula", "statement": "to_conjunctive_normal_form_clauses(lang, phi) returns a list of literal lists whose conjunction-of-disjunctions is equivalent to phi.", "quantifier": "every quantifier-free formula, every interpretation", "why_tests_cant": "needs all formulas, including single-clause and deeply nested ones", "anchors": ["src/tarski/syntax/transform/cnf.py: CNFTransformation.collect_clauses, convert_to_clause_list"]}
{"id": "C06", "title": "Absorbing negated builtins preserves meaning", "statement": "NegatedBuiltinAbsorption.rewrite(lang, phi).formula is equivalent to phi in every interpretation in which the builtin comparison symbols denote the equality and a linear order.", "quantifier": "every formula, every interpretation with ordered domain", "why_tests_cant": "and/or may have any arity; only binary ones are exercised in tests", "anchors": ["src/tarski/syntax/transform/neg_builtin.py: NegatedBuiltinAbsorption._convert", "src/tarski/syntax/builtins.py: negate_builtin_atom"]}
{"id": "C07", "title": "Builtin complement is the logical complement", "statement": "complement() maps every builtin comparison to one that holds on a pair of values exactly when the original does not, is an involution, and negate_builtin_atom(a) is equivalent to (not a), leaving non-builtin atoms unchanged.", "quantifier": "every builtin predicate symbol, every pair of values of any linearly ordered domain, every atom", "why_tests_cant": "all values of an arbitrary linear order", "anchors": ["src/tarski/syntax/builtins.py: symbol_complements, BuiltinPredicateSymbol.complement, negate_builtin_atom"]}
{"id": "C08", "title": "Prenex transformation preserves meaning", "statement": "to_prenex_negation_normal_form(lang, phi) is equivalent to phi in every interpretation with non-empty sorts.", "quantifier": "every formula, every interpretation, every assignment", "why_tests_cant": "quantifier alternation and name clashes range over infinitely many formulas", "anchors": ["src/tarski/syntax/transform/prenex.py: PrenexTransformation.*, _merge_mixed_subformulas"]}
{"id": "C09", "title": "Quantifier elimination preserves meaning", "statement": "remove_quantifiers(lang, phi, mode) is equivalent to phi in every interpretation where each quantified sort consists exactly of the denotations of the sort's constants.", "quantifier": "every formula, every finite language, every mode, every interpretation", "why_tests_cant": "all formulas, all domain sizes, nested quantifiers", "anchors": ["src/tarski/syntax/transform/quantifier_elimination.py: QuantifierElimination._convert, _expand", "src/tarski/grounding/naive/instantiation.py: enumerate_groundings", "src/tarski/syntax/transform/substitutions.py"]}
{"id": "C10", "title": "Quantifier elimination removes exactly the requested quantifiers, or fails loudly", "statement": "If remove_quantifiers returns, mode All yields a quantifier-free formula, mode Forall/Exists yields one without universal/existential quantifiers; if some eliminated quantifier ranges over an empty or builtin sort it raises instead of returning.", "quantifier": "every formula, every assignment of domains to sorts, every mode", "why_tests_cant": "all nestings; error branches depend on data", "anchors": ["src/tarski/syntax/transform/quantifier_elimination.py", "src/tarski/grounding/naive/instantiation.py: enumerate_groundings"]}
{"id": "C11", "title": "land / lor / neg / implies / equiv build the connective they name", "statement": "land(*args) is true iff all args are, lor(*args) iff some arg is, for any number of arguments (0 and 1 included) and for flat and binary-tree layout alike; implies and equiv denote material implication and bi-implication.", "quantifier": "every argument list of formulas, both values of `flat`, every interpretation", "why_tests_cant": "any arity", "anchors": ["src/tarski/syntax/formulas.py: land, lor, neg, implies, equiv, _to_binary_tree, _create_compound"]}
{"id": "C12", "title": "flatten preserves meaning and flattens", "statement": "flatten(phi) is equivalent to phi, has no direct subformula with the same and/or connective as its root, and flatten(flatten(phi)) equals flatten(phi).", "quantifier": "every formula, every interpretation", "why_tests_cant": "unbounded nesting", "anchors": ["src/tarski/syntax/ops.py: flatten, _flatten"]}
{"id": "C13", "title": "Substituting constants for variables is re-assignment", "statement": "substitute_expression(phi, {x_i: c_i}) is true under an assignment iff phi is true under the assignment that maps each x_i to the value of c_i.", "quantifier": "every formula, every substitution of variables by constants, every interpretation", "why_tests_cant": "capture and shadowing depend on arbitrary nesting of quantifiers", "anchors": ["src/tarski/syntax/transform/substitutions.py: substitute_expression, ExpressionSubstitutionWalker, create_substitution", "src/tarski/syntax/walker.py: FOLWalker.visit_expression"]}
{"id": "C14", "title": "Substitution leaves the original untouched and instantiates completely", "statement": "After substituting constants for a set of variables, none of these variables occurs in the result; substituting with an empty substitution, or by variables that do not occur, returns a formula that is syntactically equal (==) to the input.", "quantifier": "every formula, every substitution", "why_tests_cant": "all nestings, all node kinds", "anchors": ["src/tarski/syntax/transform/substitutions.py", "src/tarski/syntax/walker.py: FOLWalker.accept", "src/tarski/syntax/formulas.py: CompoundFormula.__eq__"]}
{"id": "C15", "title": "free_variables returns exactly the free variables", "statement": "free_variables(phi) returns each variable that occurs free in phi exactly once, and nothing else, and never fails.", "quantifier": "every formula", "why_tests_cant": "re-quantification and shadowing patterns are unbounded", "anchors": ["src/tarski/syntax/ops.py: free_variables", "src/tarski/syntax/visitors.py: CollectFreeVariables"]}
{"id": "C16", "title": "Syntactic equality is an equivalence consistent with hashing", "statement": "Equality of formulas and symref equality of terms are reflexive, symmetric, transitive, and equal expressions have equal hashes, so that expressions can be used as dictionary keys.", "quantifier": "all terms and formulas", "why_tests_cant": "all pairs/triples of expressions", "anchors": ["src/tarski/syntax/formulas.py: __eq__/__hash__", "src/tarski/syntax/terms.py: is_syntactically_equal/hash", "src/tarski/syntax/symrefs.py: TermReference", "src/tarski/syntax/util.py"]}
{"id": "C17", "title": "The evaluator computes Tarskian truth", "statement": "For a ground formula and a model that defines every function point the evaluation needs, evaluate(phi, model) returns True iff phi is true in the interpretation described by the model; quantified formulas are rejected, never given a wrong truth value.", "quantifier": "every ground formula, every model", "why_tests_cant": "all formulas and models", "anchors": ["src/tarski/evaluators/simple.py: evaluate, evaluate_atom, evaluate_term", "src/tarski/model.py: Model.holds, Model.value"]}
{"id": "C18", "title": "A model behaves as a set of atoms plus a finite map", "statement": "After any sequence of set/add/remove/discard calls, holds(p, args) is true iff the last add/remove/discard on that ground atom was an add, and value(f, args) is the last value set; no call affects another ground atom or point; remove of an absent atom raises and changes nothing.", "quantifier": "every finite history of operations", "why_tests_cant": "unbounded histories", "anchors": ["src/tarski/model.py: Model.set, add, remove, discard, value, holds, as_atoms"]}
{"id": "C19", "title": "Names in a language are unique across symbol kinds", "statement": "In any language reached by declarations, each name is bound to at most one sort/predicate/function/constant, a second declaration of a name raises a duplicate-definition error and changes nothing, and get(name) returns the object that was declared.", "quantifier": "every sequence of declarations", "why_tests_cant": "unbounded histories, mixed kinds", "anchors": ["src/tarski/fol.py: FirstOrderLanguage.sort, attach_sort, constant, predicate, function, get, _check_name_not_defined"]}
{"id": "C20", "title": "Subtyping is the reflexive-transitive closure of the parent relation", "statement": "is_subtype(t, s) holds iff s is reachable from t by following parent links zero or more times; it is reflexive and transitive, and antisymmetric as hierarchies built through sort() are trees.", "quantifier": "every hierarchy built by any sequence of sort() / set_parent() calls", "why_tests_cant": "arbitrary hierarchies and orders of declaration", "anchors": ["src/tarski/fol.py: set_parent, is_subtype, is_strict_subtype, connected_in_type_hierarchy", "src/tarski/syntax/sorts.py: inclusion_closure, parent, ancestors"]}
{"id": "C21", "title": "A constant belongs to its sort and to every supersort", "statement": "After creating a constant of sort s, the constant is in the domain of s and of every sort s is a subtype of, and in no other sort's domain because of this call.", "quantifier": "every hierarchy, every sequence of constant declarations", "why_tests_cant": "arbitrary depth and order", "anchors": ["src/tarski/syntax/sorts.py: Sort.extend, inclusion_closure", "src/tarski/syntax/terms.py: Constant.__init__", "src/tarski/fol.py: constant"]}
{"id": "C22", "title": "Sort id assignment is a bijection onto intervals", "statement": "compute_sort_id_assignment gives all objects pairwise distinct consecutive ids from `start`, and the ids of the objects of each (non-interval) sort are exactly the integers of its interval [lb, ub).", "quantifier": "every sort tree with every distribution of objects, every start", "why_tests_cant": "all trees", "anchors": ["src/tarski/syntax/ops.py: compute_sort_id_assignment, _compute_id_assignment", "src/tarski/syntax/sorts.py: compute_direct_sort_map"]}
{"id": "C23", "title": "SymbolIndex is a bijection between objects and consecutive ids", "statement": "After any sequence of add calls, get_index and get_object are mutually inverse, ids are 0..n-1 in order of insertion, a repeated add raises and changes nothing.", "quantifier": "every sequence of adds", "why_tests_cant": "unbounded histories", "anchors": ["src/tarski/util.py: SymbolIndex"]}
{"id": "C24", "title": "Successor states: adds win over deletes, everything else persists", "statement": "progress(state, action) for ground unconditional add/delete effects makes an atom true iff it is added, or it was true and is not deleted; atoms and function values not mentioned by any effect keep their value, and the input state is not modified.", "quantifier": "every state, every effect list in any order", "why_tests_cant": "all orders and overlaps of effects", "anchors": ["src/tarski/search/operations.py: progress, apply_effect, is_applicable"]}
{"id": "C25", "title": "Effects are simultaneous: conditions and right-hand sides are read in the state where the action is applied", "statement": "The state returned by progress depends only on the set of effects and on the values in the original state, not on the order in which effects are listed (for non-conflicting effects).", "quantifier": "every state, every list of conditional / functional effects and every permutation of it", "why_tests_cant": "all permutations of all effect lists", "anchors": ["src/tarski/search/operations.py: progress, apply_effect"]}
{"id": "C26", "title": "Static symbols never change", "statement": "Symbols classified as static (not fluent) by approximate_symbol_fluency have in every state reachable by any sequence of actions the same denotation as in the initial state.", "quantifier": "every problem, every reachable state, every plan", "why_tests_cant": "all plans of any length", "anchors": ["src/tarski/grounding/ops.py: approximate_symbol_fluency", "src/tarski/fstrips/ops.py: collect_affected_symbols", "src/tarski/search/operations.py: progress"]}
{"id": "C27", "title": "Breadth-first search visits exactly the reachable states", "statement": "With no expansion limit and a finite reachable space, BreadthFirstSearch terminates having expanded every reachable state exactly once, and only those; with limit k it expands at most k states; a goal is reported iff a reachable goal state exists.", "quantifier": "every search model (initial state, successor function, goal), every limit", "why_tests_cant": "all graphs", "anchors": ["src/tarski/search/blind.py: BreadthFirstSearch.search", "src/tarski/search/model.py: GroundForwardSearchModel"]}
{"id": "C28", "title": "Delete relaxation is a relaxation", "statement": "Every plan of the problem is a plan of its delete-free relaxation when preconditions, effect conditions and the goal are positive, and along it the relaxed states contain the original ones.", "quantifier": "every problem, every plan", "why_tests_cant": "all plans of any length", "anchors": ["src/tarski/fstrips/representation.py: compute_delete_free_relaxation, remove_delete_effects, is_delete_free"]}
{"id": "C29", "title": "Compiling universal effects away preserves successors", "statement": "An action in which universal effects were expanded has the same successor as the original in every state; the expansion contains no universal effect.", "quantifier": "every action, every domain of the quantified variables, every state", "why_tests_cant": "all domains and nestings", "anchors": ["src/tarski/fstrips/representation.py: expand_universal_effect, compile_universal_effects_away, transform_to_single_effects, substitute_expression"]}
{"id": "C30", "title": "Compiling negated preconditions away yields an equivalent problem", "statement": "After compile_negated_preconditions_away, action sequences are applicable in the compiled problem iff in the original, and the states agree on the original symbols while each complementary atom is true iff the original atom is false.", "quantifier": "every problem, every action sequence", "why_tests_cant": "all plans", "anchors": ["src/tarski/fstrips/representation.py: compile_negated_preconditions_away, compile_action_negated_preconditions_away, compile_away_formula_negated_literals"]}
{"id": "C31", "title": "Static simplification preserves truth", "statement": "Simplify.simplify_expression(phi) is true in a state iff phi is, for all states agreeing with the initial state on static symbols.", "quantifier": "every formula, every such state", "why_tests_cant": "all formulas and states", "anchors": ["src/tarski/fstrips/manipulation/simplify.py: Simplify.simplify_expression"]}
{"id": "C32", "title": "Existential simplification preserves meaning", "statement": "simplify_existential_quantification(exists X. phi) is equivalent to its input.", "quantifier": "every existentially quantified formula, every interpretation", "why_tests_cant": "shape of the body, occurrence patterns of variables", "anchors": ["src/tarski/fstrips/manipulation/simplify.py: simplify_existential_quantification"]}
{"id": "C33", "title": "STRIPS effect conflicts are detected exactly", "statement": "compute_effect_set_conflicts reports an atom iff both an add and a delete of it occur in the effect list; is_strips_effect_set accepts exactly conflict-free lists of unconditional add/del effects on ground-compatible atoms.", "quantifier": "every effect list", "why_tests_cant": "all lists and orders", "anchors": ["src/tarski/fstrips/representation.py: compute_effect_set_conflicts, is_strips_effect_set"]}
{"id": "C34", "title": "transitive_closure computes the transitive closure", "statement": "transitive_closure(R) terminates and relates a to b iff there is a non-empty R-path from a to b.", "quantifier": "every finite relation", "why_tests_cant": "all finite relations", "anchors": ["src/tarski/utils/algorithms.py: transitive_closure", "src/tarski/dl/concepts.py: StarRole"]}
{"id": "C35", "title": "compute_min_distance returns shortest-path lengths", "statement": "compute_min_distance(c1, r, c2) is the length of a shortest r-path from an element of c1 to an element of c2, and sys.maxsize iff none exists.", "quantifier": "every finite relation and sets", "why_tests_cant": "all graphs", "anchors": ["src/tarski/utils/algorithms.py: compute_min_distance", "src/tarski/dl/features.py: MinDistanceFeature"]}
{"id": "C36", "title": "Description-logic denotations follow the standard semantics", "statement": "denotation() of not/and/or/exists/forall/equal concepts and inverse/star/composition/restrict roles returns the set prescribed by standard description-logic semantics on the state's universe.", "quantifier": "every concept/role expression, every finite universe, every state", "why_tests_cant": "all expressions and relations", "anchors": ["src/tarski/dl/concepts.py"]}
{"id": "C37", "title": "Feature differences are consistent with feature values", "statement": "diff of two feature values is UNCHANGED iff the values are equal, and swaps ADD/DEL and INCREASED/DECREASED when the arguments are swapped.", "quantifier": "all pairs of values", "why_tests_cant": "all values, infinity included", "anchors": ["src/tarski/dl/features.py"]}
{"id": "C38", "title": "Acyclicity test agrees with GYO / existence of a join tree", "statement": "check_hypergraph_acyclicity(H) returns True iff H is alpha-acyclic.", "quantifier": "every finite hypergraph", "why_tests_cant": "all hypergraphs and all elimination orders", "anchors": ["src/tarski/analysis/csp.py: check_hypergraph_acyclicity, _remove_ear_if_exists"]}
{"id": "C39", "title": "ASP symbol translation is injective and reversible", "statement": "For any sequence of normalize calls, distinct symbols are mapped to distinct ASP names and back(normalize(s)) = s, or a clash is reported.", "quantifier": "every sequence of symbols", "why_tests_cant": "all strings and call orders", "anchors": ["src/tarski/reachability/asp.py: Translator.normalize, back"]}
{"id": "C40", "title": "Naive grounding enumerates exactly the well-typed tuples", "statement": "The instantiations enumerated for a list of parameters/arguments are exactly the tuples of objects of the declared sorts, each once; their number is the product of domain sizes.", "quantifier": "every arity, every distribution of objects to sorts", "why_tests_cant": "all sizes", "anchors": ["src/tarski/grounding/naive_grounding.py", "src/tarski/grounding/naive/instantiation.py", "src/tarski/syntax/transform/substitutions.py: enumerate_substitutions"]}
{"id": "C41", "title": "Symbolic arithmetic simplification preserves value", "statement": "simplify(expr) has the same value as expr for all values of its non-constant subterms.", "quantifier": "every arithmetic expression, every valuation", "why_tests_cant": "all expressions", "anchors": ["src/tarski/syntax/arithmetic/__init__.py: simplify"]}
{"id": "C42", "title": "VariableBinding is a consistent ordered map", "statement": "After any sequence of successful adds starting from a duplicate-free binding, get(name) returns the variable added under that name, index(name) its position and binding[index(name)] that variable; duplicates are rejected without change.", "quantifier": "every history", "why_tests_cant": "unbounded histories", "anchors": ["src/tarski/syntax/formulas.py: VariableBinding"]}
{"id": "C43", "title": "Prenex output is in prenex form", "statement": "When to_prenex_negation_normal_form returns a formula, it is a prefix of quantifiers followed by a quantifier-free matrix.", "quantifier": "every formula", "why_tests_cant": "unbounded nesting of quantifiers and connectives", "anchors": ["src/tarski/syntax/transform/prenex.py: PrenexTransformation"]}
{"id": "C44", "title": "Declarations and subtype queries always return", "statement": "Every call that declares a sort, interval, predicate, function or constant, sets a parent or asks is_subtype returns (normally or with an exception).", "quantifier": "every language reached by any history of such calls", "why_tests_cant": "non-termination over unbounded histories", "anchors": ["src/tarski/fol.py: set_parent, connected_in_type_hierarchy", "src/tarski/syntax/sorts.py: inclusion_closure, Sort.extend"]}
{"id": "C45", "title": "Interval sorts denote the integers between their bounds, within their parent", "statement": "interval() accepts exactly new names with a numeric parent and lb < ub; domain(), cardinality, contains and cast of an integer interval agree (domain lists each value in [lb, ub] once); and the values of an interval are values of its parent sort.", "quantifier": "every pair of bounds, every value, every language", "why_tests_cant": "all bounds and values", "anchors": ["src/tarski/syntax/sorts.py: Interval, build_the_naturals, build_the_integers", "src/tarski/fol.py: interval"]}
{"id": "C46", "title": "Only well-typed ground atoms over the language's constants enter a model", "statement": "After any history of add/remove/discard/set/removal of symbols, every tuple a model stores for a predicate or function consists of constants, matches the symbol's arity and each position's sort; a call that would break this raises and changes nothing.", "quantifier": "every history of model operations, every argument (constants, literals, variables, terms of other languages)", "why_tests_cant": "unbounded histories and argument kinds", "anchors": ["src/tarski/model.py: add, set, _check_assignment", "src/tarski/syntax/util.py"]}
{"id": "C47", "title": "The reachability logic program derives everything the problem can reach", "statement": "If create_reachability_lp returns, then every atom true in some reachable state is derived by the program, every ground action applicable in some reachable state is derived (when actions are grounded), and the goal is derived if some reachable state satisfies it; so an underivable goal means that the problem has no plan.", "quantifier": "every problem (types, constants, initial state, actions with conditional, quantified and universal effects, goal), every finite sequence of action applications, both compilers, with or without variable inequalities, every iteration order of sets", "why_tests_cant": "all problems and all reachable states; the program is a relaxation whose soundness is a fixpoint argument", "anchors": ["src/tarski/reachability/asp.py: create_reachability_lp, ReachabilityLPCompiler, VariableOnlyReachabilityLPCompiler, make_variable_name, negate_lp_atom", "src/tarski/grounding/lp_grounding.py: LPGroundingStrategy"]}
{"id": "C48", "title": "The reachability logic program derives nothing beyond the delete relaxation", "statement": "If create_reachability_lp returns, the atoms, ground actions and goal that its program derives are exactly those of the relaxed problem in which nothing is deleted and negations are ignored (negated comparisons are kept when variable inequalities are requested); in particular both compilers, and every iteration order of sets, give the same reachable atoms.", "quantifier": "every problem, both compilers, with or without variable inequalities, every iteration order of sets, every fixpoint stage", "why_tests_cant": "equality of two least fixpoints over all problems", "anchors": ["src/tarski/reachability/asp.py: create_reachability_lp, ReachabilityLPCompiler.process_formula, process_action, process_effect, gen_aux_atom"]}
{"id": "C49", "title": "The LP grounding strategy grounds completely and exactly", "statement": "When the solver answers correctly, a new LPGroundingStrategy returns in ground_actions, for every action, all instances applicable in some reachable state and exactly the instances applicable in the relaxed problem, with the original names of the objects; ground_state_variables indexes exactly the atoms of fluent symbols that the relaxed problem reaches, each once; ReachabilityLPUnsolvable is raised exactly when the relaxed problem does not reach the goal, and then the problem has no plan.", "quantifier": "every problem, every printed answer of the solver (order of lines, line ends), every set of names that the translator maps back", "why_tests_cant": "ranges over all problems and all solver outputs", "anchors": ["src/tarski/grounding/lp_grounding.py: LPGroundingStrategy.ground_actions, ground_state_variables, _solve_lp", "src/tarski/reachability/clingo_wrapper.py: _parse_model", "src/tarski/reachability/asp.py: Translator"]}
{"id": "C50", "title": "Calls on an LP grounding strategy are independent of the history", "statement": "After any history of calls on an LPGroundingStrategy, a call answers what it answers on a new strategy, and iterate_over_schema_groundings yields the groundings that ground_actions gives for the schema.", "quantifier": "every problem, every history of calls, including calls that raised", "why_tests_cant": "histories are unbounded", "anchors": ["src/tarski/grounding/lp_grounding.py: LPGroundingStrategy._solve_lp, ground_actions, ground_state_variables, iterate_over_schema_groundings"]}
{"id": "C51", "title": "Formulas survive the PDDL writer and reader", "statement": "For every goal or precondition, the FSTRIPS writer prints a text that the FSTRIPS reader accepts over the same language, and the formula it builds has the same truth value as the original one in every interpretation and for all values of the action's parameters.", "quantifier": "every language, every formula of it, every nesting of quantifiers, every name, every interpretation and assignment", "why_tests_cant": "ranges over all formulas, names and interpretations", "anchors": ["src/tarski/io/fstrips.py: print_formula, print_atom, print_term, print_variable_list", "src/tarski/io/_fstrips/reader.py: FStripsParser visitor, ParserVariableContext", "utils/parsers/grammars/fstrips.g4", "src/tarski/io/_fstrips/common.py: parse_number"]}
{"id": "C52", "title": "Actions survive the PDDL writer and reader", "statement": "For every action, the FSTRIPS writer prints a text that the FSTRIPS reader accepts over the same language, and the action it builds has the same name, parameters, precondition truth value, state changes and cost.", "quantifier": "every language and action, every nesting of universal and conditional effects, every interpretation and parameter values", "why_tests_cant": "ranges over all actions and interpretations", "anchors": ["src/tarski/io/fstrips.py: FstripsWriter.get_action, print_effects, print_effect, print_unconditional_effect", "src/tarski/io/_fstrips/reader.py: visitActionDef, visitSingleEffect, visitConjunctiveEffectFormula, visitAssignEffect, visitUniversallyQuantifiedEffect, visitSingleConditionalEffect", "src/tarski/io/_fstrips/common.py: process_cost_effects"]}
{"id": "C53", "title": "Initial states survive the PDDL writer and reader", "statement": "For every state built by any sequence of add/set/remove calls, the text the FSTRIPS writer prints for its initial state is accepted by the FSTRIPS reader over the same language, and in the state it builds exactly the same ground atoms hold and every ground function has the same value (or is undefined, if it was).", "quantifier": "every language, every history of updates of the state, every ground atom and ground term", "why_tests_cant": "ranges over all states reachable by arbitrary update histories and over all names and numbers", "anchors": ["src/tarski/io/fstrips.py: FstripsWriter.print_init, linebreaks, print_term_ref_list", "src/tarski/io/_fstrips/reader.py: visitInit, visitInit_element*, visitSymbolic_constant, visitNumeric_constant", "src/tarski/model.py: add, set, _check_assignment", "src/tarski/syntax/sorts.py: cast, to_constant"]}
{"id": "C54", "title": "Domain files survive the PDDL writer and reader", "statement": "For every problem, the text of the domain file that the FSTRIPS writer prints is accepted by the FSTRIPS reader over a language with the same theories, and the domain it builds has the same name, the same sorts with the same parents, the same predicates and functions with the same signatures, the domain constants, and the same actions (name, parameters, truth value of the precondition, state changes, cost), for whatever order the requirement flags are printed in.", "quantifier": "every problem, every choice of domain constants, every order of the requirement set, every interpretation", "why_tests_cant": "ranges over all problems, names, sort hierarchies and interpretations", "anchors": ["src/tarski/io/fstrips.py: FstripsWriter.print_domain, get_types, get_predicates, get_functions, get_constants, get_requirements", "src/tarski/io/_fstrips/reader.py: visitDomain, visitRequireDef, process_type_declaration, visitPredicate_definition, visitSingle_function_definition, visitActionDef", "src/tarski/io/_fstrips/common.py: tarski_to_pddl_type, uniformize_costs, get_requirements_string, create_sort"]}
{"id": "C55", "title": "Whole problems survive the PDDL writer and reader", "statement": "For every problem, the domain and instance files that the FSTRIPS writer prints are accepted by the FSTRIPS reader, and the problem it builds is the same: names, language (including the bounds of the intervals), initial state, goal truth value, actions, metric.", "quantifier": "every problem, every split of the constants over the two files, every history of the initial state, every interpretation", "why_tests_cant": "ranges over all problems, state histories and interpretations", "anchors": ["src/tarski/io/fstrips.py: FstripsWriter.write, print_domain, print_instance, get_objects, get_bounds, get_metric", "src/tarski/io/fstrips.py: FstripsReader.read_problem, parse_domain_string, parse_instance_string", "src/tarski/io/_fstrips/reader.py: visitProblem, visitTypeBoundsDefinition, visitObject_declaration, visitProblemMetric"]}
{"id": "C56", "title": "Projecting away effect-free parameters keeps the transitions", "statement": "For every action schema whose variables are all parameters, project_away_effect_free_variables returns an action of the same name whose parameters are those of the original that occur in an effect or in the cost, whose variables are all parameters, and which has in every state the same transitions (applicable instances, changes demanded, cost) as the original.", "quantifier": "every closed action schema, every interpretation, every order in which the set of variables is enumerated", "why_tests_cant": "ranges over all actions, states and set orders", "anchors": ["src/tarski/fstrips/representation.py: project_away_effect_free_variables, collect_effect_free_parameters, project_away_effect_free_variables_from_problem, _collect_effect_free_variables"]}
{"id": "C57", "title": "Queries about the nodes of an expression are exact", "statement": "all_variables returns exactly the variables that occur in the expression (free, bound or in the binder), once each; is_ground holds iff no variable occurs, is_function_free iff no function application occurs, is_quantifier_free iff no quantifier occurs, at any depth, including in the conditions of if-then-else terms.", "quantifier": "every term and formula", "why_tests_cant": "ranges over all expressions of any depth", "anchors": ["src/tarski/syntax/ops.py: all_variables, collect_unique_nodes, CollectUniqueNodes", "src/tarski/syntax/walker.py: FOLWalker.run, visit_expression", "src/tarski/fstrips/representation.py: is_ground, is_function_free, is_quantifier_free"]}
{"id": "C58", "title": "Queries leave the expression as it is", "statement": "Asking all_variables, is_ground, is_function_free or is_quantifier_free about an expression does not change it: afterwards it is equal to what it was before.", "quantifier": "every term and formula", "why_tests_cant": "ranges over all expressions and ways to build them", "anchors": ["src/tarski/syntax/walker.py: FOLWalker.visit_expression, expand", "src/tarski/syntax/ops.py: collect_unique_nodes", "src/tarski/fstrips/representation.py: is_ground, is_function_free, is_quantifier_free"]}
{"id": "C59", "title": "Literals of a conjunction are collected exactly", "statement": "collect_literals_from_conjunction returns None iff the formula is not a conjunction (nested to any depth) of literals; otherwise it returns exactly its literals, once each, and the formula is true exactly where they all are. classify_atom_occurrences_in_formula splits those into positive atoms, negative atoms and the functional terms below comparisons, and raises iff the formula is not such a conjunction.", "quantifier": "every formula, every interpretation", "why_tests_cant": "ranges over all formulas of any nesting and all interpretations", "anchors": ["src/tarski/fstrips/representation.py: collect_literals_from_conjunction, _collect_literals_from_conjunction, classify_atom_occurrences_in_formula"]}
{"id": "C60", "title": "STRIPS checks accept exactly the STRIPS formulas, operators and problems", "statement": "is_conjunction_of_literals, is_conjunction_of_positive_atoms, is_strips_operator and is_strips_problem return True iff the formula (the precondition, the goal) is a conjunction of literals (of atoms) and the effects are unconditional adds and deletes.", "quantifier": "every formula, operator and problem", "why_tests_cant": "ranges over all formulas of any nesting", "anchors": ["src/tarski/fstrips/representation.py: is_literal, is_conjunction_of_literals, is_conjunction_of_positive_atoms, is_strips_operator, is_strips_problem, is_strips_effect_set"]}
{"id": "C61", "title": "Functions identified as cost-related do not influence plans", "statement": "identify_cost_related_functions returns exactly the declared functions, other than builtin ones and total-cost, that occur nowhere in the goal, the preconditions and the effects; and changing their values changes neither which plans are executable, nor the goal, nor any other symbol along a plan.", "quantifier": "every language, goal, set of actions, pair of states and plan", "why_tests_cant": "ranges over all problems, states and plans", "anchors": ["src/tarski/fstrips/representation.py: identify_cost_related_functions, mark_cost_unrelated_functions_in_effect, collect_all_function_names", "src/tarski/syntax/util.py: get_symbols"]}
{"id": "C62", "title": "collect_all_symbols returns exactly the symbols a problem uses", "statement": "collect_all_symbols returns exactly the predicate and function symbols that occur in the goal, the preconditions and the effects of the actions; so states that agree on them have the same executable plans, the same goal value and successors that agree on them again.", "quantifier": "every goal, set of actions, pair of states and plan", "why_tests_cant": "ranges over all problems, states and plans", "anchors": ["src/tarski/fstrips/ops.py: collect_all_symbols, AllSymbolWalker", "src/tarski/fstrips/walker.py: ProblemWalker.run, visit_problem, visit_action, visit_effect, visit_expression"]}
{"id": "C63", "title": "The sort of a DL element bounds its denotation", "statement": "Every concept built by the DL factory only denotes objects of its sort, and every role only pairs of objects of its two sorts, in every state that respects the sorts of the primitive concepts and roles.", "quantifier": "every language, state that respects its sorts, concept and role of any size", "why_tests_cant": "ranges over all concepts, languages and states", "anchors": ["src/tarski/dl/concepts.py: sort of each Concept and Role class", "src/tarski/dl/factory.py: create_and_concept, create_or_concept, create_equal_concept"]}
{"id": "C64", "title": "Elements pruned by the DL factory are redundant", "statement": "When a create_* method of the DL factory returns None instead of the requested element, the element denotes the empty set in every state, or an element that is smaller (for roles: different and not larger) has the same denotation in every state; otherwise it returns the requested element.", "quantifier": "every language, arguments of any size and states that respect the sorts", "why_tests_cant": "ranges over all states for the equality of denotations", "anchors": ["src/tarski/dl/factory.py: create_exists_concept, create_not_concept, create_forall_concept, create_and_concept, create_or_concept, create_equal_concept, create_restrict_role, create_composition_role"]}
{"id": "C65", "title": "Grounding an action schema gives its instances", "statement": "The operator that grounding returns for some constants is applicable where the precondition of the schema holds with the constants as values of the parameters, and has the effects that the schema has for these values; it returns exactly when as many declared constants as parameters are given. If all objects have names, the transitions of the schema are those of its ground instances.", "quantifier": "every action schema, grounding, state and interpretation", "why_tests_cant": "ranges over all schemas with nested quantifiers and universal effects, and all states", "anchors": ["src/tarski/syntax/transform/action_grounding.py: ground_schema, ground_schema_into_plain_operator, ground_schema_into_plain_operator_from_grounding", "src/tarski/fstrips/representation.py: substitute_expression"]}
{"id": "C66", "title": "Different instances have different names", "statement": "Two ground operators obtained from actions of a problem have the same name only if they come from the same action and the same constants.", "quantifier": "every pair of actions and of groundings", "why_tests_cant": "ranges over all names and groundings", "anchors": ["src/tarski/syntax/transform/action_grounding.py: ground_schema, ground_schema_into_plain_operator, ground_schema_into_plain_operator_from_grounding", "src/tarski/fstrips/representation.py: substitute_expression"]}
{"id": "C67", "title": "The CSP of an action schema has its applicable instances as solutions", "statement": "In every state, the solutions of the constraint satisfaction problem compiled from an action schema, projected to the parameters, are exactly the bindings of the parameters to objects of their sorts for which the precondition holds.", "quantifier": "every schema, precondition, state and binding", "why_tests_cant": "ranges over all preconditions, states and bindings", "anchors": ["src/tarski/analysis/csp_schema.py: CSPCompiler.compile_schema_csp, compile_expression, variable"]}
{"id": "C68", "title": "Terms are classified as fluent or static exactly", "statement": "ProblemGrounding.process_symbols returns on every problem; its fluent terms are exactly the terms changed by effects, those under a next operator in a state constraint, and those that share a constraint with a fluent term (to a fixpoint, in every order of actions and constraints); its static terms are the other terms that are read. Every atom or function value that an action can change is an instance of a fluent term, and never of a static one.", "quantifier": "all problems (plain, hybrid, contingent), all iteration orders, all interpretations", "why_tests_cant": "The set is the result of a fixpoint loop over shared mutable sets; tests look at a handful of benchmark problems.", "anchors": ["src/tarski/grounding/naive_grounding.py: ProblemGrounding.process_symbols", "src/tarski/fstrips/visitors.py: FluentSymbolCollector", "src/tarski/fstrips/problem.py: Problem.get_symbols", "src/tarski/fstrips/hybrid/problem.py: HybridProblem.get_symbols"]}
{"id": "C69", "title": "State variables are the ground instances of the fluent terms", "statement": "create_all_possible_state_variables indexes exactly the ground instances of the fluent terms it gets (one consecutive index each), raises UnableToGroundError for nested terms and variables of builtin sorts, and the ground property of a state variable is its symbol applied to its constants; together with C68, whatever a ground action can change has a state variable.", "quantifier": "all sets of terms, all sort domains", "why_tests_cant": "Exhaustive enumeration over arbitrary terms with repeated variables, constants and duplicates; tests count variables on a few benchmarks.", "anchors": ["src/tarski/grounding/naive_grounding.py: create_all_possible_state_variables, StateVariable"]}
{"id": "C70", "title": "Grounding SAS+ schemas gives exactly the instances that satisfy the constraints", "statement": "ground_action_schemas returns, for every schema and every choice of one value per variable from its domain, the instance of the schema if all its constraints are true in the given structure under that choice, and nothing else; each instance once; it raises exactly when a domain is missing or some constraint cannot be evaluated.", "quantifier": "all languages, structures, schemas, domains (inline or by table)", "why_tests_cant": "domains, constraints and schemas are arbitrary; tests check the number of ground actions of one example", "anchors": ["src/tarski/sas/util.py: check_constraints, ground_action_schemas", "src/tarski/sas/__init__.py: Schema, Action"]}
{"id": "C71", "title": "Grounding temporal SAS+ actions does not depend on set iteration order", "statement": "ground_temporal_action returns exactly the instances of the temporal action for the choices of values that satisfy the constraints of all events; their number, time stamps and transitions do not depend on the order in which the set of variables is iterated; so do names and arguments.", "quantifier": "all temporal actions, structures and iteration orders of the set of variables", "why_tests_cant": "the iteration order of a set of terms depends on the hash seed of the process; a test sees one of them", "anchors": ["src/tarski/sas/util.py: ground_temporal_action", "src/tarski/sas/temporal.py: TemporalAction"]}
{"id": "C72", "title": "The Fast Downward writer describes the task it is given", "statement": "Writer.dump writes a file whose positions (preconditions, effects, initial values, goal) refer to the state variable and the value in question in the tables of the same file; the file can be read back in one way only; the writer raises exactly for tasks that mention unknown variables or values, or have no action; the file is in Fast Downward's format.", "quantifier": "all tasks: state variables, domains, actions, initial values, goals", "why_tests_cant": "positions must be right for all tables; the test writes one task and checks nothing", "anchors": ["src/tarski/io/sas/fd.py: Writer", "src/tarski/io/sas/templates.py"]}
{"id": "C73", "title": "Theories make exactly their operators available", "statement": "In every language obtained by declarations and by loading theories (no load having failed half-way), the builtin predicate and function symbols are exactly those of the loaded theories, with the right sorts. An operator applied to two terms raises LanguageError when its theory is not loaded; otherwise it returns, builds the atom or term with the operands in their order when both have a suitable sort, and raises SortMismatch otherwise. The functions sqrt, min, sin, normal ... behave likewise. (Refuted for dispatch_unary_operator, which raises TypeError for every unary operator of a loaded theory.)", "quantifier": "all histories of declarations and theory loads, all builtin symbols, all operands", "why_tests_cant": "the combinations of theories, declared sorts and operands are unbounded; tests try a few operators on fixed languages", "anchors": ["src/tarski/theories.py: load_theory, load_*_theory, create_casting_handler", "src/tarski/fol.py: dispatch_operator, dispatch_unary_operator", "src/tarski/syntax/factory.py: create_atom, create_arithmetic_term", "src/tarski/syntax/arithmetic/special.py"]}
{"id": "C74", "title": "Loading theories: when it succeeds, what it adds, what it keeps", "statement": "language(theories=ts) returns for every list, succeeds exactly when all names are theories and none is repeated, its contents are determined by the set of theories (the order is irrelevant). Loading a theory on any language returns; it succeeds exactly when the theory is not loaded yet and the names that it needs are available; whatever its outcome it keeps every declared name, sort, ancestor relation, builtin symbol, operator and theory; no domain of an existing sort changes except for True and False. (Refuted: a load that raises may leave a partially loaded theory, which can then never be loaded.)", "quantifier": "all languages reachable by declarations and loads, all theories, all lists of theory names", "why_tests_cant": "needs all user vocabularies and all orders of loading", "anchors": ["src/tarski/theories.py: language, load_theory", "src/tarski/syntax/sorts.py: attach_arithmetic_sorts, build_the_bools", "src/tarski/fstrips/fstrips.py: language"]}
{"id": "C75", "title": "Conjunctions of ground atoms convert to tuples exactly", "statement": "transform_to_ground_atoms returns, for a conjunction (nested in any way) of ground atoms over user predicates or equalities between a function applied to constants and a constant, one tuple per conjunct in order, naming symbol and arguments; it raises TransformationError, and nothing else, on every other formula; and the formula is true exactly if all the facts named by the tuples are.", "quantifier": "all formulas and interpretations", "why_tests_cant": "formulas are nested arbitrarily; tests convert two or three of them", "anchors": ["src/tarski/syntax/transform/simplifications.py: transform_to_ground_atoms, unpack_atom"]}
{"id": "C76", "title": "Random blocksworld patterns are configurations, and all of them can be drawn", "statement": "generate_random_bw_pattern returns, whatever is drawn, one location per block such that no block carries two blocks and no block is above itself, together with the set of clear places; compute_clear_from_pattern computes this set; and every configuration is drawn for some random choices.", "quantifier": "all numbers of blocks, all outcomes of the random generator", "why_tests_cant": "the outcomes of the random generator cannot be enumerated", "anchors": ["src/tarski/benchmarks/blocksworld.py: generate_random_bw_pattern, compute_clear_from_pattern"]}
{"id": "C77", "title": "The STRIPS blocksworld generator produces the blocks world", "statement": "generate_strips_blocksworld_problem yields a problem whose initial state describes a valid arrangement of the blocks with an empty hand; its actions, executed with progress, are applicable exactly when and lead exactly where the actions of the blocks world do, so every reachable state describes a valid arrangement; the goal is true exactly in the arrangements that agree with the goal pattern; and every generated problem has a plan of length at most four times the number of blocks.", "quantifier": "all numbers of blocks, all outcomes of the random generator, all plans", "why_tests_cant": "arbitrary numbers of blocks, random draws and plans", "anchors": ["src/tarski/benchmarks/blocksworld.py: generate_strips_blocksworld_problem", "src/tarski/search/operations.py: progress, is_applicable"]}
{"id": "C78", "title": "The functional blocksworld generator produces the blocks world", "statement": "generate_fstrips_blocksworld_problem yields, for configurations given or drawn, a problem whose initial state and goal are those configurations; a list of the wrong length is rejected with ValueError, and so is a list that is not a configuration (refuted); read with the standard semantics, move is applicable exactly when and leads exactly where moving a block does; executed with the library's progress it does too (refuted: the source of a move is never cleared, so a covered block never moves, and solvable problems have no plan).", "quantifier": "all numbers of blocks, configurations, random draws, plans", "why_tests_cant": "arbitrary configurations and plans", "anchors": ["src/tarski/benchmarks/blocksworld.py: generate_fstrips_blocksworld_problem", "src/tarski/search/operations.py: progress"]}
{"id": "C79", "title": "The counters generator produces the counters problem", "statement": "generate_fstrips_counters_problem raises SemanticError exactly if the upper bound is not positive; otherwise all counters are zero initially, the goal is true exactly if the counters in the order of their names have increasing values, and, read with the standard semantics, increment and decrement change one counter by one within its bounds, so that the goal can be reached exactly if there are at most upper bound + 1 counters; the same holds when executed with the library's progress (refuted: no action can be executed, as the value of an arithmetic expression has the sort Integer, which is not a subsort of the counters' interval).", "quantifier": "all numbers of counters, upper bounds, states, plans", "why_tests_cant": "arbitrary bounds, states and plans", "anchors": ["src/tarski/benchmarks/counters.py: generate_fstrips_counters_problem", "src/tarski/search/operations.py: apply_effect", "src/tarski/evaluators/simple.py: _arithmetic_evaluator_2", "src/tarski/model.py: _check_assignment"]}
{"id": "C80", "title": "Type and object declarations of the PLY-based PDDL reader", "statement": "For every `(:types ...)` section: the reader accepts it exactly when every entry is acceptable given the names seen so far (bare names and subtypes of a known supertype are new and distinct; a new supertype lists known types other than `object` or new names, not itself); afterwards the types are `object` and the mentioned names, `is_subtype` returns and is the reflexive-transitive closure of the stated pairs with `object` on top, and the direct parent of a type is the supertype of the last group listing it; a `(:constants)`/`(:objects)` section is then accepted exactly when its types exist and its names are new and distinct, and the domain of every sort is exactly the set of objects declared at a type below it. Multiple inheritance is rejected, the order of entries is irrelevant, and objects of type `object` can always be declared (these three are refuted); no section makes the reader loop (refuted: a new type listed below itself or above `object`).", "quantifier": "all lists of type entries and of object entries, of any length and names", "why_tests_cant": "The outcome depends on the whole sequence of declarations and on the history of parents of every type; tests parse a handful of benchmark domains.", "anchors": ["src/tarski/io/pddl/instance.py: InstanceModel.process_supertype_definition, process_type_definition, process_constant_definition", "src/tarski/io/pddl/parser.py: p_types_def, p_primitive_type, p_constants_def, p_object_declaration", "src/tarski/fol.py: sort, set_parent, is_subtype, constant"]}
{"id": "C81", "title": "Ground state constraints are the instances of the constraints", "statement": "After ConstraintGrounder.calculate_constraints returns, the formulas in problem.ground_constraints are, up to logical equivalence, exactly the instances of the constraints of the problem for all well-sorted values of their free variables; together they hold in a state iff every constraint holds for all values; they are pairwise different and constraints_generated counts them.", "quantifier": "all lists of constraints, all finite languages, all interpretations of the symbols, all iteration orders of Python sets", "why_tests_cant": "the set of formulas, languages and states is unbounded; tests run one problem", "anchors": ["src/tarski/grounding/naive/constraints.py:ConstraintGrounder.calculate_constraints", "src/tarski/grounding/naive/instantiation.py:enumerate_groundings", "src/tarski/syntax/transform/neg_builtin.py:NegatedBuiltinAbsorption"]}
{"id": "C82", "title": "Sums and products over objects", "statement": "summation(x1,...,xn,e) and product(x1,...,xn,e) return a term whose value is the sum (product) of the values of e over all objects of the sorts of the variables; the call returns iff no sort is empty and (with more than one instance) the arithmetic operator is available and the instances are numeric; arguments of the wrong kind raise SyntacticError; the evaluator of the library returns that sum whenever it returns.", "quantifier": "all expressions, all lists of variables, all finite sorts, all interpretations and states", "why_tests_cant": "the expression, the number of variables and the sizes of the sorts are unbounded", "anchors": ["src/tarski/syntax/arithmetic/__init__.py:summation", "src/tarski/syntax/arithmetic/__init__.py:product", "src/tarski/syntax/arithmetic/__init__.py:sumterm", "src/tarski/syntax/arithmetic/__init__.py:prodterm"]}
{"id": "C83", "title": "Reading a whole model: atoms, extensions, equality", "statement": "After any history of calls on a model, `as_atoms` returns without raising and lists every true atom and every function value exactly once, and nothing else; asserting the listed atoms in any order on an empty model gives a model answering every query alike. `list_all_extensions` has for every declared symbol (other than `total-cost` without a value) an entry with exactly its points (followed by the values, for functions). `m1 == m2` holds whenever the models agree on every query, and, when the names are legible and no two constants in use print alike, only then.", "quantifier": "all languages, all histories of add/set/remove/discard/remove_symbol calls including failed ones, all points", "why_tests_cant": "equality of models is decided on their texts; tests compare a few models over clean names and never models whose constants print alike", "anchors": ["src/tarski/model.py:Model.__eq__", "src/tarski/model.py:Model.as_atoms", "src/tarski/model.py:Model.list_all_extensions", "src/tarski/model.py:Model.__str__"]}
{"id": "C84", "title": "Breadth-first search over models finds a plan iff there is one", "statement": "For a problem whose states stay within finitely many ground atoms and values that print differently, breadth-first search (which hashes and compares models by their text) stops; if it exhausts the state space it has counted a goal exactly if some plan made of the given operators leads to the goal, and it has expanded exactly the states plans lead to, each once and no deeper than the shortest plan.", "quantifier": "all languages, initial states, goals, sets of ground operators (conditional add, delete and functional effects), expansion limits", "why_tests_cant": "completeness depends on no two distinct reachable states being confused by the textual equality, over the whole reachable state space", "anchors": ["src/tarski/search/blind.py:BreadthFirstSearch.search", "src/tarski/search/model.py:GroundForwardSearchModel", "src/tarski/model.py:Model.__eq__"]}
{"id": "C85", "title": "A problem holds one definition per name", "statement": "After any sequence of calls that define actions, derived predicates, reactions, sensing actions and differential constraints, failed calls included, looking a name up gives the first well-formed definition made under that name (and raises when there is none); a second definition of a name and an ill-formed definition raise and change nothing; the tables list each name once, in the order of definition.", "quantifier": "every history of definitions, every name", "why_tests_cant": "A test registers a few names and tries one duplicate; the claim is about every interleaving of good, duplicate and ill-formed definitions in all the tables.", "anchors": ["src/tarski/fstrips/problem.py:36-56", "src/tarski/fstrips/derived.py:7-26", "src/tarski/fstrips/hybrid/problem.py:18-46", "src/tarski/fstrips/hybrid/differential_constraints.py:17-22", "src/tarski/fstrips/contingent/problem.py:15-27", "src/tarski/fstrips/contingent/sensor.py:16-26"]}
{"id": "C86", "title": "Grounding reactions, sensing actions and differential constraints", "statement": "For schemas with distinct parameters that no inner quantifier binds again, the grounders of reactions, sensing actions and differential constraints produce exactly one ground element for every schema and every choice of values for its parameters; its condition, effect, observation, variate and rate mean what those of the schema mean for these values; the reported count is the number of elements in the index after any number of calls, also failed ones; they raise exactly when a parameter has a built-in sort.", "quantifier": "every list of schemas that the problem's tables can hold, every finite assignment of constants to sorts, every interpretation", "why_tests_cant": "A test counts the instances of one or two small models and never looks at what the instances mean.", "anchors": ["src/tarski/grounding/naive/reactions.py:22-39", "src/tarski/grounding/naive/sensors.py:21-32", "src/tarski/grounding/naive/diff_constraints.py:21-33", "src/tarski/grounding/naive/instantiation.py:5-23"]}
{"id": "C87", "title": "The checks on action costs say what plans cost", "statement": "If a problem is reported as unit-cost then every plan over its actions costs its length, in every execution, when an action without a cost is taken to cost 1; plans over actions reported as zero-cost cost 0, when an action without a cost is taken to cost 0; if a problem is reported as constant-cost then the cost of a plan does not depend on states or on the values of parameters. No action is both unit-cost and zero-cost.", "quantifier": "every list of actions, every plan, every state and every assignment of parameters along it", "why_tests_cant": "Plans and states are unboundedly many; a test evaluates one plan.", "anchors": ["src/tarski/fstrips/representation.py:401-430", "src/tarski/fstrips/action.py:66-68"]}
{"id": "C88", "title": "The JSON SAS document can be read back", "statement": "A planner that reads the JSON document of a SAS+ instance, following the references into its tables, gets exactly the transitions of all actions, the initial state and the goal that were given to the writer, and the table of variables lists each state variable once.", "quantifier": "every list of actions with transitions, every initial state, goal and list of objects", "why_tests_cant": "The indices in the document depend on the order and sharing of all terms in the instance; a test looks at one document.", "anchors": ["src/tarski/io/sas/json.py:15-124", "src/tarski/syntax/symrefs.py", "src/tarski/util.py:10-49"]}
{"id": "C89", "title": "Temporal actions", "statement": "A temporal action is accepted exactly when its conditions have an allowed shape, all its requirements are resource locks or levels and all its timed effects are assignments or literals; requirements and effects are kept in order; its maximal effect time is the time when the last requirement or effect ends; the time reported for an effect is when it happens, and asking for an effect the action does not have raises.", "quantifier": "every precondition, postcondition, list of requirements and list of timed effects", "why_tests_cant": "Quantifies over all lists of timed elements; tests build three actions.", "anchors": ["src/tarski/ndl/temporal.py:27-217"]}
{"id": "C90", "title": "Meaning of RDDL expressions that are read", "statement": "An RDDL expression that the reader accepts (numbers, fluents of this and the next state, if-then-else, comparisons, sums, products, forall, arithmetic, functions and connectives) becomes a Tarski term or formula with the same meaning under every interpretation and every value of the variables: a truth value counts as 1 or 0 in sums and products, a sum ranges over all objects of its type, a primed fluent is about the next state; and every legal RDDL expression is accepted.", "quantifier": "all expression trees, languages, interpretations, domains and values of the variables", "why_tests_cant": "Expressions nest without bound, and meanings are about all interpretations; tests only read a few benchmark files and look at the printed result", "anchors": ["src/tarski/io/rddl.py: translate_expression", "src/tarski/syntax/arithmetic/__init__.py: summation, product", "src/tarski/syntax/terms.py: ite"]}
{"id": "C91", "title": "RDDL expressions that are written can be read back", "statement": "The text that the RDDL writer produces for a term or a formula is an RDDL expression with the same structure: the same operators, functions, quantified variables with their types, fluents and arguments, with the operands in the same places; the left-hand side of a conditional probability function names the fluent in the next state; expressions with the same text are the same; temporal formulas are refused.", "quantifier": "all terms and formulas of any depth, all names that are legal in RDDL", "why_tests_cant": "Expressions nest without bound, and precedence and missing parentheses only matter for particular nestings; tests compare the text of a handful of expressions with literals.", "anchors": ["src/tarski/io/rddl.py: Writer.rewrite, Writer.get_fluent, symbol_map, function_map"]}
{"id": "C92", "title": "Conditions read by the PLY-based PDDL reader mean what PDDL says", "statement": "For every condition that the PLY-based reader of PDDL accepts, the formula that it builds is true in a state, for given values of the variables in scope, exactly if the condition is true according to the definition of PDDL (and, or, not, imply, exists, forall over typed and untyped variables, predicates, equality, comparisons of numeric expressions); no variable of a quantifier remains in scope afterwards; and every well-typed condition is accepted. The last part is violated: a quantifier that declares a variable again, an explicit type `object` and the unary minus are rejected.", "quantifier": "all languages, all conditions (arbitrarily nested), all interpretations over any domain, all values of the variables", "why_tests_cant": "conditions are nested without bound and their truth depends on the interpretation; tests read a few domains", "anchors": ["src/tarski/io/pddl/parser.py: p_GD, p_literal_of_term, p_atomic_formula_of_term, p_term, p_function_term, p_f_exp, p_f_head, p_f_comp, normalize_typed_variable_list", "src/tarski/syntax/terms.py", "src/tarski/syntax/formulas.py"]}
{"id": "C93", "title": "Actions read by the PLY-based PDDL reader do what PDDL says", "statement": "For every action that the PLY-based reader of PDDL accepts: it has the name and the parameters with their types as written, its condition is true exactly if the PDDL condition is, and its recorded assignments are exactly the updates that PDDL defines (add, delete, assign, increase, decrease, scale-up, scale-down), evaluated in the old state, in order; its variables are not in scope afterwards. Every well-typed action is accepted. Violated: scale-down multiplies, equalities are accepted as effects, ill-typed assignments are accepted, conditional and quantified effects are rejected.", "quantifier": "all languages, all actions with any number of parameters, conditions and effects, all interpretations and all values of the parameters", "why_tests_cant": "the meaning of an action depends on the state and the values of the parameters; tests look at a few fixed domains", "anchors": ["src/tarski/io/pddl/parser.py: p_action_def, p_action_parameters, p_action_def_body, p_effect, p_c_effect, p_p_effect", "src/tarski/io/pddl/instance.py: process_action_skeleton, process_instantaneous_action_skeleton"]}
{"id": "C94", "title": "Durative actions read by the PLY-based PDDL reader keep conditions and effects at their times", "statement": "For every durative action that the PLY-based reader accepts: name, parameters and duration are as written; the conditions recorded for the start, the end and the whole duration hold exactly if the ones written for that time hold; and the assignments recorded for the start and the end are the updates written for that time, in order. Every well-typed durative action with a fixed duration is accepted. Violated: several effects at one time, empty or nested conditions are rejected with internal errors, and an unbounded duration is silently accepted.", "quantifier": "all languages, all durative actions, all interpretations and all values of the parameters", "why_tests_cant": "conditions and effects are nested and interleaved without bound; tests look at single examples", "anchors": ["src/tarski/io/pddl/parser.py: p_durative_action_def, p_da_GD, p_timed_GD, p_da_effect, p_timed_effect, p_duration_constraint, p_simple_duration_constraint, p_list_of_p_effect", "src/tarski/io/pddl/instance.py: process_durative_action_skeleton"]}
{"id": "C95", "title": "Derived predicates, initial states and metrics of the PLY-based PDDL reader; definitions are independent", "statement": "Every definition of a file is recorded as if it were the only one, in order, and no variable of a definition is visible in another one; a derived predicate has the parameters and the body as written, with the declared types; the facts recorded for the initial state hold exactly if the written ones do, and contain no variables; the metric is recorded. Violated: negated atoms in the initial state raise a TypeError, names of functions are accepted as values, heads with additional parameters are accepted, undeclared heads raise internal errors, and metrics other than total cost and total time are dropped or raise an IndexError.", "quantifier": "all languages, all sequences of definitions, all initial states, all metrics", "why_tests_cant": "the scope is a mutable dictionary that all definitions share, so interference can depend on the whole sequence of definitions", "anchors": ["src/tarski/io/pddl/parser.py: p_structure_def_list, p_derived_def, p_init, p_init_el, p_literal_of_name, p_atomic_formula_of_name, p_metric_spec, p_metric_f_exp", "src/tarski/io/pddl/instance.py: process_derived_predicate_skeleton, process_objective_definition"]}
{"id": "C96", "title": "Tokens of a PDDL text (PLY-based reader)", "statement": "The lexer of the PLY-based reader ends on every text and never raises: its tokens are the lexemes of the text in their order, each with its line; what is passed over are blanks, line ends, comments, names after ':(' and characters that begin no lexeme. Every layout of a sequence of lexemes (blanks, line ends, comments, no blank before or after parentheses) gives back exactly these tokens, with the types that tell reserved words, names, variables, numbers and marks apart; names do not depend on case. Violated: a reserved word in capitals is an ordinary name, variables keep their case, '#t' is never recognised, and the lines of a second file continue those of the first.", "quantifier": "all texts, all sequences of lexemes and all layouts of them, all starting lines", "why_tests_cant": "what is matched depends on the order of the rules and on the rest of the text; tests tokenize a few snippets", "anchors": ["src/tarski/io/pddl/lexer.py: PDDLlex, LexSymbols"]}
{"id": "C97", "title": "Domain declarations of the PLY PDDL reader", "statement": "The requirements of a domain read by tarski.io.pddl's PddlReader-style PLY parser are accepted exactly when all keys are supported; its sections of types, constants, predicates and functions are accepted exactly when every name is new and every type used is declared before; the resulting language contains exactly the declared sorts, predicates (as functions into Bool), functions and constants with the sorts written, the subtype test is the closure of the declared hierarchy, and the whole domain is accepted exactly when moreover each action, durative action and derived predicate can be read alone in that language. Domains of sorts contain the constants of the types below them (violated when types follow constants), and the order of sections should not matter (violated).", "quantifier": "every list of requirement keys, every sequence of sections of declarations, every list of structures", "why_tests_cant": "the acceptance conditions and the resulting symbol tables range over unboundedly long files and hierarchies; the violations need particular orders of sections", "anchors": ["src/tarski/io/pddl/parser.py:p_domain_body_def", "src/tarski/io/pddl/parser.py:p_requirement_key_list", "src/tarski/io/pddl/parser.py:p_predicates_def", "src/tarski/io/pddl/parser.py:p_functions_def", "src/tarski/io/pddl/instance.py:process_predicate_definition", "src/tarski/io/pddl/instance.py:process_function_skeleton", "src/tarski/io/pddl/__init__.py"]}
{"id": "C98", "title": "Reading the declarations and the initial state of an RDDL model", "statement": "`translate_rddl_model` of the RDDL reader accepts a model exactly when its declarations are legal: every type is a child of `object`, type, object and variable names are new and distinct, each object group names a sort, each type in a variable declaration is a sort or one of `real`/`int` (not otherwise taken), and every entry of `init-state` and `non-fluents` is about a declared variable with objects of the declared types and (for a variable that is not Boolean) a value of its range. Then the language has exactly the declared sorts, objects and variables (Boolean variables are predicates, others functions), the domain of a type holds exactly its listed objects, a Boolean fluent holds exactly where some entry says true, any other fluent has the value of the last entry about it, and the parameters are those of the instance. Variables that differ only in arity should be accepted, the last entry should win for Boolean fluents too, and unlisted fluents should have their default values (these three are violated).", "quantifier": "all parsed models (any number of types, objects, variables, entries), all sorts, all points", "why_tests_cant": "acceptance and the resulting language and state depend on all declarations together, of unbounded number; unit tests read a few files", "anchors": ["src/tarski/io/rddl.py: Reader._translate_types", "src/tarski/io/rddl.py: Reader._translate_variables", "src/tarski/io/rddl.py: Reader.translate_rddl_model", "src/tarski/io/rddl.py: translate_variable"]}
{"id": "C99", "title": "Whole RDDL files that are written can be read back", "statement": "`tarski.io.rddl.Writer.write_model` turns a task into one RDDL text. For every task with legal names and expressions it succeeds, and an RDDL parser that reads the text gets back exactly the task: requirements, types, fluents with kind, signature, range and default, conditional probability functions, reward, preconditions, invariants, objects, the values of the non-fluents under `non-fluents` and of the other fluents under `init-state`, horizon and discount; the tarski reader applied to that file yields a language with the same sorts, objects and fluents and an initial state with the same true atoms and the same values. Violated: the writer needs an attribute `max_nondef_actions` that the task's parameters do not have; a second file by the same writer lists the objects twice and is unreadable; constraints declared as invariants are dropped; subsorts and interval sorts give files that the reader rejects; a default `True` is written as a name.", "quantifier": "all tasks with legal names (any number of sorts, fluents, expressions of any depth), all states of the writer", "why_tests_cant": "the text depends on all parts of the task at once; tests compare a few instances and need an external parser", "anchors": ["src/tarski/io/rddl.py:Writer", "src/tarski/io/templates/rddl_model.tpl", "src/tarski/rddl/task.py:Task"]}
{"id": "C100", "title": "Atoms and models as texts", "statement": "`tarski.utils.parse_model` and `parse_atom` read texts such as `on(b1, b2)`: every atom of a language (declared predicate, declared constants of sorts below the declared ones) is read back from any text of it, with white space around the names, from what `str` gives and from what `serialize_atom` gives; `serialize_atom` tells different atoms apart; any text that is accepted gives an atom of the language; and the model read from a list of texts is accepted exactly when each text is an atom, and holds exactly these atoms. Violated: the text `p()` that `str` gives for an atom without arguments is rejected, and so is every text with white space (a line end) after the closing parenthesis.", "quantifier": "every language, every atom, every layout, every list of texts, every notion of white space that does not contain parentheses and commas", "why_tests_cant": "names, layouts and lists of texts are unbounded; the tests read one list of atoms", "anchors": ["src/tarski/utils/helpers.py:parse_atom", "src/tarski/utils/helpers.py:parse_model", "src/tarski/utils/serialization.py:serialize_atom", "src/tarski/syntax/formulas.py:Atom"]}
{"id": "C101", "title": "The files with the constraint problems of action schemas", "statement": "`CSPSchemaCompiler.serialize_schema_csp` writes the constraint satisfaction problem of an action schema to a file. For every problem whose names have no white space, the file can be read back: the variables with type and bounds, the parameter index, the constraints (tables with sign and variables, state variables with their index and value, comparisons), and the effect-relevant variables; this covers every schema whose precondition is a conjunction of literals over variables and constants. Violated: when all parameters are effect-relevant the file says that none is, so no reader can tell these apart; a table constraint over a nested term raises TypeError in the middle and leaves a truncated file; a comparison with a nested term is written with the undeclared variable `None`.", "quantifier": "every compiled problem (any numbers of variables and constraints), every numbering of state variables, every set of effect-relevant variables", "why_tests_cant": "the number and the kinds of constraints are unbounded; the tests never read a file back", "anchors": ["src/tarski/analysis/csp_schema.py:CSPSchemaCompiler.serialize_schema_csp", "src/tarski/analysis/csp_schema.py:CSPInformation"]}
{"id": "C102", "title": "Matrix terms", "statement": "`lang.matrix` makes terms of matrices and `A @ B`, `A + x`, ... make terms over them. Evaluating `A @ B` gives, whenever it returns, the matrix product (the sums of products, from the left; exactly the product if the numbers are exact), it returns when no product and no partial sum is outside the bounds of Real, and it raises TypeError exactly for matrices whose inner dimensions differ; arithmetic with a number on the right (and `+`, `-`, `*`, `/` with one on the left) works on each entry; a matrix of numbers is its own value; syntactic equality is equality of shapes and entries; `transpose` of a term over `+`, `-`, `*` gives a term for the transposed matrix. Violated: `A + B` of two matrices always raises ValueError; matrices of integers cannot be multiplied; a real matrix with the entry 1 + 1 cannot be evaluated; `x ** A` raises TypeError; matrices cannot be hashed; `transpose` changes its argument in place, so a shared subterm is transposed twice and a failed call leaves changes; the transposed matrix is a view of the same array; scalars and `@`-products have no transposed.", "quantifier": "all matrices of all dimensions with at least one row, all terms over them, all states, all semantics of floating point operations", "why_tests_cant": "dimensions and terms are unbounded; the tests evaluate two 3x3 examples", "anchors": ["src/tarski/syntax/algebra/matrix.py:Matrix", "src/tarski/evaluators/simple.py:symbolic_matrix_multiplication", "src/tarski/evaluators/simple.py:_arithmetic_evaluator_2", "src/tarski/syntax/arithmetic/__init__.py:transpose"]}
{"id": "C103", "title": "Languages side by side, and copies of languages", "statement": "A program may use many languages. (1) Whatever is done with other languages, what each name stands for in a language does not change; if the language was made from scratch and never copied, the members of its sorts do not change either. (2) `deepcopy` gives a language with the same names, signatures and members. (3) \"A true deep-copy\": changes to the copy are not seen in the original, and the copy can be extended like any language.", "quantifier": "every program: any sequence of language creations, deep copies and declarations (sorts, predicates, functions, constants; sorts given by name or as objects, also objects of other languages), failing calls included", "why_tests_cant": "independence must hold for every interleaving of declarations on all languages and copies; a test fixes one short history", "anchors": ["src/tarski/fol.py: FirstOrderLanguage.deepcopy, _retrieve_object, sort, attach_sort, set_parent, predicate, function, constant, get", "src/tarski/syntax/sorts.py: Sort.__deepcopy__, extend, ancestors, domain", "src/tarski/syntax/predicate.py: _check_well_formed", "src/tarski/syntax/function.py: _check_well_formed"]}
{"id": "C104", "title": "Constraint hypergraph and primal graph of an action schema", "statement": "For every conjunctive precondition (conjunctions of atoms and negations over variables and constants), `compute_schema_constraint_hypergraph` returns exactly one sorted hyperedge of parameter names per set of variables that occur together in an atom, `compute_schema_primal_graph` exactly the pairs of names that occur together in an atom, each once and in order; other preconditions are rejected. The acyclicity test on this hypergraph is true iff the variable sets of the atoms have a join tree.", "quantifier": "every precondition formula, every nesting of conjunctions and negations, every set iteration order", "why_tests_cant": "conditions on the graph of arbitrarily large preconditions; tests check a few schemas", "anchors": ["src/tarski/analysis/csp.py: compute_schema_constraint_hypergraph, compute_schema_primal_graph, compute_primal_graph_from_hypergraph, _collect_hyperedges, check_hypergraph_acyclicity"]}
{"id": "C105", "title": "Equality and hashing of description-logic elements", "statement": "Equality of description-logic elements is an equivalence relation, equal elements have equal hashes and are written alike, elements that are written alike are equal, and elements can always be constructed and hashed.", "quantifier": "all concepts, roles and nullary atoms, wherever their objects lie in memory, and all digest functions", "why_tests_cant": "equality compares hashes that are computed from the addresses of the components, so what a test observes depends on where objects happen to be allocated and on which objects are shared", "anchors": ["src/tarski/dl/concepts.py:__eq__, __hash__, __init__ of all classes", "src/tarski/utils/hashing.py:int_to_bytes, consistent_hash"]}
{"id": "C106", "title": "Action costs in the reachability program", "statement": "When the logic program is built with action costs, the costs it derives for the instances of an action are exactly the costs of those instances: one if the action has none, the constant, or the value of the cost function for the arguments; the variable invented for that value is never one of the action's parameters, and can be invented for every action with fewer than a thousand parameters.", "quantifier": "all actions, parameter names, cost terms, sets of true ground atoms and initial states", "why_tests_cant": "the names of the parameters decide which variable is invented, and what the rules derive ranges over all ground instances", "anchors": ["src/tarski/reachability/asp.py:process_action_cost, tarski_functional_atom_to_lp_atom, _var, generate_varname, create"]}
{"id": "C107", "title": "Visitors of expressions and effects", "statement": "MatchExpression counts every occurrence of its target; CollectVariables gathers the variables of an expression and CollectEqualityAtoms its equality atoms; visit_effect calls back for the effect, each nested effect, their conditions and expressions, once each and in order.", "quantifier": "every target, formula, term and (nested) effect", "why_tests_cant": "occurrences at any depth and combinations of connectives, quantifiers and nested universal effects cannot be enumerated; a test sees a few shapes", "anchors": ["src/tarski/syntax/visitors.py:MatchExpression", "src/tarski/syntax/visitors.py:CollectVariables", "src/tarski/syntax/visitors.py:CollectEqualityAtoms", "src/tarski/fstrips/fstrips.py:visit_effect"]}
{"id": "C108", "title": "Constructors of vector, black-box and choice effects", "statement": "A vectorised effect needs column vectors of the same dimensions; a linear effect y := Ax + b needs y, x, b column vectors and A square of matching size; a black-box effect needs a column whose components are the outputs of the function; a choice effect needs a compound term as objective; others raise InvalidEffectError. Optimization types are read back from their text.", "quantifier": "every combination of shapes (any number of dimensions and sizes, or none), components, outputs and objectives", "why_tests_cant": "the combinations of shapes are infinite; tests pass one or two", "anchors": ["src/tarski/fstrips/fstrips.py:VectorisedEffect", "src/tarski/fstrips/fstrips.py:LinearEffect", "src/tarski/fstrips/fstrips.py:BlackBoxEffect", "src/tarski/fstrips/fstrips.py:ChoiceEffect", "src/tarski/fstrips/fstrips.py:OptimizationType"]}
{"id": "C109", "title": "DL vocabulary and primitive concepts, roles and atoms of a language", "statement": "The DL vocabulary of a language holds exactly its non-built-in predicates of arity at most 2, functions of arity at most 1 except total-cost and sorts except number; generating the primitives yields, without error, for every relation of at most two arguments (functions counted with their value) one atom, concept or role with its sorts, a second one for the goal if asked for, and one concept per nominal and type.", "quantifier": "every language, set of nominals, types and goal predicates", "why_tests_cant": "languages with arbitrary mixtures of symbols and arities", "anchors": ["src/tarski/dl/factory.py:compute_dl_vocabulary", "src/tarski/dl/factory.py:SyntacticFactory.generate_primitives_from_language", "src/tarski/dl/concepts.py:PrimitiveConcept", "src/tarski/dl/concepts.py:PrimitiveRole", "src/tarski/dl/concepts.py:NullaryAtom"]}
{"id": "C110", "title": "The text of logic programs and of the solver's answer", "statement": "Rules added to a logic program are kept as text, one line each, that determines head and body; the file given to the solver determines the program, and is the same whether the program was built in memory or written directly to a file; parse_model reads the same model from a file and from its text.", "quantifier": "every program over words without punctuation, every answer", "why_tests_cant": "unique readability concerns all pairs of programs; punctuation and empty lists are where texts collide", "anchors": ["src/tarski/reachability/asp.py:LPAtom", "src/tarski/reachability/asp.py:LogicProgram", "src/tarski/reachability/asp.py:InFileLogicProgram", "src/tarski/reachability/asp.py:_print_rule", "src/tarski/reachability/clingo_wrapper.py:run_clingo", "src/tarski/reachability/clingo_wrapper.py:parse_model"]}
{"id": "C111", "title": "Files: lines, temporary files of the solver, domain of a task", "statement": "Grounding by logic programs touches no files but its temporary ones, and removes these; the solver's failures are told apart; silentremove removes a file without complaining about missing ones; reading and counting the lines of a file agree with its text; the domain found for a task is the first existing candidate in the directory of the task.", "quantifier": "every state of the file system, every behaviour of the solver (return code, outputs), every file name", "why_tests_cant": "every outcome of an external process at every point, and all other files: tests observe a single run", "anchors": ["src/tarski/utils/command.py", "src/tarski/io/utils.py:find_domain_filename", "src/tarski/reachability/clingo_wrapper.py:run_clingo", "src/tarski/grounding/lp_grounding.py:LPGroundingStrategy._solve_lp"]}
{"id": "C112", "title": "What a language says about itself", "statement": "After every sequence of API calls on a first-order language, the listings (sorts, predicates, functions, constants()), the has_* queries, vocabulary() and dump() agree with what has been declared: each declared and not removed element appears exactly once, with its signature, in the order of declaration (a removed and redeclared symbol goes to the end); a declaration appends exactly one entry; failing calls and queries change nothing; symbols declared by theories do not enter the vocabulary. children(s) are exactly the sorts declared below s, every sort but object is a child of exactly one sort; get_closest_builtin_sort returns the lowest builtin sort above a sort; check_well_formed passes iff every non-interval sort has a constant (itself or in a subsort) and no interval has ub+1 = lb. (It is refuted that it detects every empty interval: after set_bounds(5, 2) it passes.)", "quantifier": "every finite history of calls (declarations, removals, re-parenting, changes of bounds, failing calls), every sort and symbol name", "why_tests_cant": "the order and completeness of listings depend on the whole history of insertions and deletions", "anchors": ["src/tarski/fol.py:FirstOrderLanguage.vocabulary", "src/tarski/fol.py:FirstOrderLanguage.sorts", "src/tarski/fol.py:FirstOrderLanguage.predicates", "src/tarski/fol.py:FirstOrderLanguage.functions", "src/tarski/fol.py:FirstOrderLanguage.constants", "src/tarski/fol.py:FirstOrderLanguage.dump", "src/tarski/fol.py:FirstOrderLanguage.check_well_formed", "src/tarski/syntax/sorts.py:children", "src/tarski/syntax/sorts.py:get_closest_builtin_sort"]}
{"id": "C113", "title": "Case of letters in PDDL files", "statement": "With case_insensitive=True, if two files are read into a problem whose action names are different whatever their case, then any files that differ from them in the case of letters only are read too, into a problem that is the same except for the case of the names of the domain, the problem and the actions; and it is the problem that the reader without the option reads from the lowercased files, again up to the case of these names. A file in lower case is read in the same way with and without the option. (Full case-insensitivity is refuted: names of domains, problems and actions keep their case, so that actions A and a may coexist; the option has no effect on parse_domain_string; and a file read without the option may be rejected with it since more words are reserved.)", "quantifier": "every pair of files, every recasing of them, every language the reader starts from", "why_tests_cant": "a test recases a few files; every reserved word, every section and every mixture of cases is at stake", "anchors": ["src/tarski/io/_fstrips/common.py: LowerCasingStreamWrapper", "src/tarski/io/_fstrips/reader.py: FStripsParser.parse_file, parse_string, visitDomainName, visitProblemDecl, visitActionDef", "src/tarski/io/fstrips.py: FstripsReader"]}
{"id": "C114", "title": "Numeric expressions mean what they say", "statement": "Evaluating a numeric expression gives the number that it stands for: operators and special functions (min, max, abs, sgn, sin, ..., pow, sqrt) applied to terms and to Python numbers, on either side, build terms that stand for the function of what the operands stand for, every comparison holds iff it holds of the numbers, and evaluation succeeds whenever all functions are defined where they are applied and all results are within the bounds of their sort.", "quantifier": "all numeric terms over the builtin functions, of any depth, all mixtures of integers and floating point numbers, all sorts with their bounds, all states, all Python numbers as operands", "why_tests_cant": "the number of terms, numbers and sorts is unbounded; the tests evaluate each special function once, on one Real constant, and never on integers", "anchors": ["src/tarski/evaluators/simple.py: evaluate_builtin_function, _arithmetic_evaluator_1, _arithmetic_evaluator_2, evaluate_builtin_predicate", "src/tarski/funcsym/__init__.py: impl", "src/tarski/syntax/ops.py: cast_to_closest_common_numeric_ancestor, infer_numeric_sort", "src/tarski/syntax/terms.py: Term, CompoundTerm", "src/tarski/syntax/arithmetic/__init__.py: pow, sqrt", "src/tarski/syntax/arithmetic/special.py", "src/tarski/syntax/arithmetic/random.py"]}
{"id": "C115", "title": "Temporal formulas are built, expanded and rejected faithfully", "statement": "The constructors X, F, G take exactly one formula and U, R at least two and build formulas that mean next, eventually, always, until and release over sequences of states; anything else raises LanguageError. remove_quantifiers applied to a formula with temporal connectives (quantifiers inside and outside of them) returns a formula without the requested quantifiers that is true at the same times of the same sequences of states. to_negation_normal_form raises UnexpectedElementType exactly on formulas with a temporal connective, and evaluate never gives a truth value for a formula that depends on a temporal connective. W builds the weak until.", "quantifier": "all formulas with any nesting of temporal connectives and quantifiers, all infinite sequences of interpretations with rigid names and sorts, all elimination modes", "why_tests_cant": "Truth of a temporal formula is a statement about infinite sequences of states; no finite run of the library evaluates it.", "anchors": ["src/tarski/syntax/temporal/ltl.py: TemporalCompoundFormula, X, F, G, U, R, W", "src/tarski/syntax/transform/quantifier_elimination.py: QuantifierElimination", "src/tarski/syntax/transform/nnf.py: NNFTransformation", "src/tarski/evaluators/simple.py: evaluate"]}
{"id": "C116", "title": "Printed formulas, effects and actions can be told apart", "statement": "Over variables, constants and symbols that are told apart by their texts and have no parentheses, commas or blanks in their names, str() of two terms, formulas or effects is the same exactly when they are the same expression (up to list versus tuple containers); ident() of two actions is the same exactly when name and typed parameters agree, and print() exactly when the precondition and the effects agree too.", "quantifier": "all terms, formulas (any nesting of connectives, quantifiers and if-then-else terms), effects (conditional, universal, functional) and actions over any such vocabulary", "why_tests_cant": "Unique readability is a statement about all pairs of expressions of any depth.", "anchors": ["src/tarski/syntax/formulas.py: CompoundFormula.__str__, QuantifiedFormula.__str__, Atom.__str__", "src/tarski/syntax/terms.py: __str__ of Variable, CompoundTerm, IfThenElse, Constant", "src/tarski/fstrips/fstrips.py: SingleEffect.__str__, tostring, UniversalEffect.__str__", "src/tarski/fstrips/action.py: Action.ident, Action.print"]}
{"id": "C117", "title": "Grounding and search together solve STRIPS problems", "statement": "For a STRIPS problem (typed parameters and constants, conditions from atoms, equalities and connectives, unconditional add and delete effects) whose symbols and constants are printed differently: ground_problem_schemas_into_plain_operators either raises ReachabilityLPUnsolvable, and then no sequence of instances of the actions leads from the initial state to a state with the goal; or it returns operators with which the breadth-first search without a limit terminates without an exception, counts a goal exactly if a plan exists, and expands exactly the states that sequences of action instances reach, each at the length of some such sequence and not deeper than any.", "quantifier": "all STRIPS problems (any numbers of objects, sorts, predicates, actions and parameters), all answers of a correct ASP solver in any order of lines, all orders of iterating over the sets of groundings", "why_tests_cant": "The answer depends on compilation to a logic program, the solver, parsing of its answer, grounding of operators, evaluation, progression and duplicate detection together; each plan, of any length, matters.", "anchors": ["src/tarski/grounding/lp_grounding.py: ground_problem_schemas_into_plain_operators, compute_action_groundings", "src/tarski/reachability/asp.py", "src/tarski/syntax/transform/action_grounding.py: ground_schema_into_plain_operator_from_grounding", "src/tarski/search/blind.py: BreadthFirstSearch", "src/tarski/search/model.py: GroundForwardSearchModel"]}
{"id": "C118", "title": "Texts of derived predicates, reactions, differential constraints and sensing actions", "statement": "ident() of two such objects is the same exactly when their names and parameters are; str() exactly when all their parts are (name, parameters, condition, formula, effect, observation, variate, right-hand side); dump() returns a description of them.", "quantifier": "all derived predicates, reactions, differential constraints and sensing actions, over vocabularies whose texts are told apart", "why_tests_cant": "Unique readability is a statement about all pairs of objects with expressions of any depth; that dump() fails for every object is a statement about all objects.", "anchors": ["src/tarski/fstrips/derived.py: Derived.dump, ident, __str__", "src/tarski/fstrips/hybrid/reaction.py: Reaction", "src/tarski/fstrips/hybrid/differential_constraints.py: DifferentialConstraint", "src/tarski/fstrips/contingent/sensor.py: Sensor"]}
{"id": "C119", "title": "Planning from a PDDL problem: reading, grounding and search", "statement": "For a problem as the PDDL reader makes it (a hierarchy of sorts each declared after its parent, objects and parameters with lower-case names, STRIPS preconditions, effects and goal, numbers only as costs), the compiler of reachability logic programs accepts the problem, and grounding its actions with an ideal solver followed by a breadth-first search either raises ReachabilityLPUnsolvable and no plan exists, or the search stops without an error, counts a goal exactly if a plan exists, expands every state a plan leads to at a depth not larger than the length of the plan, and expands nothing else.", "quantifier": "all such problems (any number of sorts, objects, actions and atoms), all answers of the solver that list the derivable facts, all orders in which sets are iterated, all plans", "why_tests_cant": "tests solve a few fixed benchmark problems; completeness of grounding and search quantifies over all plans of all problems", "anchors": ["src/tarski/reachability/asp.py:create_reachability_lp", "src/tarski/grounding/lp_grounding.py:ground_problem_schemas_into_plain_operators", "src/tarski/search/blind.py:BreadthFirstSearch", "src/tarski/io/fstrips.py:FstripsReader.read_problem", "src/tarski/syntax/sorts.py:Sort.domain"]}
{"id": "C120", "title": "The strategy of grounding does not change the search", "statement": "For a STRIPS problem read from PDDL, instantiating every action with every tuple of objects of the right sorts (NaiveGroundingStrategy.ground_actions and ground_schema_into_plain_operator_from_grounding) succeeds, and breadth-first search with these operators finds a goal exactly if a plan exists. Compared with the operators that reachability grounding gives (ground_problem_schemas_into_plain_operators): they are among the naive ones, and both searches expand the same states at the same depths, the same number of times, and count the same number of goals; if reachability grounding raises ReachabilityLPUnsolvable, the search with the naive operators finds no goal.", "quantifier": "all STRIPS problems as the PDDL reader makes them, all correct answers of the solver, all iteration orders of sets, all initial states", "why_tests_cant": "The two sets of operators differ in general, and that the missing operators are never applicable must hold in every reachable state of every problem.", "anchors": ["src/tarski/grounding/naive_grounding.py:NaiveGroundingStrategy.ground_actions", "src/tarski/syntax/transform/action_grounding.py:ground_schema_into_plain_operator_from_grounding", "src/tarski/grounding/lp_grounding.py:ground_problem_schemas_into_plain_operators", "src/tarski/search/blind.py:BreadthFirstSearch", "src/tarski/search/model.py:GroundForwardSearchModel"]}
{"id": "C121", "title": "Problems that are read from PDDL files are well formed", "statement": "Whatever the text of a domain file and an instance file: if the FSTRIPS/PDDL reader returns a problem, then no name is declared twice in its language and every sort, constant, predicate and function refers to sorts that were declared before; the actions have different names, distinct parameters of declared sorts, and preconditions, effects and costs over declared symbols with arguments of the right number and sorts and without variables that are free; the goal and the metric are closed; and every atom and function value of the initial state is about declared symbols, with constants of the language (or numbers of interval sorts) of the declared sorts.", "quantifier": "all texts of domain and instance files, with and without the case-insensitive option, and any set of theories loaded before", "why_tests_cant": "A unit test reads some benchmark files. That no file whatever makes the reader return a problem with a dangling reference, a duplicate declaration, a free variable or an ill-sorted fact is a statement about all texts.", "anchors": ["src/tarski/io/fstrips.py: FstripsReader.read_problem", "src/tarski/io/_fstrips/reader.py: FStripsParser", "src/tarski/fol.py: FirstOrderLanguage", "src/tarski/model.py: Model.add, Model.set"]}
{"id": "C122", "title": "Planning for PDDL files", "statement": "Whatever the two files: if the reader accepts them and what they declare uses STRIPS features only (no numbers, no quantifiers, no conditional effects), the problem meets all requirements of the compiler to logic programs, of grounding and of the search; so reading, grounding reachable actions and breadth-first search together report a goal exactly when the actions of the files have a plan, and visit every reachable state within the length of its shortest plan.", "quantifier": "all texts of domain and instance files that are accepted and use STRIPS features only, all solvers that return the least model, all orders of sets", "why_tests_cant": "Each test runs the chain on one benchmark; whether each stage establishes the assumptions of the next for every input cannot be tested.", "anchors": ["src/tarski/io/fstrips.py: FstripsReader.read_problem", "src/tarski/grounding/lp_grounding.py: LPGroundingStrategy", "src/tarski/reachability/asp.py: create_reachability_lp", "src/tarski/search/blind.py: BreadthFirstSearch"]}
{"id": "C123", "title": "What was read from PDDL files can be written and read again", "statement": "Whatever two files the FSTRIPS/PDDL reader accepts (with sorts, objects, predicates, actions, quantified conditions and conditional or universal effects, but no numbers and functions, no variable declared twice in a scope, and no name that becomes a reserved word in lower case): the writer turns the problem into two files, in whatever order it writes the requirements, and the reader makes of these files the same problem - the same names, language, initial state, equivalent goal and actions with equivalent preconditions and the same effects. Without the condition on reserved words this fails: a predicate `Within` is accepted, is called `within` afterwards, and the file that is written for it is rejected.", "quantifier": "all pairs of texts that the reader accepts, with and without the case-insensitive option, all orders of the requirements", "why_tests_cant": "A unit test writes and reads back some benchmarks. That this works for every accepted pair of files, and that nothing of the problem is changed in any of them, quantifies over all texts and, for conditions and effects, over all states.", "anchors": ["src/tarski/io/fstrips.py: FstripsReader.read_problem, FstripsWriter.print_domain, FstripsWriter.print_instance", "src/tarski/io/_fstrips/reader.py: FStripsParser"]}
{"id": "C124", "title": "Access to the elements of a language by name", "statement": "`lang.get(n)` returns the element declared under n; `lang.get(n1, n2, ...)` returns the tuple of the elements declared under the names, in the order and as often as they are given; it raises the undefined-element error exactly when one of the names is not declared. `lang.ns.n` gives the element declared under n and raises when there is none, for every name.", "quantifier": "every language reached by any sequence of declarations (including ones that raise), every list of names", "why_tests_cant": "The answer depends on the whole history of declarations and failed declarations, and on every possible name, including those that collide with attributes of Python objects.", "anchors": ["src/tarski/fol.py:FirstOrderLanguage.get", "src/tarski/fol.py:FirstOrderLanguage.ns", "src/tarski/fol.py:_NamespaceAccessor"]}
{"id": "C125", "title": "The nodes of breadth-first search record shortest plans", "statement": "In every node that breadth-first search holds when it stops (expanded or still queued), following the parents and reading the actions gives a sequence of actions that leads from the initial state to the state of the node; for expanded nodes no sequence that leads to the same state is shorter, and the first expanded node with a goal state records a plan as short as any, also when an expansion limit stops the search. An exhausted search has expanded a node with a goal state exactly if some plan exists. For ground planning problems the recorded operators are applicable one after the other and their execution gives the state of the node.", "quantifier": "every search model, every expansion limit, every moment at which the search stops, all states of any size", "why_tests_cant": "Optimality compares with all sequences of actions, of any length, and the links are built over the whole history of the search.", "anchors": ["src/tarski/search/blind.py:SearchNode", "src/tarski/search/blind.py:make_child_node", "src/tarski/search/blind.py:BreadthFirstSearch.search", "src/tarski/search/model.py:GroundForwardSearchModel"]}
{"id": "C126", "title": "Plans recorded by the search for PDDL problems", "statement": "When a planning problem with STRIPS features is read from two PDDL files, its actions are grounded (by a logic program whose solver returns the least model, or naively) and breadth-first search runs without a limit, then, unless grounding reports that the goal cannot be reached, which then is so, the search stops; each node it expands records a sequence of instances of the actions that can be executed in the problem and leads to the state of the node, and none that leads there is shorter; if the goal can be reached, the first node whose state satisfies the goal records a shortest plan of the problem.", "quantifier": "every pair of texts that the reader accepts whose problem has STRIPS features, both ways of grounding, every order of the answers of the solver", "why_tests_cant": "Ranges over all accepted pairs of files and all executions; a test checks one plan of one problem.", "anchors": ["src/tarski/io/fstrips.py", "src/tarski/grounding/lp_grounding.py", "src/tarski/grounding/naive_grounding.py", "src/tarski/search/blind.py", "src/tarski/search/model.py", "src/tarski/search/operations.py"]}
{"id": "C127", "title": "Texts of temporal requests and effects", "statement": "Every temporal request and effect (locks, levels, assignments, literals, conditional, universal and timed effects) has a text, and over variables, constants and symbols that are told apart by their texts two of them have the same text exactly when they are the same expression up to the containers of subformulas; is_literal holds exactly of the atoms and the negations of atoms.", "quantifier": "every nesting of conditional and timed effects over every vocabulary whose leaves are told apart by their texts, all times, all formulas", "why_tests_cant": "Unique readability is a statement about all pairs of expressions of any depth.", "anchors": ["src/tarski/ndl/temporal.py"]}
{"id": "C128", "title": "State variables of the naive grounding strategy record all that can change", "statement": "For a planning problem with STRIPS features read from two PDDL files, NaiveGroundingStrategy(problem, ignore_symbols) takes for fluent exactly the predicates that some action adds or deletes and for static the other symbols, without the ignored ones; ground_state_variables() indexes exactly the atoms of the fluent predicates over the constants of the right sorts, numbered without gaps; in every state that actions lead to, every atom that changed since the initial state and is not ignored has a state variable, static symbols have their first denotation, and two reachable states that agree on all state variables are the same state.", "quantifier": "every pair of texts that the reader accepts whose problem has STRIPS features, every list of ignored symbols, every sequence of action instances", "why_tests_cant": "Ranges over all reachable states of all problems; tests count the state variables of a few benchmarks.", "anchors": ["src/tarski/grounding/naive_grounding.py: NaiveGroundingStrategy, ground_symbols_exhaustively", "src/tarski/grounding/ops.py: approximate_symbol_fluency"]}
{"id": "C129", "title": "State variables as objects and as expressions", "statement": "`has_state_variable_shape(e)` answers for every expression, and is True exactly for the atoms and functional terms whose arguments are all constants; substitutions of variables do not change such an expression and its value does not depend on the assignment. `StateVariableLite.from_atom` accepts exactly the atoms with this shape; `to_atom` gives the atom back, and exists exactly when the constants have the number and the sorts that the symbol declares; two state variables are equal iff symbol and constants are. Every state variable recorded by `NaiveGroundingStrategy.ground_state_variables()` has an expression, of this shape, and different indices have different expressions.", "quantifier": "every expression, language with distinct symbol names, tuple of constants, problem and set of ignored symbols", "why_tests_cant": "ranges over all expressions and all groundings of all problems", "anchors": ["src/tarski/fstrips/representation.py:has_state_variable_shape", "src/tarski/grounding/common.py:StateVariableLite", "src/tarski/grounding/naive_grounding.py:ground_symbols_exhaustively"]}
{"id": "C130", "title": "Timing a block of code", "statement": "`with timing(text, newline): block` changes neither the result nor the exceptions of the block; it writes the text before, and, when the block returns, its CPU time, wall-clock time and memory use after what the block writes.", "quantifier": "every block (its output, result or exception), text, clock readings, with or without memory information", "why_tests_cant": "ranges over all blocks and over platforms with and without psutil, while the tests run on one platform", "anchors": ["src/tarski/utils/resources.py:timing", "src/tarski/utils/resources.py:Timer", "src/tarski/utils/resources.py:get_mem_usage"]}
{"id": "C131", "title": "Writing a problem and reading it again changes none of its plans", "statement": "For a problem that PDDL can express, `FstripsWriter` writes files from which `FstripsReader` reads a problem with exactly the same plans: the same sequences of ground actions (names with the names of the objects) lead from the same initial states to the same states satisfying the goal. The same holds for whatever two files the reader accepts: reading, writing and reading again keeps the plans.", "quantifier": "every problem that PDDL can express, every order of requirements, division of the constants over the two files, every pair of PDDL texts without functions and numbers that the reader accepts, every sequence of actions", "why_tests_cant": "ranges over all problems, all texts and all action sequences", "anchors": ["src/tarski/io/fstrips.py:FstripsWriter", "src/tarski/io/fstrips.py:FstripsReader", "src/tarski/io/_fstrips/reader.py:FStripsParser"]}
{"id": "C132", "title": "The elements of a counters problem come in the order of their numbers", "statement": "`get_counters_elements(n)` returns, for n > 0, the generated problem, its language, the functions `value` and `max_int`, and then all n counters, once each; the counters come in the order c1, ..., cn, so that the result can be unpacked into variables, and the goal compares them in that order.", "quantifier": "all numbers of counters", "why_tests_cant": "a test uses three counters; the order by name agrees with the order by number for at most nine", "anchors": ["src/tarski/benchmarks/counters.py: get_counters_elements", "src/tarski/benchmarks/counters.py: generate_fstrips_counters_problem"]}
{"id": "C133", "title": "Constraints on trajectories in instance files are read and kept", "statement": "An instance file with a section `(:constraints ...)` that follows the grammar (conjunctions, quantified constraints, preferences, and formulas with or without one of the keywords always, sometime, at-end, within, at-most-once, sometime-after, sometime-before, always-within, hold-during, hold-after) is read without error if its formulas can be read, and the problem that the reader returns depends on the constraints: instances that differ in a constraint and its negation are read as different problems.", "quantifier": "all domains, instance files, and sections with constraints of any shape and depth", "why_tests_cant": "no test reads an instance with constraints; the failures depend on the keyword and on how constraints are nested", "anchors": ["src/tarski/io/_fstrips/reader.py: FStripsReader.read_instance, visitAlternativeAlwaysConstraint, visitConjunctionOfConstraints, visitPlainConstraintList", "utils/parsers/grammars/fstrips.g4: problemMeta, probConstraints, prefConGD, conGD"]}

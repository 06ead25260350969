# Formal model of aig-upf/tarski in Lean 4

This file is the plan; the section *Status* at the end is kept up to date as the model grows.

## Approach

The code is read as text and transcribed function by function into small total Lean functions
(`lean/Verif/*`).  Python exceptions are values (`Except Err`), mutation returns the new value, loops
are folds / structural recursion.  The tie to the code is the citation (file:lines) on each definition.
Specifications (first-order semantics, reachability, shape predicates ...) live in separate small files
which do not use the model's helper functions.  Where the code violates a property the negation is
proved with a concrete witness (`..._refuted`) and the strongest true part is proved as `..._partial`.

## Trusted base

* Lean 4.33.0 kernel, and the axioms `propext`, `Classical.choice`, `Quot.sound` (at most).  No axioms are
  added; no compiled evaluation is trusted.  `AXIOMS.md` (generated by `tools/axioms.py` from the built
  project) lists, for every theorem named in `MANIFEST.json`, exactly the axioms it depends on.
* The faithfulness of the transcription (checked by reading only, the code is not run).
* Python runtime facts assumed: dict/set semantics w.r.t. `__eq__`/`__hash__`, stable `sorted`,
  unbounded ints.  Floats are not modelled.
* Facts about programs outside this repository enter only as explicit hypotheses of theorems
  (e.g. `SolverRunOf`: what clingo/gringo prints is the least model of the program it was given).

## Plan per property

* **C01 Negation normal form preserves meaning** - Model the AST (terms incl. if-then-else, formulas, n-ary connectives, quantified lists) and `_convert`; independent Tarskian semantics over arbitrary domains; induction. The class-object bug (negated T/F) is modelled as an error value; witness + partial.
* **C02 Negation normal form has the right shape and is stable** - Same model; shape predicate IsNNF defined on its own; induction; idempotence.
* **C03 CNF transformation preserves meaning** - Model `_convert`/`distribute` with errors as values; distribute by well-founded recursion on size; equivalence by induction.
* **C04 CNF output is a conjunction of disjunctions of literals** - Shape predicates (IsLiteral, IsClause, IsCNF) and induction.
* **C05 CNF clause list denotes the formula** - Model the mutable (clauses, current_clause) pair as state; prove denotation for conjunctive results, refute for single-clause ones.
* **C06 Absorbing negated builtins preserves meaning** - Model; equivalence for formulas whose and/or are binary, refutation for ternary.
* **C07 Builtin complement is the logical complement** - Finite table proof lifted to every linear order.
* **C08 Prenex transformation preserves meaning** - Model; refutations (wrong connective, quantifier swap, TypeError on clash, dropped conjunct); partial soundness on a stated fragment; `C08_clash_partial` adds formulas where one variable is quantified existentially on one side and universally on the other, so that the renaming with an apostrophe is used.
* **C09 Quantifier elimination preserves meaning** - Model substitution walker, enumerate_groundings, _expand; equivalence by induction for formulas without re-quantification; refutation with shadowing.
* **C10 Quantifier elimination removes exactly the requested quantifiers, or fails loudly** - Same model, result shape and exact error characterisation.
* **C11 land / lor / neg / implies / equiv build the connective they name** - Model constructors; fold lemmas.
* **C12 flatten preserves meaning and flattens** - Model `_flatten`; induction.
* **C13 Substituting constants for variables is re-assignment** - Substitution lemma by mutual induction; refutation under shadowing.
* **C14 Substitution leaves the original untouched and instantiates completely** - Occurrence predicate; induction; list-vs-tuple equality refutation.
* **C15 free_variables returns exactly the free variables** - Model the visitor with its mutable sets; correctness for formulas without re-quantification; refutation (KeyError / wrong result).
* **C16 Syntactic equality is an equivalence consistent with hashing** - Model __eq__ and the hash key as functions; induction.
* **C17 The evaluator computes Tarskian truth** - Executable evaluator with error values vs. relational semantics of ground formulas.
* **C18 A model behaves as a set of atoms plus a finite map** - State machine + refinement to set/map.
* **C19 Names in a language are unique across symbol kinds** - State machine over declarations; invariant.
* **C20 Subtyping is the reflexive-transitive closure of the parent relation** - Model ancestor_sorts bookkeeping; invariant relating to parent chain.
* **C21 A constant belongs to its sort and to every supersort** - Model Sort.extend over closure; invariant.
* **C22 Sort id assignment is a bijection onto intervals** - Sort tree as inductive type; DFS with running counter; induction.
* **C23 SymbolIndex is a bijection between objects and consecutive ids** - State machine, invariant.
* **C24 Successor states: adds win over deletes, everything else persists** - Model progress (stable sort of deletes first, sequential application).
* **C25 Effects are simultaneous: conditions and right-hand sides are read in the state where the action is applied** - Same model: refute for conditional/functional effects in general; partial under non-interference.
* **C26 Static symbols never change** - Model affected symbols and progress; induction over plans.
* **C27 Breadth-first search visits exactly the reachable states** - Loop model with fuel-free well-founded/relational statement; invariants.
* **C28 Delete relaxation is a relaxation** - Monotonicity by induction over plans.
* **C29 Compiling universal effects away preserves successors** - Expansion vs direct semantics.
* **C30 Compiling negated preconditions away yields an equivalent problem** - compile and update passes as state-passing functions; bisimulation invariant (Complementary states) over all plans, via C25; refuted for disjunctions, toggles and add+delete of one atom; negation-freeness of the output for all inputs.
* **C31 Static simplification preserves truth** - Simplifier model with evaluator; induction on formulas for Tarskian truth, for `evaluate`, for effects/actions/plans, and for whole problems; refutations where the code changes meaning (empty sorts, bool preconditions, nested terms in effects, conditions of universal effects, shared language).
* **C32 Existential simplification preserves meaning** - Model of the scan/replace loop with an arbitrary set order; step lemma (one-point rule) lifted along the loop and through the walker; five refutations, partial theorems.
* **C33 STRIPS effect conflicts are detected exactly** - Model the polarity bookkeeping; exactness.
* **C34 transitive_closure computes the transitive closure** - Loop model, fixpoint theorem.
* **C35 compute_min_distance returns shortest-path lengths** - BFS model, shortest path theorem.
* **C36 Description-logic denotations follow the standard semantics** - Denotations over finite universe vs set semantics; composition refuted (break).
* **C37 Feature differences are consistent with feature values** - Case analysis / order lemmas.
* **C38 Acyclicity test agrees with GYO / existence of a join tree** - GYO rewriting model; soundness of the ear removal loop.
* **C39 ASP symbol translation is injective and reversible** - Translator as state machine; refutation of injectivity for mixed names, partial.
* **C40 Naive grounding enumerates exactly the well-typed tuples** - Cartesian product lemmas.
* **C41 Symbolic arithmetic simplification preserves value** - Expression model over a field; structural induction.
* **C42 VariableBinding is a consistent ordered map** - State machine, invariant.
* **C43 Prenex output is in prenex form** - Shape predicate, induction; refuted where the code leaves quantifiers inside, partial.
* **C44 Declarations and subtype queries always return** - Loops take a step bound; termination by a rank on the hierarchy; non-termination proved for all bounds on cyclic re-parenting.
* **C45 Interval sorts** - Integer intervals; exact domain/cast/cardinality; subsort containment refuted (Natural vs Integer; bounds not compared with the parent), partial.
* **C46 Only well-typed ground atoms enter a model** - State machine invariant over MState; refuted for variables (cast of a Variable yields None), partial otherwise.
* **C47 The reachability logic program derives everything the problem can reach** - asp.py compilers modelled function by function over rules with named variables (`Reach.lean`); least model and planning semantics given separately (`ReachSpec.lean`); soundness by induction on formulas (body true whenever the formula is) and on executions; refuted for capitalised object names, variable names equal up to case, interval sorts; converse (exactness w.r.t. the delete relaxation) where existential subformulas are closed.
* **C48 The reachability logic program derives nothing beyond the delete relaxation** - Any set closed under the relaxed problem is extended to a model of the program (auxiliary atoms by a second least fixpoint, supported by the rules that the compiler owns), so the least model is contained in it; conversely the derived atoms are closed. Refuted for existential subformulas with free variables, partial otherwise.
* **C49 The LP grounding strategy grounds completely and exactly** - Model of the parser of the solver's answer (`rstrip`, `split`, `back`) on character lists and of the strategy object; the solver is a hypothesis: its lines are a print-out of the least model. Round trip parse/print by induction on the lines, then C47 and C48. Partial because C47/C48 are.
* **C50 Calls on an LP grounding strategy are independent of the history** - Histories are lists of calls folded over the strategy state. Refuted: the model is stored before the goal test, so the exception is raised once only; and schema groundings are looked up without the `action_` prefix. Partial: any history when the goal is reachable in the relaxation.
* **C51 Formulas survive the PDDL writer and reader** - Texts are character lists. The lexer is an explicit longest-match automaton, the parser groups parentheses, the visitor is a recursive function on parse trees (PddlText, PddlRead); the writer prints character by character (PddlWrite). Lemmas about texts followed by a delimiter compose; semantics by induction with the scope of the parser as invariant. Partial: the formulas expressible in PDDL (`OkF`). Refuted for: contradiction without arithmetic, rebound variables, numbers as predicate arguments, upper-case and reserved names, variables of arithmetic sorts, whole reals, and (silently wrong) variables that differ in case only.
* **C52 Actions survive the PDDL writer and reader** - As C51 for effects and actions (PddlEff); the meaning of effects is a separate definition (`Demands`: the changes demanded under an assignment). Partial: actions expressible in PDDL (`OkAction`). Refuted for: universal effects with a condition, effects on builtin atoms, real-valued costs (as the reader itself builds them), and (silently wrong) parameters that differ in case only.
* **C53 Initial states survive the PDDL writer and reader** - `print_init` and `visitInit` (PddlInit) on top of the text layer of C51 and the state model of C18; the statement compares `holds`/`value` of the state before and after, for every history of updates. Partial: constants whose names PDDL can carry, whole numbers, arguments of functions of exactly the declared sort. Refuted for: function arguments of a proper subsort (TypeError in the reader), numbers of a subsort (silently another constant), upper-case objects.
* **C54 Domain files survive the PDDL writer and reader** - the templates and every section of the domain file (PddlDecl), read back token by token through the lexer and tree grouping of C51; `requirements` is given to the writer in an arbitrary order, because the code iterates over a set. Partial (`OkDomain`): lower-case identifiers, intervals of integers, objects of sorts without bounds, no derived predicates. Refuted for: functions into `Integer`/`Real`, a sort called `number` or `real`, sorts below `Natural`, unbounded or nested numeric sorts, upper case, names that differ in case only, constants of intervals, derived predicates.
* **C55 Whole problems survive the PDDL writer and reader** - both files, on top of C51-C54; `:bounds` narrows the intervals after everything else is read, so the facts of the initial state are read with wide intervals (PddlDeclWide). Partial (`OkProblem`). Refuted for: no goal, intervals of reals, and the reader accepts initial values outside of the declared bounds.
* **C56 Projecting away effect-free parameters keeps the transitions** - Project.lean models the four functions; an order parameter stands for the set iteration; transitions are defined in ProjectSpec.lean from Tarskian truth and the demanded changes of C52. Partial: refuted when nothing can be projected (empty quantifier raises), when a parameter occurs only in a condition, only in the cost, or only below an if-then-else.
* **C57 Queries about the nodes of an expression are exact** - Nodes.lean models the walker as a function that returns the visited nodes and what becomes of the expression; occurrence is an inductive relation of its own.
* **C58 Queries leave the expression as it is** - same model: the walker replaces containers in place. Partial: meaning and hash are kept, equality iff no tuples; refuted for `land`.
* **C59 Literals of a conjunction are collected exactly** - Classify.lean; inductive `ConjOf`, `Conjunct`; induction on the formula.
* **C60 STRIPS checks accept exactly the STRIPS formulas, operators and problems** - on `flatten` of C12 and the effect sets of C33. Partial: disjunctions, negations and truth are misclassified (refuted).
* **C61 Functions identified as cost-related do not influence plans** - Symbols.lean on the node walker of C57; exactness from C57, non-interference by a simulation over plans (agreement on the symbols read by preconditions and effects, from the frame lemmas of C25/C26).
* **C62 collect_all_symbols returns exactly the symbols a problem uses** - same file and simulation. Partial: universal effects must be unconditional (their conditions are not visited) and literal effects raise; both refuted.
* **C63 The sort of a DL element bounds its denotation** - `DLFactory.lean` (sorts computed by the constructors and the factory) over the denotations of `DL.lean`; mutual induction. Partial: without universal restrictions and equalities over a proper sort and disjunctions of different sorts; each refuted.
* **C64 Elements pruned by the DL factory are redundant** - same file; the redundancy is semantic (all states respecting the sorts). Partial: for arguments whose sort is right (C63); disjunctions of unrelated sorts raise (refuted); compositions pruned by the threshold are not redundant; pruned equalities have an equivalent that is not smaller.
* **C65 Grounding an action schema gives its instances** - `ActionGround.lean`; meaning of effects (`Demands`) and transitions as in C52/C56. Substitution lemma for effects. Partial: no re-binding of parameters (refuted); `ground_schema` drops the cost (refuted), sorts of constants are not checked (refuted). Exact conditions for returning and for each exception.
* **C66 Different instances have different names** - injectivity of the construction of the names. Partial: no `(` in action names, no commas in constants (refuted otherwise).
* **C67 The CSP of an action schema has its applicable instances as solutions** - `CspSchema.lean` models `compile_expression` and `variable` on the simplified precondition; the meaning of constraints is specified over states whose objects are their ids (C22). Partial: conjunctions of literals over variables and constants with different names; refuted for disjunctions, name clashes and nested terms. Not modelled: the transformation and simplification before the compilation (C08, C31) and the serialisation to files.
* **C68** `TermFluency.lean`: the three visitor modes on formulas, terms and temporal constraints, `get_symbols` of the three problem classes, and the loop of `process_symbols` with the shared sets (including that later additions to the static set are lost). `C68_exact` is by an invariant over the rounds (sound, duplicate-free) and closure at the fixpoint, against the inductive specification `FluentIn`; `C68_returns` by a measure; semantic consequences `C68_changes_partial`; refuted for universal effects, for static terms that differ in the names of variables, and for variates of differential constraints.
* **C69** `create_all_possible_state_variables` and `StateVariable.ground`; `C69_positions` (all terms), `C69_index_partial` and `C69_ground_partial` (no repeated variables), refuted otherwise; `C69_complete_partial` composes C68 and C69.
* **C70** model `sas/util.py` (`Sas.lean`) on top of substitution (C13) and the evaluator (C17); prove that members of the result are exactly the instances whose constraints are true (`Sat`), no duplicates, exact exceptions.
* **C71** model `ground_temporal_action` with the set iteration order as a parameter; prove the instances exact and their content independent of the order (`List.Perm`), refute independence of names/arguments, and that later domains count.
* **C72** model the writer character by character (`SasWriter.lean`); separate specification of the layout (`FdDoc`, `fdLines`); prove that the text is the layout of a document that describes the task, injectivity of the layout; refute conformance to format 4 (goal count, initial state, old values of effects) and use of `unit_costs`.
* **C73** Theories.lean models load_theory as a list of statements (declaration by name, operator handler, builtin symbol) over the language model of Language.lean; invariant: builtin symbols and handlers are those of the loaded theories; the sort checks use C20. The unary handlers are refuted.
* **C74** Theories.lean; the declarations of a loader are analysed as a chain of entries (success iff all names are free); fresh languages are described by an explicit vocabulary that depends on the set of theories only; atomicity refuted with a user sort called Integer.
* **C75** GroundAtoms.lean models simplifications.py; the specification lists the conjuncts of a formula and the tuple of an atom; induction on the formula.
* **C76** Bench.lean; the random generator is an arbitrary permutation and an arbitrary sequence of numbers; invariant of the loop: built from the table up; completeness by ordering a configuration by height.
* **C77** Bench.lean and Effects.lean; states of the blocks world are positions of blocks, simulation of each action; plans by unstacking everything to the table and building the goal bottom-up.
* **C78** Bench.lean; the standard semantics of effects is that of PddlEffSpec.lean over arbitrary interpretations, the library's is progress; both are compared with moving one block.
* **C79** Bench.lean; as C78; reachability in the world of counters by induction on the number of increments.
* **C80** PddlTypes.lean models the type/object part of `InstanceModel` on top of the language model (Language.lean). An invariant (hierarchy invariant, acyclic history of parents with a rank, `object` on top) is kept by each `sort` and each `set_parent` that returns; acceptance is proved as an iff with a small specification (`SectionOK`), the hierarchy by comparing the history of parents with the stated pairs, domains by `extend_spec`. Refuted parts by concrete sections; non-termination by the cycle lemma of C44.
* **C81** ConstraintGround.lean composes the models of quantifier elimination, all_variables, substitution, absorption, CNF and SymbolIndex as the grounder does; the order of the set is a parameter. Universal constraints (`UC`) are closed under each step; the free variables are kept by quantifier elimination; tuples are matched with assignments through `quantBlock`. Existential constraints, flat connectives and repeated instances are refuted by concrete constraints.
* **C82** Aggregate.lean; the specification is the nested sum, one variable after the other (`sumOver`); the loop over itertools.product is related to it by induction on the variables, the values by the substitution lemma; `dispatch_operator` is used as C73 describes it. AggregateCompoundTerm is modelled as a record only (the evaluator raises UnboundLocalError on it: `arguments` is not set, simple.py:106-112; not modelled).
* **C83** `ModelText.lean` models `as_atoms` (with the checks of the atom and term constructors), `list_all_extensions`, `__str__`, `__eq__`. Proved for every history: exactness and no duplicates of `as_atoms`, rebuilding in any order, exactness of the table of extensions, equality of agreeing models. The converse is proved for legible names that print differently (`C83_equal_partial`) and refuted in general (`C83_equal_refuted`): constants of the same name and different sorts, or names with commas, make different models compare equal. Python sets have no order: the lists of the model are one of the possible orders, and no theorem depends on it (the text is sorted).
* **C84** instantiates the search of C27 with the actual equality of models. `C84_key`: texts of reachable states agree exactly if the states agree on every query; `C84_search`, `C84_finite_partial`: termination, exactness and goal counting in terms of plans, for problems whose atoms print differently. `C84_refuted`: in general the search can exhaust the state space and miss a goal reached by one operator.
* **C85** Registries.lean: the five tables as one state machine, the constructors' checks as functions to `Except`. The first-come-first-served tables are shown to refine one generic fold over the history; lookup, listing, refusal and frame theorems by induction over the history. The table of differential constraints looks its names up among the reactions: refuted with a witness, and what it does instead (last accepted definition wins) is proved exactly by induction on the history from the right.
* **C86** HybridGround.lean: the three loops with their failures as values; shown equal to one generic loop, whose result is a bijection with the pairs (schema, tuple of constants) (`OneForEach`), and whose elements are instances by the substitution lemmas of C05/C65. Hypotheses on the schemas are discharged for every history of C85 (`C86_schemas`).
* **C87** Costs.lean: the predicates on the cost term. Spec: a plan is a list of (action, interpretation, assignment), its cost the sum of the values of the cost terms in the semantics of Semantics.lean; induction on the plan. `C87_both_refuted`: an action without a cost is reported both as unit- and zero-cost.
* **C88** SasJson.lean: `dump` up to the JSON value; the JSON library that prints it is not modelled. Spec: an independent reader that follows indices (`readTrans`, `readPair`). Proved for tasks whose variables have codomain `object` and plain objects (`C88_reads_partial`); the full statement (`C88_full`) is refuted three ways: integer variables are declared of type object, transitions of variables of a proper subsort are dropped, an integer among the objects shifts the table.
* **C89** Ndl.lean: `Action.__init__` as two loops with failures as values; induction over requirements and effects. `C89_max_time_partial` characterises what the attribute computes; it is the end time only when requests start at once (`C89_max_time_immediate`), in general not (`C89_max_time_refuted`). `C89_effect_time` gives the last delay for a repeated effect (`C89_effect_time_refuted`).
* **C90** `translate_expression` (Rddl.lean) on the parser's expression trees; an independent semantics of RDDL (`mean` in Props/Rddl.lean) with environments by variable *name*; theorem by induction on the tree, using the substitution lemma for sums. Refuted in full: variables of strict subtypes are not bound, several variables in one aggregation, and many legal expressions raise.
* **C91** `Writer.rewrite` and `get_fluent` (RddlWriter.lean) produce texts; an independent lexer and precedence parser of RDDL expressions (`ReadAs` in Props/RddlWriter.lean, proved deterministic) reads them. Theorem by induction on the expression: the text is read as the tree with the same structure, hence writing is injective. Refuted in full: negations are written with a Python list, only two operands of conjunctions and sums are written, bound variables get two `?`, if-then-else as first operand has no parentheses, `**` and `%`, unary minus.
* **C92** (Ply.lean, Props/Ply.lean): the bodies of the PLY rules for conditions, run on derivation trees with the dictionary of the variables in scope; the specification is the truth of PDDL conditions over an arbitrary domain. `C92_meaning` and `C92_scope` by mutual induction on the conditions for all scopes; `C92_accepts_partial` for legal conditions without redeclared variables, explicit `object` and unary minus, each of which is refuted (`C92_shadow_refuted`, `C92_object_refuted`, `C92_minus_refuted`, `C92_constant_refuted`). Which derivation the LALR automaton finds is not modelled.
* **C93** (PlyActions.lean, Props/PlyActions.lean): the rules for effects and actions; specification: the updates of PDDL effects over an arbitrary domain. `C93_action_partial` (everything that is accepted, without scale-down and equalities), `C93_accepts_partial`; refutations `C93_scale_down_refuted`, `C93_conditional_refuted`, `C93_equality_refuted`, `C93_illtyped_refuted`.
* **C94** (PlyActions.lean, Props/PlyDurative.lean): the rules for durative actions, with the dictionaries and (nested) lists that they pass on, and the loops that sort them by time. `C94_durative_partial`, `C94_accepts_partial`; refutations `C94_conjunction_refuted`, `C94_empty_refuted`, `C94_nested_refuted`, `C94_unbounded_refuted`. Preferences are not modelled.
* **C95** (PlyActions.lean, Props/PlyProblem.lean): derived predicates, initial states, metrics and sequences of definitions over the shared dictionary of variables. `C95_sequence`, `C95_sequence_accepts`, `C95_derived`, `C95_derived_accepts_partial`, `C95_init_partial`, `C95_metric_partial`; refutations `C95_arity_refuted`, `C95_head_refuted`, `C95_negation_refuted`, `C95_symbol_refuted`, `C95_metric_refuted`.
* **C96** (PlyLex.lean, Props/PlyLex.lean): the rules of the lexer in PLY's order, as one step on a text. Specification: `Lexeme` (what is written and its token), `Laid` (layouts) and `Scanned` (any text, cut into pieces). `C96_reads`, `C96_sound`, `C96_line_after`, `C96_words_distinct`, `C96_no_dt`, `C96_var_case`, `C96_case_partial`, `C96_file_lines_partial`; refutations `C96_case_refuted`, `C96_file_lines_refuted`.
* **C97** PlyDomain.lean models requirements, the sections of declarations and whole domains of the PLY reader on top of PddlTypes.lean, Language.lean and PlyActions.lean; proved by an invariant (types, sorts, history of parents) over sections, with acceptance as an iff against the independent `BodyOK`; refuted: membership of objects in supertypes declared later, and independence of the order of sections.
* **C98** (RddlModel.lean, Props/RddlModel.lean): models rddl.py:210-324 on the object that pyrddl returns: types, objects, variables, parameters, initial state. Proved by an invariant on the language (`RDone`) through the three loops, then by induction on the entries. Refuted: overloading by arity, last entry for Boolean fluents, default values; `_partial` versions give what holds.
* **C99** Model `RddlSections.lean`: the writer's state, each `get_*` method, the template and `write_model`. Spec: a parser of RDDL files over the tokens of C91 (`pFile`, `FileAs`), the file that a task should give (`fileOf`) and what it is to be legal (`TaskOK`, `RoundOK`). Proved: the text of every legal task is parsed back to `fileOf` (`C99_read_back_partial`) and the reader of C98 applied to it gives the task's sorts, objects, fluents and initial state (`C99_round_trip_partial`). Refuted in full, with the causes listed in the property.
* **C100** Model `AtomText.lean` (`parse_atom`, `parse_model`, `serialize_atom`, `str` of atoms, `lang.get` and the calls of symbols). Spec: `AtomWritten` (layouts), `IsAtom` (atoms of the language). Proved: `C100_read_partial`/`C100_text_partial` (n ≥ 1 arguments), `C100_serialized` (all atoms), `C100_serialize_inj`, `C100_sound`, `C100_model`. Refuted in full: `C100_nullary_refuted`, `C100_text_refuted`, `C100_newline_refuted`.
* **C101** Model `CspFile.lean` (`serialize_schema_csp`: lines printed before an exception stay in the file). Spec: the reader `readCspText` and `ConAs`. Proved: `C101_read_partial`, `C101_schema_partial` (from the precondition to the file, with C67's compiler). Refuted in full: `C101_refuted` (by `C101_relevant_refuted`), `C101_none_refuted`, `C101_nested_refuted`.
* **C102** Model `MatrixTerms.lean` (`Matrix`, evaluation of matrix terms over an abstract type of floats, `transpose` on a heap of objects with arrays and views). Spec: Mathlib's `Matrix` (product, transposed) through `realMat`, `MeansMatrix`, `Unfolds`. Proved: `C102_product_rounded`, `C102_product`, `C102_product_dims`, `C102_literal`, `C102_entries`, `C102_number`, `C102_number_left_partial`, `C102_equal`, `C102_transpose_partial` (terms without sharing). Refuted in full: `C102_sum_refuted`, `C102_integer_refuted`, `C102_entry_refuted`, `C102_number_left_refuted`, `C102_hash_refuted`, `C102_shared_refuted`, `C102_argument_refuted`, `C102_failed_refuted`, `C102_scalar_refuted`, `C102_view_refuted`. Not modelled: matrices as entries of matrices, arrays without rows, numpy itself.
* **C103** Model (`LangCopy.lean`): a heap of sort objects, each with the language it was made for, and one record of dictionaries per language; `copy` duplicates the record and keeps the references, as `Sort.__deepcopy__` does. Proof: a frame lemma for every call with an arbitrary set of sort objects that is closed under "mentioned by the language of", then invariants over all histories. (1) and (2) are proved; (3) is refuted: copy and original share their sorts for good, a constant declared in the copy enters the domain of the original and breaks its iteration, no sort below an inherited sort and no predicate or function over one can be declared in the copy.
* **C104** Model (`SchemaGraph.lean`): the recursive collection of hyperedges, `sorted`, `combinations`. Specification: an inductive definition of conjunctive queries and of the atoms in a formula. Proof by mutual induction over formulas, composed with C38 for the acyclicity test. Refuted parts: a schema without precondition (`top`) is rejected; the first character of a variable's symbol is dropped whatever it is, so `?x` and `!x` become one node.
* **C105** DLEq.lean models objects with an identity (what `object.__hash__` gives), `int_to_bytes` and `consistent_hash` byte by byte over an arbitrary digest function, and the `__eq__` methods. Equality is proved to be an equivalence that respects hashes and syntax. Completeness and total construction are false of the code: composite elements are equal only when built from the very same component objects, and the constructors raise OverflowError for components at addresses whose bit length is a multiple of 8. Both are refuted, and what holds is proved exactly. C64 takes the value of `c1 == c2` as a parameter that implies the same syntax.
* **C106** AspCosts.lean models the rules `cost(action(…), v) :- …` and the facts for cost functions; the specification gives the derived instances over arbitrary true ground atoms and what an instance costs. Freshness by injectivity of `_var` and a counting argument. The full statement is false: a fractional constant cost is truncated (`int(5/2)`), refuted; proved for whole costs and cost functions.
* **C107** (visitors): the four traversals are modelled over the syntax trees (`Visitors.lean`), with the counter/set threaded through; the specification counts occurrences by structural recursion. `MatchExpression` does not descend into a match; that no occurrence is lost is proved by a size argument. Refuted parts: variables/constants are never found and nothing below if-then-else; `CollectVariables` raises TypeError (terms are unhashable); `CollectEqualityAtoms` ignores quantified subformulas.
* **C108** (vector effects): the well-formedness checks are modelled over the attribute `shape` (`VecEffects.lean`), with out-of-range dimensions as IndexError; exact characterizations of what is accepted. Refuted: `VectorisedEffect` tests for *equal* shapes with the wrong sign, so that it refuses all proper effects; `LinearEffect` refuses every proper effect with two or more components and accepts ill-shaped ones.
* **C109** (DL primitives): the vocabulary is a dictionary built from three comprehensions, the generation a loop with three accumulators and constructors that may fail (`DLPrims.lean`); proved by computing the loop as three flat maps, then membership and uniqueness.
* **C110** (text of logic programs): printing functions over character lists (`AspText.lean`); unique readability is proved by showing that a printed atom, argument list, body and rule can be split off the front of any text in one way only. Refuted: for names with commas or spaces the texts collide (only hyphens are sanitized), and `parse_model(content="")` raises ArgumentError.
* **C111** (files): the file system is a partial map from names to entries, the solver an arbitrary function from the theory to a return code and outputs, temporary names are fresh (`Files.lean`). Frame theorem for all outcomes; clean-up proved for a silent success, refuted otherwise: a warning leaves the error log behind, a failure all three files.
* **C112** Model: `LangQueries.lean` extends the languages of `Language.lean` with the insertion order of dictionaries, interval bounds and builtin flags; listings, vocabulary, dump, counts, children, closest builtin sort, check_well_formed. Proof: invariant that each key list enumerates its dictionary, per-call theorems (declare, remove, fail, silent), C21 for domains, rank of the hierarchy for termination. The order of python sets is not modelled; interval bounds are integers.
* **C113** The lexer of PddlText.lean with the lookahead lowercased and the token text kept (PddlCase.lean), then the visitor of PddlRead/PddlEff/PddlInit/PddlDecl. Proof: a simulation of the lexer on lowercased texts, and invariance of every reading function under lowercasing the tokens of its tree (PddlCaseLemmas, PddlCaseRead, PddlCaseEff, PddlCaseFile). Texts are ASCII as far as letters are concerned. Partial because the full statement is refuted by the code (names kept, strings, reserved words).
* **C114** `NumTerms.lean` models numeric terms with sorts and bounds, casts of Python numbers, the operators of `Term` (also with a number at the left), the special functions, the table of evaluators and `funcsym.impl`, over an abstract type of floating point numbers; `Props/NumTerms.lean` proves values, comparisons and definedness over exact numbers (`ExactMath`: a linearly ordered field, no rounding) by induction on terms. Refuted: min/max/abs/sgn of integers cannot be evaluated (numpy's integers have no sort), numbers are cast to the sort of the other operand (`x < 0.5` raises for an Integer x), `2 ** x`, min/max of two numbers recurse for ever, terms with raw numbers cannot be hashed. Random draws are not modelled.
* **C115** Temporal.lean: `TF` (formulas with X F G U R), constructors, substitution, quantifier elimination, NNF and evaluator on them; specification: LTL truth `SatL` over infinite sequences of interpretations. Quantifier elimination proved to preserve LTL truth by the substitution lemma for rigid names; NNF raises iff a temporal connective occurs; refuted: `W` always raises LanguageError, and re-bound variables (as in C09). Not modelled: temporal formulas inside if-then-else conditions, printing.
* **C116** (Props/ExprText): the texts are modelled as lists of characters (ExprText.lean). Unique readability is proved by showing that texts followed by a delimiter split in one way, by induction on the size of the expression (terms and formulas together), then for effects and actions. Refuted without the assumptions: sorts of variables, a number and its numeral, commas in names, and the cost of an action are not told apart.
* **C117** (Props/Pipeline): composes C48/C49 (the program is exact), C66 (operators from groundings), C24 (progression) and C84 (search). The specification is the textbook transition relation on lifted action instances (`LiftedRun`); a simulation between models and sets of atoms is kept (`Tracks`), in both directions: plans are executed by the operators of the instances (which are found because their preconditions hold in reachable states) and every operator is an instance. The ASP solver is an assumption (`SolverRunOf`: its lines print exactly the derivable facts).
* **C118** (Props/RegText): texts as lists of characters (RegText.lean), on top of the unique readability of expressions (C116). Refuted: sorts are not part of ident(), parameters are not part of str() except for derived predicates, and dump() always raises AttributeError (expressions have no dump, sensors no effects).
* **C119** (TaskInput.lean, Props/TaskPlan.lean) composes the PDDL reader's problems (`PProblem`) with C117: `lpInputOf` models what asp.py reads of a problem (`lang.constants()`, `lang.sorts`, `parent`, `s.domain()`, `init.as_atoms()`, actions, goal); from conditions that can be checked on the problem itself (`StripsProblem`) we derive well-formedness and tightness of the logic program, the agreement of `is_subtype` with the rules for types, and that names are told apart when printed. The example starts from the texts of two PDDL files. The solver is external: its answer is assumed to list the derivable facts.
* **C120** (NaivePlan.lean, Props/NaivePlan.lean): the two calls a user makes to ground with the naive strategy are composed (naiveOps); the theorem about the search (search_ops of C117) is stated for any list of operators that contains the applicable instances and only instances, and applied to both lists; the expanded states are compared as sets of true atoms with depths (a permutation of the two lists). The solver is assumed correct as in C49.
* **C121** `Verif/PddlWell.lean`, `Verif/Props/PddlWell.lean`: the whole reader of C52-C57 (lexer, grouping, declarations, terms, formulas, effects, actions, initial state, metric, bounds) is shown to keep an invariant `WellDeclared` of the language and to make scoped expressions; what was read stays well formed when the language grows (`Later`) and when bounds change (`rebound`). Proof by structural induction over the grouped tokens. Not modelled: what DESIGN excludes of the reader (`strict_with_requirements=False`, ANTLR error recovery, events, constraints).
* **C122** `Verif/Props/PddlPlan.lean`: C121 is composed with C119. From the invariants of C121 and a syntactic condition on the parsed problem (`PlainProblem`) all hypotheses of C119 (`StripsProblem`) follow, for every pair of files; the example of two files meets them. Assumption, as in C117 and C119: the external solver returns a least model (`SolverRunOf`).
* **C123** `Verif/Props/PddlAgain.lean`: C121 (what was read is well formed: names are identifiers in lower case, declared before use, scoped) gives the hypotheses `OkProblem` of the round trip C55 for every pair of files in a syntactic class (`AgainProblem`); the theorem composes both. `C123_read_write_read_refuted` shows that the condition on reserved words is needed (names are changed to lower case after lexing). Not covered: functions, numbers, costs, metrics and intervals in the files (C55 covers them for problems that meet its conditions).
* **C124 Access to the elements of a language by name** - Model `get` with one or several names and the attribute lookup of the namespace accessor (own attributes first, then `__getattr__`) over the reachable languages of C19; characterise results and errors by what is declared. The namespace clause is refuted by a symbol called `lang`; partial for the other names.
* **C125 The nodes of breadth-first search record shortest plans** - Model the loop with nodes that keep parent and action; simulation with the loop of C27 (nodes reduced to depth), invariant that every node records a path, optimality from the level order of C27; composed with the model of ground planning problems.
* **C126 Plans recorded by the search for PDDL problems** - Composition of C122 (what the reader returns is a STRIPS task), grounding by a logic program (C119) or naively (C120), and the nodes of C125: operators recorded by a node are instances of the actions, runs of ground operators are runs of the lifted problem, and the level order gives optimality.
* **C127 Texts of temporal requests and effects** - Model `__str__` of the classes of ndl/temporal.py over the texts of C116, failures as values; unique readability by induction on the expression, on top of that of terms and formulas. Refuted: the level of a request is not printed and a universal effect raises AttributeError; what holds: the text determines the expression up to the difference between lock and level (`C127_text`), and fully without levels.
* **C128 State variables of the naive grounding strategy record all that can change** - Model the constructor with `ignore_symbols` and `ground_state_variables` on problems as read (C122); index exactness from C40, induction over runs: atoms change only through effects of some action, and added atoms have arguments of the declared sorts.
* **C129** Model (`StateVarLite.lean`): the shape test on expressions, construction, equality, `from_atom` and `to_atom` with the checks of arity and sorts. Specification: atoms and terms over constants, declared symbols, constants of subsorts. Proof: case analysis, induction over argument lists, and the loop invariant of grounding (C40). Not modelled: state variables of builtin predicates, aggregate terms.
* **C130** Model (`Timing.lean`): the context manager as a function of the output and outcome of the block, the text of the timer, floats abstract. Without `psutil` the text of the timer raises TypeError (`'-'` is formatted with `%.2f`), so that every block that returns ends with an exception: refuted; proved: the claim when memory can be read, and transparency for exceptions.
* **C131** No new model. Specification: `PlanTo` over `LiftedRun` (C117). Proof: `SameProblem` (C55) gives, for each action and assignment, an instance with the same name, applicability and changes (effects compared by mutual induction: `Causes` of C47 against `Demands` of C52), so that runs transfer both ways; composed with C55 and C123. Function symbols have no meaning in these runs, so the claim is of interest for problems without them.
* **C132** (elements of a counters problem). `countersElements` on top of `countersProblem` (C79), with the sort by name that the code uses. That the result is the problem, its language, the two functions and a permutation of the counters, in the order of the goal, holds for all n > 0 (and n = 0 is an error) (`C132_elements`). The order by numbers holds for n ≤ 9 (`C132_order_partial`) and fails for every n ≥ 10, where `c10` comes before `c2` (`C132_order_refuted`).
* **C133** (constraints on trajectories). `PddlCons.lean` models the sections after the goal with the visits of `prefConGD` and `conGD`, including those of ANTLR's default visitor, which return the result for the last child. Exactly which sections are read is proved (`C133_read`: conjunctions of formulas without keywords, single preferences, and one of these below quantifiers), and that files without constraints are read as by the reader of the other claims (`C133_other`). The property fails: a constraint with a keyword raises TypeError (`C133_keyword_refuted`), and the constraints that are read are forgotten (`C133_forgotten_refuted`, `C133_removed_refuted`, `C133_refuted`). The parse tree of the constraints is given, not their text.

## Status

All properties C01-C123 have theorems in `lean/Verif/Props/`; which theorems, and whether the full English
statement is proved, is recorded in `MANIFEST.json`.  Every property with status `partial` is partial for the
same reason: the code violates the full statement.  For these the full statement is refuted by a theorem
`..._refuted` with a concrete witness, and the theorem `..._partial` says on which inputs it does hold.

### What is modelled

Every definition cites the file and lines it transcribes.

| part of `src/tarski` | Lean modules |
| --- | --- |
| `syntax/` (terms, formulas, sorts, symbols, builtins, temporal, visitors, walkers, ops, algorithms, factory, transform/*) | `Syntax`, `Shapes`, `NNF`, `CNF`, `Prenex`, `QE`, `Simplify*`, `ExSimp`, `Subst`, `FreeVars`, `Flatten`, `Equality`, `Builtins`, `SortIds`, `Visitors`, `Nodes`, `TermFluency`, `Arith*`, `Aggregate`, `MatrixTerms` |
| `fol.py`, `theories.py`, `model.py`, `evaluators/`, `fstrips/` (language, problem, action, representation, hybrid, errors as constructors) | `Language*`, `LangCopy`, `LangQueries`, `Theories`, `Registries`, `Symbols`, `Model*`, `Evaluator`, `Effects*`, `CompileNeg*`, `SchemaGraph`, `Project` |
| `grounding/` (naive, lp, common), `reachability/`, `analysis/`, `utils/algorithms.py`, `utils/helpers.py`, `utils/resources.py` (not the timers) | `Grounding`, `ActionGround`, `LPGround*`, `Asp*`, `Reach*`, `Csp*`, `ConstraintGround`, `HybridGround`, `GroundAtoms`, `TaskInput`, `Pipeline`, `NaivePlan`, `Relaxation`, `Algorithms` |
| `search/` | `Search` |
| `dl/`, `sas/`, `ndl/`, `rddl/`, `benchmarks/` | `DL`, `Sas*`, `Ndl`, `Rddl*`, `Bench` |
| `io/` (FSTRIPS reader and writer, PDDL text, PLY lexer and productions, RDDL writer, Files) | `Pddl*`, `Ply*`, `RegText`, `AtomText`, `ExprText`, `ModelText`, `Files` |

### What is not modelled

* The ANTLR-generated lexer/parser/visitor classes (`io/_fstrips/parser/{lexer,parser,visitor,listener}.py`):
  token grouping and the grammar rules used by the reader are written by hand in `PddlText`/`PddlRead`; ANTLR's error
  recovery is not modelled (a syntax error is an error value).  Not covered in PDDL texts: `#t`, `(total-time)`, fractional numbers and
  exponents, events, constraints, composite metrics, the lower-casing of non-ASCII letters, and the
  `strict_with_requirements=False` variant.
* The generated LALR tables of PLY, the `p_error` recovery of `io/pddl`, and its preference productions.
* `pyrddl` (external), clingo/gringo processes, temporary files, the operating system.
* The wall-clock and memory readings of `utils/resources.py`, numpy random draws, floating-point arithmetic.
* `modules.py` (import helpers), `version.py`, `errors.py` files (exceptions appear as constructors of `Err`).

### Testing the theorems

`seeded/LOG.jsonl` has one line per wrong program tried: the definition edited, the edit, the claim it
breaks, the theorems that failed, and the theorems that were tightened when none did.

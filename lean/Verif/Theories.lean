import Verif.Language
/-! Model of the theories of a first-order language and of the operators that they define on terms.
/repo/src/tarski/theories.py, /repo/src/tarski/syntax/builtins.py, /repo/src/tarski/fol.py (394-413),
/repo/src/tarski/syntax/factory.py (14-38), /repo/src/tarski/fstrips/fstrips.py (285-294).

The builtin symbols are members of an enumeration, not strings (builtins.py:7-50), so that they live beside
the symbols that a user declares by name: `base` is the part of the language keyed by strings (Language.lean),
`bsyms` the part keyed by builtin symbols. -/
namespace Tarski

/-- Models `Theory` (theories.py:15-22). -/
inductive Theory where
  | boolean | equality | arithmetic | special | random
deriving DecidableEq, Repr

/-- Models the call `Theory(theory)` on a string (theories.py:15-22, 46): `none` is the ValueError. -/
def Theory.ofString (s : String) : Option Theory :=
  if s = "boolean" then some .boolean
  else if s = "equality" then some .equality
  else if s = "arithmetic" then some .arithmetic
  else if s = "special" then some .special
  else if s = "random" then some .random
  else none

/-- Models `BuiltinFunctionSymbol` (builtins.py:22-50). -/
inductive BFun where
  | add | sub | mul | matmul | div | pow | mod | min | max | abs | sin | cos | tan | atan | asin | exp | log
  | erf | erfc | sgn | sqrt | normal | gamma | kron | dirac | bernoulli | discrete | poisson
deriving DecidableEq, Repr

/-- A builtin symbol: a member of `BuiltinPredicateSymbol` or of `BuiltinFunctionSymbol` (builtins.py:7-50). -/
inductive BSym where
  | pred (c : Cmp)
  | fn (f : BFun)
deriving DecidableEq, Repr

/-- Keys of the operator table (fol.py:394-398): `(symbol, Term, Term)` or `(symbol, Term)`. -/
inductive OpKey where
  | bin (s : BSym)
  | un (s : BSym)
deriving DecidableEq, Repr

/-- The factory methods `create_atom` and `create_arithmetic_term` (factory.py:14-38). -/
inductive Factory where
  | atom | term
deriving DecidableEq, Repr

/-- A handler made by `create_casting_handler(lang, symbol, factory_method)` (theories.py:135-142). -/
structure Handler where
  sym : BSym
  factory : Factory
deriving DecidableEq, Repr

/-- A language with its theories (fol.py:16-37): declared names, builtin symbols with their sorts, operator
table, set of theories. -/
structure TLang where
  base : Lang
  bsyms : BSym → Option (List String)
  ops : OpKey → Option Handler
  theories : List Theory

/-- Models `FirstOrderLanguage(name)` (fol.py:16-37). -/
def TLang.init : TLang := ⟨Lang.init, fun _ => none, fun _ => none, []⟩

/-- Result of a call: the language afterwards, and the exception raised if any. -/
abbrev TRes := TLang × Option Err

/-- One statement of a theory loader. -/
inductive LoadStep where
  /-- a declaration by name -/
  | decl (op : LOp)
  /-- `lang.register_operator_handler(k, ...)` or `lang.register_unary_operator_handler(k, ...)` -/
  | handler (k : OpKey) (h : Handler)
  /-- `lang.predicate(s, ...)` or `lang.function(s, ...)` with the given sorts -/
  | symbol (s : BSym) (sorts : List String)

/-- One statement of a loader. For `symbol`, the accessors `lang.Real` etc. are evaluated first and raise when the
sort is missing (fol.py:104-122, 156-159); then the name is checked (fol.py:288-295, 315-322). -/
def loadStep (n : Nat) (L : TLang) : LoadStep → Option TRes
  | .decl op =>
    match lstep n L.base op with
    | none => none
    | some (b, e) => some ({ L with base := b }, e)
  | .handler k h => some ({ L with ops := upd L.ops k (some h) }, none)
  | .symbol s sorts =>
    if sorts.any (fun a => (L.base.sorts a).isNone) then some (L, some .undefinedVariable)
    else if (L.bsyms s).isSome then some (L, some .duplicateVariable)
    else some ({ L with bsyms := upd L.bsyms s (some sorts) }, none)

/-- Statements in sequence; the first exception ends the loader. -/
def runSteps (n : Nat) : TLang → List LoadStep → Option TRes
  | L, [] => some (L, none)
  | L, st :: sts =>
    match loadStep n L st with
    | none => none
    | some (L', some e) => some (L', some e)
    | some (L', none) => runSteps n L' sts

/-- Models `attach_arithmetic_sorts` (sorts.py:234-237). -/
def arithmeticSorts : List LoadStep :=
  [.decl (.attachBuiltin "Real" "object"), .decl (.attachBuiltin "Integer" "Real"),
   .decl (.attachBuiltin "Natural" "Integer")]

/-- Registration of a builtin predicate (theories.py:81-83, 98-100). -/
def predSteps (sort : String) (c : Cmp) : List LoadStep :=
  [.handler (.bin (.pred c)) ⟨.pred c, .atom⟩, .symbol (.pred c) [sort, sort]]

/-- Registration of a binary function (theories.py:93-95, 103-105, 115-117, 126-128). -/
def binSteps (f : BFun) : List LoadStep :=
  [.handler (.bin (.fn f)) ⟨.fn f, .term⟩, .symbol (.fn f) ["Real", "Real", "Real"]]

/-- Registration of a unary function (theories.py:108-110, 119-121, 130-132). -/
def unSteps (f : BFun) : List LoadStep :=
  [.handler (.un (.fn f)) ⟨.fn f, .term⟩, .symbol (.fn f) ["Real", "Real"]]

/-- Models `get_equality_predicates` (builtins.py:83-84). -/
def equalityPredicates : List Cmp := [.eq, .ne]

/-- Models `get_arithmetic_predicates` (builtins.py:87-88). -/
def arithmeticPredicates : List Cmp := [.lt, .le, .gt, .ge]

/-- Models `get_arithmetic_binary_functions` (builtins.py:91-99). -/
def arithmeticBinary : List BFun := [.add, .sub, .mul, .div, .pow, .mod]

/-- Models `get_arithmetic_unary_functions` (builtins.py:102-103). -/
def arithmeticUnary : List BFun := [.sqrt]

/-- Models `get_special_binary_functions` (builtins.py:106-108). -/
def specialBinary : List BFun := [.min, .max]

/-- Models `get_special_unary_functions` (builtins.py:111-113). -/
def specialUnary : List BFun := [.abs, .sin, .cos, .tan, .atan, .asin, .exp, .log, .erf, .erfc, .sgn]

/-- Models `get_random_binary_functions` (builtins.py:116-118). -/
def randomBinary : List BFun := [.normal, .gamma]

/-- Models `get_random_unary_functions` (builtins.py:121-123). -/
def randomUnary : List BFun := []

/-- Models the loaders (theories.py:73-132). -/
def loaderSteps : Theory → List LoadStep
  | .boolean => [.decl (.sort "Boolean" "object"), .decl (.constant "True" "Boolean" true),
      .decl (.constant "False" "Boolean" true)]
  | .equality => equalityPredicates.flatMap (predSteps "object")
  | .arithmetic => [.decl (.function "ite" ["object", "object", "object"])] ++ binSteps .matmul ++
      arithmeticPredicates.flatMap (predSteps "Real") ++ arithmeticBinary.flatMap binSteps ++
      arithmeticUnary.flatMap unSteps
  | .special => specialBinary.flatMap binSteps ++ specialUnary.flatMap unSteps
  | .random => randomBinary.flatMap binSteps ++ randomUnary.flatMap unSteps

/-- Models `theories_requiring_arithmetic_sorts` (theories.py:60). -/
def Theory.needsArithmeticSorts : Theory → Bool
  | .arithmetic | .special | .random => true
  | _ => false

/-- The statements that `load_theory` executes after its checks (theories.py:60-64). -/
def theorySteps (L : TLang) (t : Theory) : List LoadStep :=
  (if t.needsArithmeticSorts && (L.base.sorts "Integer").isNone then arithmeticSorts else []) ++ loaderSteps t

/-- Models `load_theory` for a theory object (theories.py:44-65). `Err.language` is DuplicateTheoryDefinition. -/
def loadTheory (n : Nat) (L : TLang) (t : Theory) : Option TRes :=
  if t ∈ L.theories then some (L, some .language)
  else
    match runSteps n L (theorySteps L t) with
    | none => none
    | some (L', some e) => some (L', some e)
    | some (L', none) => some ({ L' with theories := t :: L'.theories }, none)

/-- Models `load_theory` for a string (theories.py:46). -/
def loadTheoryNamed (n : Nat) (L : TLang) (s : String) : Option TRes :=
  match Theory.ofString s with
  | none => some (L, some .value)
  | some t => loadTheory n L t

/-- The loop of `language` (theories.py:40). -/
def loadAll (n : Nat) : TLang → List String → Option TRes
  | L, [] => some (L, none)
  | L, s :: ss =>
    match loadTheoryNamed n L s with
    | none => none
    | some (L', some e) => some (L', some e)
    | some (L', none) => loadAll n L' ss

/-- Models `language(name, theories)` (theories.py:28-41): the language, or the exception. -/
def makeLanguage (n : Nat) (names : List String) : Option (Except Err TLang) :=
  match loadAll n TLang.init names with
  | none => none
  | some (_, some e) => some (.error e)
  | some (L, none) => some (.ok L)

/-- The theories `fstrips.language` loads (fstrips.py:290-291): equality when none are given. The two operators
`<<` and `>>` that it adds (fstrips.py:292-293) are not modelled. -/
def fstripsLanguage (n : Nat) (names : Option (List String)) : Option (Except Err TLang) :=
  makeLanguage n (match names with | none => ["equality"] | some l => l)

/-- Models `has_theory` for a string (theories.py:68-70). -/
def hasTheory (L : TLang) (s : String) : Except Err Bool :=
  match Theory.ofString s with
  | none => .error .value
  | some t => .ok (decide (t ∈ L.theories))

/-! ### Operators on terms -/

/-- An operand: a term `x` and the name of its sort. -/
structure Operand (α : Type) where
  x : α
  sort : String

/-- What an operator builds: an atom or a compound term (factory.py:26, 38). -/
inductive Built (α : Type) where
  | atom (c : Cmp) (args : List α)
  | term (f : BFun) (args : List α)
deriving DecidableEq, Repr

/-- The sort check of the arguments (formulas.py:325-333, terms.py:174-179). The first argument that fails is
reported. -/
def checkArgs {α} (n : Nat) (L : Lang) : List (Operand α) → List String → Option (Option Err)
  | a :: as, s :: ss =>
    match isSubtype n L a.sort s with
    | none => none
    | some (true, _) => checkArgs n L as ss
    | some (false, _) => some (some .sortMismatch)
  | _, _ => some none

/-- Models `create_atom` (factory.py:14-26) and `Atom.__init__` (formulas.py:302-333): the predicate is looked up,
the arity and the sorts of the arguments are checked. -/
def createAtom {α} (n : Nat) (L : TLang) (c : Cmp) (args : List (Operand α)) : Option (Except Err (Built α)) :=
  match L.bsyms (.pred c) with
  | none => some (.error .undefinedVariable)
  | some sorts =>
    if args.length ≠ sorts.length then some (.error .arity)
    else
      match checkArgs n L.base args sorts with
      | none => none
      | some (some e) => some (.error e)
      | some none => some (.ok (.atom c (args.map (·.x))))

/-- Models `create_arithmetic_term` (factory.py:29-38) and `CompoundTerm.__init__` (terms.py:167-185): the last
sort of a function is its codomain. -/
def createTerm {α} (n : Nat) (L : TLang) (f : BFun) (args : List (Operand α)) : Option (Except Err (Built α)) :=
  match L.bsyms (.fn f) with
  | none => some (.error .undefinedVariable)
  | some sorts =>
    if args.length ≠ sorts.length - 1 then some (.error .arity)
    else
      match checkArgs n L.base args sorts.dropLast with
      | none => none
      | some (some e) => some (.error e)
      | some none => some (.ok (.term f (args.map (·.x))))

/-- Models the call of a handler (theories.py:138-140) on terms, which `cast_to_closest_common_numeric_ancestor`
leaves as they are (ops.py:17-18). The handler takes two arguments; called with another number of arguments it
raises TypeError. A factory applied to a symbol of the other kind finds no such symbol. -/
def callHandler {α} (n : Nat) (L : TLang) (h : Handler) : List (Operand α) → Option (Except Err (Built α))
  | [lhs, rhs] =>
    match h.factory, h.sym with
    | .atom, .pred c => createAtom n L c [lhs, rhs]
    | .term, .fn f => createTerm n L f [lhs, rhs]
    | _, _ => some (.error .undefinedVariable)
  | _ => some (.error .typeError)

/-- Models `dispatch_operator` with `Term, Term` (fol.py:406-413). -/
def dispatchOp {α} (n : Nat) (L : TLang) (s : BSym) (lhs rhs : Operand α) : Option (Except Err (Built α)) :=
  match L.ops (.bin s) with
  | none => some (.error .language)
  | some h => callHandler n L h [lhs, rhs]

/-- Models `dispatch_unary_operator` with `Term` (fol.py:400-404). -/
def dispatchUnary {α} (n : Nat) (L : TLang) (s : BSym) (x : Operand α) : Option (Except Err (Built α)) :=
  match L.ops (.un s) with
  | none => some (.error .language)
  | some h => callHandler n L h [x]

/-- Models the functions of special.py (4-78) and random.py (5-26) on terms: the function is looked up in the
language and applied. -/
def applyBuiltin {α} (n : Nat) (L : TLang) (f : BFun) (args : List (Operand α)) : Option (Except Err (Built α)) :=
  createTerm n L f args

/-! ### Histories -/

/-- Calls on a language with theories. -/
inductive TOp where
  | decl (op : LOp)
  | load (t : Theory)
  | loadNamed (s : String)

/-- One call. -/
def tstep (n : Nat) (L : TLang) : TOp → Option TRes
  | .decl op => loadStep n L (.decl op)
  | .load t => loadTheory n L t
  | .loadNamed s => loadTheoryNamed n L s

end Tarski

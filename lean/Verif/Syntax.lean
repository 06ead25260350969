/-
Abstract syntax of tarski's first-order language.
Models /repo/src/tarski/syntax/terms.py and /repo/src/tarski/syntax/formulas.py.
-/
namespace Tarski

/-- Names of constants: python strings or integers.
Models the `name` attribute of `Constant` (terms.py:308-314). Floats are not modelled;
`None` arises when `Sort.cast` is given a non-constant term (sorts.py:43-52). -/
inductive Name where
  | str (s : String)
  | int (n : Int)
  | pyNone
deriving DecidableEq, Repr, Inhabited

/-- Builtin comparison symbols; models `BuiltinPredicateSymbol` (builtins.py:7-13). -/
inductive Cmp where
  | eq | ne | lt | le | gt | ge
deriving DecidableEq, Repr, Inhabited

/-- Predicate symbols: a builtin comparison or a user-declared symbol, identified by its name
(predicate.py; names are unique in a language, see fol.py:278-286). -/
inductive PSym where
  | cmp (c : Cmp)
  | user (n : String)
deriving DecidableEq, Repr, Inhabited

/-- Models `Connective` (formulas.py:11-17). -/
inductive Conn where
  | and | or | not
deriving DecidableEq, Repr, Inhabited

/-- Models `Quantifier` (formulas.py:20-27). -/
inductive Quant where
  | exists | forall
deriving DecidableEq, Repr, Inhabited

/-- A logical variable is identified by its symbol and the name of its sort
(terms.py:135-158: `is_syntactically_equal` and `hash` use exactly this pair). -/
structure Var where
  sym : String
  sort : String
deriving DecidableEq, Repr, Inhabited

/-- Python container holding the subformulas of a compound formula.
`CompoundFormula.__eq__` (formulas.py:124-129) compares the containers with `==`,
and in python a tuple is never equal to a list, so the kind is observable. -/
inductive Kind where
  | tuple | list
deriving DecidableEq, Repr, Inhabited

mutual
/-- Terms: models `Variable`, `Constant`, `CompoundTerm`, `IfThenElse` (terms.py:135-345).
Sorts are represented by their names; function symbols by their names.
Not modelled: `AggregateCompoundTerm`, the language object each term points to. -/
inductive Term where
  | var (v : Var)
  | const (n : Name) (sort : String)
  | app (f : String) (args : List Term)
  | ite (c : Formula) (t e : Term)

/-- Formulas: models `Tautology`, `Contradiction`, `Atom`, `CompoundFormula`,
`QuantifiedFormula` (formulas.py:69-167, 299-348).
`comp` keeps the container kind of `subformulas`; `quant` keeps a list of *terms* as the
constructor does not check that they are variables (formulas.py:148-150) and the substitution
walker can replace them (walker.py:80-82). -/
inductive Formula where
  | top
  | bot
  | atom (p : PSym) (args : List Term)
  | comp (k : Kind) (c : Conn) (fs : List Formula)
  | quant (q : Quant) (vs : List Term) (f : Formula)
end

instance : Inhabited Term := ⟨.const (.str "") ""⟩
instance : Inhabited Formula := ⟨.top⟩

/-- Errors raised by the modelled functions. -/
inductive Err where
  | language | syntactic | arity | undefinedVariable | duplicateVariable
  | transformation | unableToGround | keyError | typeError | notAFormula | notImplemented
  | undefinedTerm | attribute | value | runtime | representation | index
  | semantic | sortMismatch | languageMismatch | assertion | overflow | zeroDivision
deriving DecidableEq, Repr, Inhabited

/-- Models `CompoundFormula.__init__`/`_check_well_formed` (formulas.py:98-112):
negation takes exactly one subformula, and/or at least two. The check that subformulas are
`Formula` objects is a typing matter here. -/
def mkComp (k : Kind) (c : Conn) (fs : List Formula) : Except Err Formula :=
  match c with
  | .not => if fs.length = 1 then .ok (.comp k c fs) else .error .language
  | _ => if fs.length < 2 then .error .language else .ok (.comp k c fs)

/-- Models `neg` (formulas.py:208-209); the subformulas are a python list. -/
def neg (f : Formula) : Formula := .comp .list .not [f]

/-- Models `_to_binary_tree` (formulas.py:174-179): right-nested binary tree of python tuples.
Defined by recursion from the left, which builds the same right-nested tree as the loop over
`reversed(args[:-2])`. Only called with at least two arguments (assertion in line 175). -/
def toBinaryTree (c : Conn) : List Formula → Formula
  | [] => .top
  | [a] => a
  | [a, b] => .comp .tuple c [a, b]
  | a :: rest => .comp .tuple c [a, toBinaryTree c rest]

/-- Models `_create_compound` (formulas.py:182-187). -/
def createCompound (args : List Formula) (c : Conn) (flat : Bool) : Formula :=
  match args with
  | [a] => a
  | _ => if flat then .comp .tuple c args else toBinaryTree c args

/-- Models `land` (formulas.py:190-196). -/
def land (args : List Formula) (flat : Bool := false) : Formula :=
  if args.isEmpty then .top else createCompound args .and flat

/-- Models `lor` (formulas.py:199-205). -/
def lor (args : List Formula) (flat : Bool := false) : Formula :=
  if args.isEmpty then .bot else createCompound args .or flat

/-- Models `implies` (formulas.py:212-214). -/
def implies (f g : Formula) : Formula := lor [neg f, g]

/-- Models `equiv` (formulas.py:217-219). -/
def equiv (f g : Formula) : Formula := land [implies f g, implies g f]

/-- Models `quantified` (formulas.py:240-257) on arguments `v1 ... vn, f` where the `v_i` are
variables: fails if there is no variable. -/
def quantified (q : Quant) (vs : List Term) (f : Formula) : Except Err Formula :=
  if vs.isEmpty then .error .language
  else if vs.all (fun t => match t with | .var _ => true | _ => false) then .ok (.quant q vs f)
  else .error .language

/-- Models `negate_quantifier` (formulas.py:30-31). -/
def negateQuantifier : Quant → Quant
  | .forall => .exists
  | .exists => .forall

/-- Models `is_and`/`is_or`/`is_neg`/`is_atom` (formulas.py:260-277). -/
def isAnd : Formula → Bool | .comp _ .and _ => true | _ => false
/-- formulas.py:265-267 -/
def isOr : Formula → Bool | .comp _ .or _ => true | _ => false
/-- formulas.py:270-272 -/
def isNeg : Formula → Bool | .comp _ .not _ => true | _ => false
/-- formulas.py:275-277 -/
def isAtom : Formula → Bool | .atom _ _ => true | _ => false
/-- Models `is_eq_atom` (formulas.py:280-282). -/
def isEqAtom : Formula → Bool | .atom (.cmp .eq) _ => true | _ => false

/-- Models `unwrap_conjunction_or_atom` (formulas.py:290-296). -/
def unwrapConjunctionOrAtom : Formula → List Formula
  | .atom p ts => [.atom p ts]
  | .comp _ .and fs => fs
  | _ => []

/-- The variable inside a term, if it is one (`isinstance(t, Variable)`). -/
def Term.asVar : Term → Option Var
  | .var v => some v
  | _ => none

end Tarski

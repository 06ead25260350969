import Verif.StrategyVars
import Verif.CspSchema
import Verif.Visitors
/-! Model of the state variables that grounding records and of the expressions that have their shape: `StateVariableLite`
(/repo/src/tarski/grounding/common.py:18-40) and `has_state_variable_shape` (/repo/src/tarski/fstrips/representation.py:551-557). -/
namespace Tarski

/-- Models `has_state_variable_shape` (representation.py:551-557). Variables, constants, if-then-else terms and the other formulas are instances of
neither class (line 555). -/
def hasStateVarShape : XExpr → Bool
  | .form (.atom _ ts) => ts.all Term.isConstant
  | .term (.app _ ts) => ts.all Term.isConstant
  | _ => false

/-- The attributes of a `StateVariableLite` (common.py:22-23). Simplified: builtin predicates are left out. -/
structure LiteVar where
  symbol : Sym
  binding : List Term
deriving DecidableEq

/-- Models `StateVariableLite.__init__` (common.py:19-23); `.language` stands for `TarskiError`. -/
def mkLiteVar (x : Sym) (ts : List Term) : Except Err LiteVar := if ts.all Term.isConstant then .ok ⟨x, ts⟩ else .error .language

/-- Models `StateVariableLite.from_atom` (common.py:35-37): `atom.predicate` is read first, which only atoms have. Simplified: an atom of a builtin
predicate is reported with the error that the model has no symbol for it. -/
def liteFromAtom : XExpr → Except Err LiteVar
  | .form (.atom (.user q) ts) => mkLiteVar (.pred q) ts
  | .form (.atom (.cmp _) _) => .error .notImplemented
  | _ => .error .attribute

/-- The checks of the arguments of a symbol (formulas.py:320-337, terms.py:170-179): their number first, then every sort. -/
def checkArgSorts (D : PDecls) : List Term → List String → Except Err Unit
  | [], [] => .ok ()
  | t :: ts, s :: ss => if D.isSub (D.rlang.sortOf t) s then checkArgSorts D ts ss else .error .sortMismatch
  | _, _ => .error .arity

/-- Models `StateVariableLite.to_atom` (common.py:39-40): calls the symbol (predicate.py:54-57, function.py). -/
def LiteVar.toAtom (D : PDecls) (v : LiteVar) : Except Err XExpr :=
  if v.binding.length ≠ (symSorts D v.symbol).length then .error .arity
  else match checkArgSorts D v.binding (symSorts D v.symbol) with
    | .error e => .error e
    | .ok () => match v.symbol with
      | .pred q => .ok (.form (.atom (.user q) v.binding))
      | .fn f => .ok (.term (.app f v.binding))

/-- `symbol.signature` (predicate.py:23-24; function.py:27-28: the sort of the value comes last). -/
def symSignature (D : PDecls) (x : Sym) : List String := symIdent x :: (symSorts D x ++ match x with
  | .pred _ => []
  | .fn f => ((dlookup D.funs f).map Prod.snd).toList)

/-- Models `StateVariableLite.__eq__` (common.py:28-29). Symbols are equal when their signatures are (predicate.py:46-47, function.py:47-48). -/
def LiteVar.eq (D : PDecls) (v w : LiteVar) : Bool := symSignature D v.symbol == symSignature D w.symbol && termsEq v.binding w.binding

end Tarski

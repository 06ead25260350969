import Verif.QE
/-! Model of the sums and products over the objects of a language: /repo/src/tarski/syntax/arithmetic/__init__.py:13-122. -/
namespace Tarski

/-- An argument of `summation`, `product`, `sumterm` or `prodterm`. -/
inductive AggArg where
  | term (t : Term)
  /-- anything that is not an instance of `Term` -/
  | other
deriving DecidableEq

/-- `isinstance(x, Variable)` -/
def AggArg.isVar : AggArg → Bool
  | .term (.var _) => true
  | _ => false

/-- `isinstance(x, Term)` -/
def AggArg.asTerm : AggArg → Option Term
  | .term t => some t
  | .other => none

/-- What `dispatch_operator` reads of the language (fol.py:406-413, theories.py:135-142, factory.py:29-38,
terms.py:161-180): whether a handler is registered, and which terms have a sort below `Real`. -/
structure AggLang where
  loaded : Bool
  numeric : Term → Bool

/-- Models `L.dispatch_operator(op, Term, Term, lhs, rhs)` as C73 describes it. -/
def AggLang.dispatch (A : AggLang) (op : String) (lhs rhs : Term) : Except Err Term :=
  if ¬ A.loaded then .error .language
  else if A.numeric lhs ∧ A.numeric rhs then .ok (.app op [lhs, rhs])
  else .error .sortMismatch

/-- Models the loop of lines 85-86 (119-120). -/
def AggLang.chain (A : AggLang) (op : String) : Term → List Term → Except Err Term
  | lhs, [] => .ok lhs
  | lhs, t :: ts =>
    match A.dispatch op lhs t with
    | .error e => .error e
    | .ok r => A.chain op r ts

/-- Models `summation` (lines 57-88) with `op` = `+` and `product` (lines 91-122) with `op` = `*`: `args[-1]` of an empty
argument list and `processed_expr[0]` of an empty list raise IndexError. -/
def aggregate (dom : Domains) (A : AggLang) (op : String) (args : List AggArg) : Except Err Term :=
  match args.getLast? with
  | none => .error .index
  | some .other => .error .syntactic
  | some (.term e) =>
    if ¬ args.dropLast.all AggArg.isVar then .error .syntactic
    else
      let vs := args.dropLast.filterMap AggArg.asTerm
      match enumerateGroundings dom vs with
      | .error e => .error e
      | .ok (_, syms, substs) =>
        match (cart substs).map (fun values => subT (createSubst syms values) e) with
        | [] => .error .index
        | t :: ts => A.chain op t ts

/-- Models `summation` (lines 57-88). -/
def summation (dom : Domains) (A : AggLang) (args : List AggArg) : Except Err Term := aggregate dom A "+" args

/-- Models `product` (lines 91-122). -/
def product (dom : Domains) (A : AggLang) (args : List AggArg) : Except Err Term := aggregate dom A "*" args

/-- An `AggregateCompoundTerm` (terms.py:211-228). -/
structure AggTerm where
  op : String
  bound : List Term
  subterm : Term
deriving DecidableEq

/-- Models `sumterm` (lines 13-32) with `op` = `+` and `prodterm` (lines 35-54) with `op` = `*`. -/
def aggTerm (op : String) (args : List AggArg) : Except Err AggTerm :=
  match args.getLast? with
  | none => .error .index
  | some e =>
    if args.dropLast.length < 1 then .error .syntactic
    else if ¬ args.dropLast.all AggArg.isVar then .error .syntactic
    else match e with
      | .other => .error .syntactic
      | .term t => .ok ⟨op, args.dropLast.filterMap AggArg.asTerm, t⟩

end Tarski

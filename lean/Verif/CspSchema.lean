import Verif.Builtins
import Verif.Equality
import Verif.Effects
/-! Model of the compilation of action schemas into constraint satisfaction problems:
/repo/src/tarski/analysis/csp_schema.py:31-232. -/
namespace Tarski

/-- What the compiler is given (csp_schema.py:110-115): the bounds `[lb, ub)` of the ids of each sort, the ids of the constants,
and which ground atoms are state variables. -/
structure CspEnv where
  bounds : String → Option (Int × Int)
  ids : Name → String → Option Int
  isSV : PSym → List Term → Bool

/-- An entry of `vardata` (csp_schema.py:226): name, type and bounds; all CSP variables are of type `int`, as no caller asks for
a reification variable. -/
structure CspVar where
  name : String
  type : String
  lb : Int
  ub : Int
deriving DecidableEq

/-- `TableConstraint`, `StateVariableConstraint` and `RelationalConstraint` (csp_schema.py:63-106), where the first and the last
can be for atoms or for functional terms. The name of a nested term that is not a variable or a constant is `None`. -/
inductive CspCon where
  | table (p : String) (vars : List (Option String)) (negative : Bool)
  | tableFn (f : String) (vars : List (Option String))
  | stateVar (p : PSym) (ts : List Term) (value : Bool)
  | rel (c : Cmp) (lhs rhs : Option String)
  | relFn (f : String) (lhs rhs : Option String)

/-- `CSPInformation` (csp_schema.py:51-60). -/
structure Csp where
  vars : List CspVar
  cons : List CspCon

/-- The end of `variable` (csp_schema.py:226-232): an entry is added unless there is one with that name. -/
def Csp.addVar (c : Csp) (v : CspVar) : Csp :=
  if c.vars.any (fun w => w.name == v.name) then c else { c with vars := c.vars ++ [v] }

/-- Models `variable` on a variable (csp_schema.py:211-219, 226-232); a sort without bounds raises KeyError. -/
def cspVariable (E : CspEnv) (v : Var) (type : String) (c : Csp) : Except Err (Csp × Option String) :=
  match E.bounds v.sort with
  | none => .error .keyError
  | some (lb, ub) => .ok (c.addVar ⟨v.sym, type, lb, ub - 1⟩, some v.sym)

/-- Models `variable` on a constant (csp_schema.py:220-222, 226-232); a constant without id raises KeyError. -/
def cspConstant (E : CspEnv) (n : Name) (s : String) (c : Csp) : Except Err (Csp × Option String) :=
  match E.ids n s with
  | none => .error .keyError
  | some i => .ok (c.addVar ⟨n.render, "const", i, i⟩, some n.render)

/-- `isinstance(s, Constant)` -/
def Term.isConstant : Term → Bool
  | .const _ _ => true
  | _ => false

mutual
/-- Models `compile_expression` on terms (csp_schema.py:161-190). On a functional term whose arguments are all constants,
`StateVariableLite.from_atom` raises AttributeError, as terms have no predicate (grounding/common.py:35-36); if-then-else terms
raise CSPSchemaCompilationError (line 207). The arguments are compiled twice (lines 186-187). -/
def cspTerm (E : CspEnv) : Term → Csp → Except Err (Csp × Option String)
  | .var v, c => cspVariable E v "var" c
  | .const n s, c => cspConstant E n s c
  | .app f ts, c =>
    if ts.all Term.isConstant then .error .attribute
    else if builtinFunctionNames.contains f then
      match cspTerms E ts c with
      | .error e => .error e
      | .ok (c1, [l, r]) => .ok ({ c1 with cons := c1.cons ++ [.relFn f l r] }, none)
      | .ok _ => .error .value
    else match cspTerms E ts c with
      | .error e => .error e
      | .ok (c1, _) => match cspTerms E ts c1 with
        | .error e => .error e
        | .ok (c2, vs) => .ok ({ c2 with cons := c2.cons ++ [.tableFn f vs] }, none)
  | .ite _ _ _, _ => .error .language
def cspTerms (E : CspEnv) : List Term → Csp → Except Err (Csp × List (Option String))
  | [], c => .ok (c, [])
  | t :: ts, c => match cspTerm E t c with
    | .error e => .error e
    | .ok (c1, v) => match cspTerms E ts c1 with
      | .error e => .error e
      | .ok (c2, vs) => .ok (c2, v :: vs)
end

/-- Models `compile_expression` on atoms (csp_schema.py:174-190). -/
def cspAtom (E : CspEnv) (negate : Bool) (p : PSym) (ts : List Term) (c : Csp) : Except Err Csp :=
  if ts.all Term.isConstant && E.isSV p ts then .ok { c with cons := c.cons ++ [.stateVar p ts (!negate)] }
  else match p with
    | .cmp k => match cspTerms E ts c with
      | .error e => .error e
      | .ok (c1, [l, r]) => .ok { c1 with cons := c1.cons ++ [.rel (if negate then k.complement else k) l r] }
      | .ok _ => .error .value
    | .user p => match cspTerms E ts c with
      | .error e => .error e
      | .ok (c1, _) => match cspTerms E ts c1 with
        | .error e => .error e
        | .ok (c2, vs) => .ok { c2 with cons := c2.cons ++ [.table p vs negate] }

mutual
/-- Models `compile_expression` on formulas (csp_schema.py:161-209), called without `reify` and `negate`: disjunctions are treated
like conjunctions (line 197-200), `variable` fails an assertion on quantified formulas (lines 202-204, 224). -/
def cspFormula (E : CspEnv) : Formula → Csp → Except Err Csp
  | .top, c => .ok c
  | .bot, _ => .error .assertion
  | .atom p ts, c => cspAtom E false p ts c
  | .comp _ .not fs, c => match fs with
    | [] => .error .index
    | .atom p ts :: _ => cspAtom E true p ts c
    | _ => .error .assertion
  | .comp _ .and fs, c => cspFormulas E fs c
  | .comp _ .or fs, c => cspFormulas E fs c
  | .quant .exists [] _, c => .ok c
  | .quant _ _ _, _ => .error .assertion
def cspFormulas (E : CspEnv) : List Formula → Csp → Except Err Csp
  | [], c => .ok c
  | f :: fs, c => match cspFormula E f c with
    | .error e => .error e
    | .ok c1 => cspFormulas E fs c1
end

/-- `[self.variable(p, csp, "param") for p in action.parameters]` (csp_schema.py:154). -/
def cspParams (E : CspEnv) : List Var → Csp → Except Err Csp
  | [], c => .ok c
  | v :: vs, c => match cspVariable E v "param" c with
    | .error e => .error e
    | .ok (c1, _) => cspParams E vs c1

/-- Models the second part of `compile_schema_csp` (csp_schema.py:153-155), on the simplified precondition; `True` was replaced
by `top` (line 151). The names of the parameters are the index of the parameters. -/
def cspSchema (E : CspEnv) (params : List Var) (pre : Formula) : Except Err Csp :=
  match cspParams E params ⟨[], []⟩ with
  | .error e => .error e
  | .ok c => cspFormula E pre c

end Tarski

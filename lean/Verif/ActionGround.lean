import Verif.Effects
import Verif.PddlEff
/-! Model of the grounding of action schemas: /repo/src/tarski/syntax/transform/action_grounding.py. -/
namespace Tarski

/-- `", ".join(names)` (action_grounding.py:19, 43). -/
def joinNames : List String → String
  | [] => ""
  | [x] => x
  | x :: y :: xs => x ++ ", " ++ joinNames (y :: xs)

/-- The `name` of the constant that the substitution gives to a parameter; the callers have checked that there is one. -/
def nameOf (s : Subst) (v : Var) : String :=
  match s.get? (.var v) with
  | some (.const (.str n) _) => n
  | _ => ""

/-- The name of a ground operator (action_grounding.py:19-20, 43-44). -/
def instanceName (name : String) (params : List Var) (s : Subst) : String :=
  name ++ "(" ++ joinNames (params.map (nameOf s)) ++ ")"

/-- A `PlainOperator` (action.py:55-63). -/
structure PlainOp where
  name : String
  op : Operator

/-- Models `ground_schema_into_plain_operator` (action_grounding.py:6-24). -/
def groundPlain (a : PAction) (s : Subst) : Except Err PlainOp :=
  match groundSchema ⟨a.params, a.pre, a.effs⟩ s with
  | .error e => .error e
  | .ok o => .ok ⟨instanceName a.name a.params s, o⟩

/-- Models `create_substitution(action.parameters, values)` (substitutions.py:34-35): with more values than parameters,
the indexing of the binding raises (formulas.py:365-366). -/
def bindParams (params : List Var) (values : List Const) : Except Err Subst :=
  if params.length < values.length then .error .index
  else .ok (createSubst (params.map Term.var) (values.map (fun c => Term.const c.name c.sort)))

/-- `[lang.get_constant(name) for name in grounding]` (action_grounding.py:35; fol.py:261-264). -/
def getConstants (consts : Name → Option Const) : List Name → Except Err (List Const)
  | [] => .ok []
  | n :: ns => match consts n with
    | none => .error .syntactic
    | some c => match getConstants consts ns with
      | .error e => .error e
      | .ok cs => .ok (c :: cs)

/-- Models `ground_schema` (action_grounding.py:27-49): an action without parameters; the precondition is not flattened, and
the new action has no cost. -/
def groundAction (consts : Name → Option Const) (a : PAction) (names : List Name) : Except Err PAction :=
  match getConstants consts names with
  | .error e => .error e
  | .ok cs => match bindParams a.params cs with
    | .error e => .error e
    | .ok s => match checkBinding s a.params with
      | .error e => .error e
      | .ok _ => match checkNames s a.params with
        | .error e => .error e
        | .ok _ => .ok ⟨instanceName a.name a.params s, [], subF s a.pre, subEs s a.effs, none⟩

/-- An item of a grounding: a string or a `Constant`. -/
inductive GItem where
  | name (n : String)
  | const (c : Const)

/-- `[lang.get_constant(name) if isinstance(name, str) else name for name in grounding]` (action_grounding.py:56). -/
def getItems (consts : Name → Option Const) : List GItem → Except Err (List Const)
  | [] => .ok []
  | .name n :: is => match consts (.str n) with
    | none => .error .syntactic
    | some c => match getItems consts is with
      | .error e => .error e
      | .ok cs => .ok (c :: cs)
  | .const c :: is => match getItems consts is with
    | .error e => .error e
    | .ok cs => .ok (c :: cs)

/-- Models `ground_schema_into_plain_operator_from_grounding` (action_grounding.py:52-58). -/
def groundPlainFrom (consts : Name → Option Const) (a : PAction) (is : List GItem) : Except Err PlainOp :=
  match getItems consts is with
  | .error e => .error e
  | .ok cs => match bindParams a.params cs with
    | .error e => .error e
    | .ok s => groundPlain a s

end Tarski

import Verif.Rddl
import Verif.PddlTypes
import Verif.Model
/-! Model of the reader of RDDL models: /repo/src/tarski/io/rddl.py:210-324. The parser of RDDL is an external library (pyrddl);
its objects are the input. Expressions are in Rddl.lean. -/
namespace Tarski

/-- A value of the initial state: a Boolean or another literal. -/
inductive RValue where
  | bool (b : Bool)
  | lit (n : Name)
deriving DecidableEq

/-- A variable declaration of the domain (`PVariable` of pyrddl): its key `name/arity`, the types of its parameters, its range and its
default value. -/
structure RPvar where
  key : String
  params : Option (List String)
  range : String
  default : Option RValue := none

/-- An entry of `init-state` or of `non-fluents`: `((name, args), value)`. -/
structure RInit where
  fluent : String
  args : Option (List RArg)
  value : RValue

/-- The object that pyrddl returns: the parts that the reader uses (rddl.py:242-297). `objects` is `none` if there are none
(rddl.py:247), `maxNondef` is `none` for `pos-inf`. Numbers of the instance are kept by their text. -/
structure RModel where
  types : List (String × String)
  objects : Option (List (String × List String))
  nonFluents : List RPvar
  stateFluents : List RPvar
  intermFluents : List RPvar
  actionFluents : List RPvar
  horizon : String
  discount : String
  maxNondef : Option String
  initState : List RInit
  initNonFluent : List RInit

/-- The sorts of a language with the theories equality, arithmetic, special and random (theories.py:60-63, sorts.py:234-237); the
loaders of the theories declare no symbols by name (Theories.lean). -/
def rddlInit : Lang := (runOps 5 Lang.init [.attachBuiltin "Real" "object", .attachBuiltin "Integer" "Real", .attachBuiltin "Natural" "Integer"]).getD Lang.init

/-- Models the first loop of `_translate_types` (rddl.py:243-245). -/
def readRTypes (n : Nat) : Lang → List (String × String) → Option Res
  | L, [] => some (L, none)
  | L, (t, p) :: ts =>
    if p = "object" then match declSort n L t "object" with
      | some (L', none) => readRTypes n L' ts
      | r => r
    else some (L, some .assertion)

/-- Models the inner loop of `_translate_types` (rddl.py:250-251): `get` finds a sort, or something that `constant` rejects. `cast`
tells whether a name can be cast to a numeric sort. -/
def readRObjs (n : Nat) (cast : String → String → Bool) (t : String) : Lang → List String → Option Res
  | L, [] => some (L, none)
  | L, o :: os => match L.index t with
    | none => some (L, some .undefinedVariable)
    | some (.sort s) => match declConstant n L o s (cast s o) with
      | some (L', none) => readRObjs n cast t L' os
      | r => r
    | some _ => some (L, some .typeError)

/-- Models the second loop of `_translate_types` (rddl.py:246-251). -/
def readRObjects (n : Nat) (cast : String → String → Bool) : Lang → List (String × List String) → Option Res
  | L, [] => some (L, none)
  | L, (t, os) :: gs => match readRObjs n cast t L os with
    | some (L', none) => readRObjects n cast L' gs
    | r => r

/-- The sort of a parameter or of the values (rddl.py:316-321): `built_in_type_map` (300) is used if the name is unknown. -/
def resolveRSort (L : Lang) (s : String) : Except Err String :=
  match L.index s with
  | some (.sort s') => .ok s'
  | some _ => .error .typeError
  | none =>
    if s = "real" then (if (L.index "Real").isSome then .ok "Real" else .error .undefinedVariable)
    else if s = "int" then (if (L.index "Integer").isSome then .ok "Integer" else .error .undefinedVariable)
    else if s = "object" then (if (L.index "Object").isSome then .ok "Object" else .error .undefinedVariable)
    else .error .keyError

/-- The sorts of a signature. -/
def resolveRSorts (L : Lang) : List String → Except Err (List String)
  | [] => .ok []
  | s :: ss => match resolveRSort L s with
    | .error e => .error e
    | .ok t => match resolveRSorts L ss with
      | .error e => .error e
      | .ok ts => .ok (t :: ts)

/-- `name.split("/")[0]` (rddl.py:309) -/
def RPvar.name (v : RPvar) : String := String.ofList (v.key.toList.takeWhile (· ≠ '/'))

/-- `term.range in ("bool", "boolean")` (rddl.py:313, 322) -/
def RPvar.isBool (v : RPvar) : Bool := v.range = "bool" ∨ v.range = "boolean"

/-- Models `translate_variable` (rddl.py:308-324). -/
def readRVar (L : Lang) (v : RPvar) : Res :=
  match resolveRSorts L (if v.isBool then v.params.getD [] else v.params.getD [] ++ [v.range]) with
  | .error e => (L, some e)
  | .ok sig => if v.isBool then declPredicate L v.name sig else declFunction L v.name sig

/-- Models `_translate_variables` (rddl.py:253-262). -/
def readRVars : Lang → List RPvar → Res
  | L, [] => (L, none)
  | L, v :: vs => match readRVar L v with
    | (L', none) => readRVars L' vs
    | r => r

/-- The variables in the order in which they are translated (rddl.py:253-262). -/
def RModel.vars (M : RModel) : List RPvar := M.nonFluents ++ M.stateFluents ++ M.intermFluents ++ M.actionFluents

/-- Steps 0 to 2 of `translate_rddl_model` (rddl.py:264-274). -/
def readRLang (n : Nat) (cast : String → String → Bool) (M : RModel) : Option Res :=
  match readRTypes n rddlInit M.types with
  | some (L, none) => match readRObjects n cast L (M.objects.getD []) with
    | some (L, none) => some (readRVars L M.vars)
    | r => r
  | r => r

/-- `is_subtype` with `n` steps (Language.lean). -/
def Lang.subB (L : Lang) (n : Nat) (a b : String) : Bool := ((isSubtype n L a b).map Prod.fst).getD false

/-- What Rddl.lean uses of a language. Fluents do not depend on the last three. -/
def Lang.rddl (L : Lang) (n : Nat) : RddlLang where
  sym := fun a => match L.index a with
    | some (.sort _) => some .sort
    | some (.pred _ args) => some (.pred args)
    | some (.func _ sig) => some (.fn sig.dropLast (sig.getLastD ""))
    | some (.const _ s) => some (.const s)
    | none => none
  sub := L.subB n
  parent := fun _ => none
  dom := fun _ => .ok []
  zeroOk := fun _ => true

/-- What Model.lean uses of a language; `enc` is the cast to a numeric sort. -/
def Lang.forModel (L : Lang) (n : Nat) (enc : String → Name → Bool) : MLang where
  psorts := fun p => (L.preds p).getD []
  fsorts := fun f => (L.funs f).getD []
  isSub := L.subB n
  contains := fun s x => if L.isIntervalB s then enc s x else match x with
    | .str c => decide (c ∈ L.dom s)
    | _ => false
  interval := L.isIntervalB

/-- A term as an argument of `set` and `add`. -/
def rTermArg : Term → Arg
  | .const c s => .const ⟨c, s⟩
  | .var v => .var v
  | _ => .term

/-- A value as an argument of `set`: `True` and `False` are the numbers 1 and 0. -/
def RValue.arg : RValue → Arg
  | .bool b => .lit (.int (if b then 1 else 0))
  | .lit n => .lit n

/-- One iteration of the loops over the initial state (rddl.py:286-297). -/
def readRInit (n : Nat) (enc : String → Name → Bool) (L : Lang) (m : MState) (e : RInit) : MState × Option Err :=
  match readPvar (L.rddl n) e.fluent false e.args with
  | .error x => (m, some x)
  | .ok (.term (.app f ts)) => m.set (L.forModel n enc) f false (ts.map rTermArg) e.value.arg
  | .ok (.form (.atom p ts)) => if e.value = .bool true then m.add (L.forModel n enc) p (ts.map rTermArg) else (m, none)
  | .ok _ => (m, none)

/-- The loops over the initial state (rddl.py:286-297). -/
def readRInits (n : Nat) (enc : String → Name → Bool) (L : Lang) : MState → List RInit → MState × Option Err
  | m, [] => (m, none)
  | m, e :: es => match readRInit n enc L m e with
    | (m', none) => readRInits n enc L m' es
    | r => r

/-- `Parameters` (rddl.py:210-218) -/
structure RParams where
  horizon : String
  discount : String
  maxActions : Option String
deriving DecidableEq

/-- Models `translate_rddl_model` (rddl.py:264-297): the language, the initial state and the parameters. -/
def readRddl (n : Nat) (cast : String → String → Bool) (enc : String → Name → Bool) (M : RModel) :
    Option (Except Err (Lang × MState × RParams)) :=
  match readRLang n cast M with
  | none => none
  | some (_, some e) => some (.error e)
  | some (L, none) => match readRInits n enc L MState.empty (M.initState ++ M.initNonFluent) with
    | (_, some e) => some (.error e)
    | (m, none) => some (.ok (L, m, ⟨M.horizon, M.discount, M.maxNondef⟩))

end Tarski

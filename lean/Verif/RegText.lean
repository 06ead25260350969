import Verif.ExprText
import Verif.Registries
/-! Model of the texts and dumps of derived predicates, reactions, differential constraints and sensing actions:
/repo/src/tarski/fstrips/derived.py:28-42, fstrips/hybrid/reaction.py:15-29, fstrips/hybrid/differential_constraints.py:24-39,
fstrips/contingent/sensor.py:28-42. -/
namespace Tarski

/-- `str(o)` of a parameter (terms.py:148-149): the sort is not printed. -/
def paramName (v : Var) : Text := v.sym.toList

/-- Models `ident` of the four classes (derived.py:33-35, reaction.py:15-17, differential_constraints.py:24-26, sensor.py:28-30). -/
def regIdent (name : String) (params : List Var) : Text := name.toList ++ '(' :: joinWith [',', ' '] (params.map paramName) ++ [')']

/-- Models `Derived.__str__` (derived.py:37-42). -/
def derivedShown (d : Derived) : Text :=
  ['d', 'e', 'r', 'i', 'v', 'e', 'd', ' '] ++ d.name.toList ++ ' ' :: joinWith [' '] (d.params.map paramName) ++ [':', '\n', 'f', 'o', 'r', 'm', 'u', 'l', 'a', '=', '('] ++ showF d.formula ++ [')']

/-- Models `Reaction.__str__` (reaction.py:27-29). -/
def reactionShown (r : Reaction) : Text :=
  ['r', 'e', 'a', 'c', 't', 'i', 'o', 'n', ' '] ++ r.name.toList ++ [':', '\n', 'c', 'o', 'n', 'd', ':', ' ', '('] ++ showF r.cond ++ [')', '\n', 'e', 'f', 'f', ':', ' ', '('] ++ showE r.eff ++ [')']

/-- Models `Sensor.__str__` (sensor.py:40-42). -/
def sensorShown (s : Sensor) : Text :=
  ['a', 'c', 't', 'i', 'o', 'n', ' '] ++ s.name.toList ++ [':', '\n', 'C', '=', '('] ++ showF s.cond ++ [')', '\n', 'L', '=', '('] ++ showF s.obs ++ [')']

/-- Models `DifferentialConstraint.__str__` (differential_constraints.py:37-39). -/
def odeShown (d : DiffConstraint) : Text :=
  ['r', 'e', 'a', 'c', 't', 'i', 'o', 'n', ' '] ++ d.name.toList ++ [':', '\n', 'c', 'o', 'n', 'd', ':', ' ', '('] ++ showF d.cond ++ [')', '\n', 'v', 'a', 'r', 'i', 'a', 't', 'e', ':', ' '] ++ showT d.variate ++ ['\n', 'o', 'd', 'e', ':', ' '] ++ showT d.ode

/-- The attributes that are asked for by `dump`, on the objects that have them. -/
inductive DumpNode where
  | var (v : Var)
  | formula (f : Formula)
  | term (t : Term)
  | effect (e : Effect)
  /-- an object of one of the classes of this file, of which the attribute `effects` is asked -/
  | effects

/-- `x.dump()`, or `self.effects.dump()`: variables, formulas, terms and effects have no method `dump` (syntax/terms.py, syntax/formulas.py and
fstrips/fstrips.py define none), and a sensor has no attribute `effects`. The type of the result is left open. -/
def callDump {α : Type} (x : DumpNode) : Except Err α := match x with
  | .var _ => .error .attribute
  | .formula _ => .error .attribute
  | .term _ => .error .attribute
  | .effect _ => .error .attribute
  | .effects => .error .attribute

/-- `dict(…)` evaluates its arguments from left to right. -/
def callDumps {α : Type} : List DumpNode → Except Err (List α)
  | [] => .ok []
  | x :: xs => match callDump x with
    | .error e => .error e
    | .ok a => match callDumps xs with
      | .error e => .error e
      | .ok l => .ok (a :: l)

/-- Models `Derived.dump` (derived.py:28-31). -/
def derivedDump {α : Type} (d : Derived) : Except Err (List α) := callDumps (d.params.map .var ++ [.formula d.formula])
/-- Models `Reaction.dump` (reaction.py:19-25). -/
def reactionDump {α : Type} (r : Reaction) : Except Err (List α) := callDumps (r.params.map .var ++ [.formula r.cond, .effect r.eff])
/-- Models `DifferentialConstraint.dump` (differential_constraints.py:28-35). -/
def odeDump {α : Type} (d : DiffConstraint) : Except Err (List α) := callDumps (d.params.map .var ++ [.formula d.cond, .term d.variate, .term d.ode])
/-- Models `Sensor.dump` (sensor.py:32-38). -/
def sensorDump {α : Type} (s : Sensor) : Except Err (List α) := callDumps (s.params.map .var ++ [.formula s.cond, .effects])

end Tarski

import Verif.PddlEff
/-! Model of the checks on the costs of actions: /repo/src/tarski/fstrips/representation.py:401-430. The `cost` of an action
is `None` or an `AdditiveActionCost` (action.py:66-68), represented by its `addend`. -/
namespace Tarski

/-- Models `is_unit_cost_action` (representation.py:409-414). The names of constants are strings or integers; floats, of which
`1.0` would also equal `1`, are not modelled. -/
def isUnitCostAction (a : PAction) : Bool :=
  match a.cost with
  | none => true
  | some (.const n _) => n = .int 1
  | some _ => false

/-- Models `is_zero_cost_action` (representation.py:417-422). -/
def isZeroCostAction (a : PAction) : Bool :=
  match a.cost with
  | none => true
  | some (.const n _) => n = .int 0
  | some _ => false

/-- Models `is_constant_cost_action` (representation.py:425-430). -/
def isConstantCostAction (a : PAction) : Bool :=
  match a.cost with
  | none => true
  | some (.const _ _) => true
  | some _ => false

/-- Models `is_unit_cost_problem` (representation.py:401-402). -/
def isUnitCostProblem (actions : List PAction) : Bool := actions.all isUnitCostAction

/-- Models `is_constant_cost_problem` (representation.py:405-406). -/
def isConstantCostProblem (actions : List PAction) : Bool := actions.all isConstantCostAction

end Tarski

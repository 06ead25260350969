import Verif.Grounding
import Verif.Pipeline
/-! Model of a problem grounded with the naive strategy: `NaiveGroundingStrategy.ground_actions`
(/repo/src/tarski/grounding/naive_grounding.py:131-138) followed by `ground_schema_into_plain_operator_from_grounding`
(/repo/src/tarski/syntax/transform/action_grounding.py:52-58), the two calls a user makes in place of
`ground_problem_schemas_into_plain_operators` (/repo/src/tarski/grounding/lp_grounding.py:88-105). -/
namespace Tarski

/-- An element of the domain of a sort (sorts.py:100-106, 160-165): a constant. -/
def termItem : Term → GItem
  | .const n s => .const ⟨n, s⟩
  | _ => .name ""

/-- `[ground_schema_into_plain_operator_from_grounding(a, g) for g in gs]` (action_grounding.py:52-58): the items of a tuple are
constants already. -/
def naiveBindings (consts : Name → Option Const) (a : PAction) : List (List Term) → Except Err (List PlainOp)
  | [] => .ok []
  | g :: gs => match groundPlainFrom consts a (g.map termItem) with
    | .error e => .error e
    | .ok o => match naiveBindings consts a gs with
      | .error e => .error e
      | .ok os => .ok (o :: os)

/-- The operators of all actions, as in the loop of `ground_problem_schemas_into_plain_operators` (lp_grounding.py:97-102). -/
def naiveLoop (consts : Name → Option Const) (acts : List (String × PAction)) : List (String × List (List Term)) → Except Err (List PlainOp)
  | [] => .ok []
  | (name, gs) :: rest => match getAction acts name.toList with
    | .error e => .error e
    | .ok a => match naiveBindings consts a gs with
      | .error e => .error e
      | .ok os => match naiveLoop consts acts rest with
        | .error e => .error e
        | .ok os' => .ok (os ++ os')

/-- Grounding with the naive strategy (naive_grounding.py:131-138). -/
def naiveOps (dom : Domains) (consts : Name → Option Const) (acts : List (String × PAction)) : Except Err (List PlainOp) :=
  match groundActions dom (acts.map fun x => (x.1, x.2.params.map Var.sort)) with
  | .error e => .error e
  | .ok gs => naiveLoop consts acts gs

end Tarski

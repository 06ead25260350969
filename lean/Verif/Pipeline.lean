import Verif.LPGround
import Verif.ActionGround
import Verif.PddlEff
/-! Model of `ground_problem_schemas_into_plain_operators` (/repo/src/tarski/grounding/lp_grounding.py:88-105), which turns the
actions of a problem into ground operators with the help of the reachability logic program. -/
namespace Tarski

/-- Models `Problem.get_action` (fstrips/problem.py:50-56) on the dictionary of actions; `Err.undefinedTerm` stands for
UndefinedAction. -/
def getAction (acts : List (String × PAction)) (name : AStr) : Except Err PAction :=
  match acts.find? (fun x => decide (x.1.toList = name)) with
  | some x => .ok x.2
  | none => .error .undefinedTerm

/-- The inner loop (lp_grounding.py:100-101): a grounding is a tuple of strings. -/
def groundBindings (consts : Name → Option Const) (a : PAction) : List (List AStr) → Except Err (List PlainOp)
  | [] => .ok []
  | b :: bs => match groundPlainFrom consts a (b.map fun n => GItem.name (String.ofList n)) with
    | .error e => .error e
    | .ok o => match groundBindings consts a bs with
      | .error e => .error e
      | .ok os => .ok (o :: os)

/-- The outer loop (lp_grounding.py:98-101). The groundings of an action are a set: `ord` is the order in which it is iterated
over. -/
def groundActionsLoop (consts : Name → Option Const) (acts : List (String × PAction)) (ord : List (List AStr) → List (List AStr)) :
    List (AStr × List (List AStr)) → Except Err (List PlainOp)
  | [] => .ok []
  | (name, g) :: gs => match getAction acts name with
    | .error e => .error e
    | .ok a => match groundBindings consts a (ord g.dedup) with
      | .error e => .error e
      | .ok os => match groundActionsLoop consts acts ord gs with
        | .error e => .error e
        | .ok os' => .ok (os ++ os')

/-- Models `ground_problem_schemas_into_plain_operators` (lp_grounding.py:93-102) on a new strategy `s` (lines 88-90). -/
def groundProblemOps (run : SolverRun) (consts : Name → Option Const) (acts : List (String × PAction))
    (ord : List (List AStr) → List (List AStr)) (s : LPStrategy) : Except Err (List PlainOp) :=
  match (s.groundActions run).2 with
  | .error e => .error e
  | .ok gs => groundActionsLoop consts acts ord gs

end Tarski

import Mathlib.Data.Rat.Defs
import Mathlib.Data.Rat.Floor
import Verif.ReachSpec
/-! Model of the part of the reachability logic program that is about action costs (asp.py:143-160, 265-269, 432-444), with the
variable names the compiler invents. -/
namespace Tarski

/-- The letters of `_var` (asp.py:434). -/
def varLetters : List String :=
  ["X", "Y", "Z", "A", "B", "C", "D", "E", "F", "G", "H", "I", "J", "K", "L", "M", "N", "O", "P", "Q", "R", "S", "T", "U", "V", "W"]

/-- Models `_var` (asp.py:432-435). -/
def aspVar (i : Nat) : String :=
  match varLetters[i]? with
  | some x => x
  | none => "X" ++ toString i

/-- The loop of `generate_varname` (asp.py:440-444), from the number `i` on, with `fuel` numbers to go. -/
def freshVarFrom (avoid : List String) : Nat → Nat → Except Err String
  | _, 0 => .error .runtime
  | i, fuel + 1 => if avoid.contains (aspVar i) then freshVarFrom avoid (i + 1) fuel else .ok (aspVar i)

/-- Models `generate_varname` (asp.py:438-444). -/
def generateVarname (avoid : List String) : Except Err String := freshVarFrom avoid 0 1000

/-- The `cost` of an action (fstrips/action.py:53-71): none, or additive with an addend that is a numeric constant, an application
of a function symbol, or another term; or some other object. -/
inductive ActionCost where
  | none
  | const (q : Rat)
  | app (f : String) (ts : List Term)
  | otherTerm
  | unknown

/-- The second argument of the head `cost(action(…), …)`. -/
inductive CostArg where
  | num (n : Int)
  | var (x : String)
deriving DecidableEq

/-- A rule `cost(action_a(X, …), v) :- body.` -/
structure CostRule where
  action : String
  args : List String
  value : CostArg
  body : List LPLit
deriving DecidableEq

/-- Python's `int(q)`: truncation towards zero. -/
def pyTrunc (q : Rat) : Int := if 0 ≤ q then ⌊q⌋ else ⌈q⌉

/-- Models `process_action_cost` (asp.py:143-160), called from `process_action` (asp.py:124-129) with the action atom and the type
literals of the parameters; `tarski_functional_atom_to_lp_atom` (asp.py:265-269) gives the atom of the cost function. Constants
that are not numbers, for which `int` raises, are not modelled. -/
def lpActionCost (n : String) (a : Schema) (cost : ActionCost) : Except Err (List CostRule) :=
  match lpTerms (a.params.map .var) with
  | .error e => .error e
  | .ok xs => match lpTypes (a.params.map .var) with
    | .error e => .error e
    | .ok tys => match cost with
      | .none => .ok [⟨n, xs, .num 1, tys⟩]
      | .const q => .ok [⟨n, xs, .num (pyTrunc q), tys⟩]
      | .app f ts => match generateVarname xs with
        | .error e => .error e
        | .ok v => match lpTerms ts with
          | .error e => .error e
          | .ok ys => .ok [⟨n, xs, .var v, tys ++ [.pred (.atom f) (ys ++ [v])]⟩]
      | .otherTerm => .ok []
      | .unknown => .error .runtime

/-- The loop over the actions of the problem (asp.py:101-105). -/
def lpActionCosts (dom : Domains) : List (String × Schema × ActionCost) → Except Err (List CostRule)
  | [] => .ok []
  | (n, a, c) :: l => match allInhabited dom a.params with
    | .error e => .error e
    | .ok false => lpActionCosts dom l
    | .ok true => match lpActionCost n a c with
      | .error e => .error e
      | .ok rs => match lpActionCosts dom l with
        | .error e => .error e
        | .ok rs' => .ok (rs ++ rs')

/-- The facts for the functional atoms of the initial state when costs are included (asp.py:86-98, 265-269). -/
def lpInitCosts (costFns : List String) : List (String × List Term × Term) → Except Err (List LPRule)
  | [] => .ok []
  | (f, ts, v) :: l =>
    if f = "total-cost" then lpInitCosts costFns l
    else if costFns.contains f then match lpTerms (ts ++ [v]) with
      | .error e => .error e
      | .ok xs => match lpInitCosts costFns l with
        | .error e => .error e
        | .ok rs => .ok (⟨.pred (.atom f) xs, []⟩ :: rs)
    else .error .runtime

end Tarski

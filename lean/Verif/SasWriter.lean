import Verif.Sas
import Verif.Containers
/-! Model of the writer of Fast Downward's SAS files: /repo/src/tarski/io/sas/fd.py, io/sas/templates.py. -/
namespace Tarski

/-- The arguments of `Writer` (fd.py:27-34). State variables and values are references to terms; `domains` is a dictionary.
`theory` is stored but never used. -/
structure SasTask where
  stateVars : SymIndex Term
  domains : List (Term × SymIndex Term)
  actions : List SasAction
  initial : List (Term × Term)
  goal : List (Term × Term)
  unitCosts : Bool

/-- `self.domains[symref(x)]`. -/
def SasTask.domain (t : SasTask) (x : Term) : Except Err (SymIndex Term) :=
  match dlookup t.domains x with
  | some d => .ok d
  | none => .error .keyError

/-- `get_metric_type` (fd.py:39-40): `unit_costs and 0 or 1`; since 0 is false, the value is 1 in both cases. -/
def SasTask.metricType (t : SasTask) : String := toString (if t.unitCosts && decide ((0 : Nat) ≠ 0) then 0 else 1)

/-- `make_value_section` (fd.py:45-54). -/
def valueSection (str : Term → String) (d : SymIndex Term) : String := strJoin "\n" (d.objects.map str)

/-- One element of the variable section (fd.py:60-67, templates.py:20-26). -/
def variableElem (str : Term → String) (x : Term) (d : SymIndex Term) : String :=
  "begin_variable\n" ++ str x ++ "\n" ++ "-1" ++ "\n" ++ toString d.len ++ "\n" ++ valueSection str d ++ "\nend_variable"

/-- The loop of `make_variable_section` (fd.py:56-69): iterates over the keys of the index. -/
def variableElems (str : Term → String) (t : SasTask) : List Term → Except Err (List String)
  | [] => .ok []
  | x :: xs => match t.domain x with
    | .error e => .error e
    | .ok d => match variableElems str t xs with
      | .error e => .error e
      | .ok es => .ok (variableElem str x d :: es)

/-- The index of a state variable, and of a value in its domain (fd.py:132-133, 149-150, 190-191, 207-208). -/
def SasTask.indexOf (t : SasTask) (x v : Term) : Except Err (Nat × Nat) :=
  match t.stateVars.getIndex x with
  | .error e => .error e
  | .ok i => match t.domain x with
    | .error e => .error e
    | .ok d => match d.getIndex v with
      | .error e => .error e
      | .ok j => .ok (i, j)

/-- `precondition_elem_tmpl`, `initial_value_list_elem_tmpl`, `goal_value_list_elem_tmpl` (templates.py:54-55, 70-71, 79-80). -/
def pairElem (p : Nat × Nat) : String := toString p.1 ++ " " ++ toString p.2

/-- `effect_elem_tmpl` without conditions (templates.py:57-58, fd.py:146-151). -/
def effectElem (p : Nat × Nat) : String := "0" ++ " " ++ "" ++ " " ++ toString p.1 ++ " " ++ toString p.2

/-- The loops of `make_precondition_list`, `make_effect_list`, `make_initial_value_list`, `make_goal_value_list`
(fd.py:127-154, 181-211). -/
def elemList (t : SasTask) (elem : Nat × Nat → String) : List (Term × Term) → Except Err (List String)
  | [] => .ok []
  | (x, v) :: l => match t.indexOf x v with
    | .error e => .error e
    | .ok p => match elemList t elem l with
      | .error e => .error e
      | .ok es => .ok (elem p :: es)

/-- `get_action_name` (fd.py:121-122). -/
def sasActionName (a : SasAction) : String :=
  a.name ++ "(" ++ strJoin "," (a.args.map (fun c => c.name.render)) ++ ")"

/-- One element of the operators section (fd.py:168-177, templates.py:60-68). -/
def operatorElem (t : SasTask) (a : SasAction) : Except Err String :=
  match elemList t pairElem (a.trans.map fun x => (x.1, x.2.1)) with
  | .error e => .error e
  | .ok pre => match elemList t effectElem (a.trans.map fun x => (x.1, x.2.2)) with
    | .error e => .error e
    | .ok eff => .ok ("begin_operator\n" ++ sasActionName a ++ "\n" ++ toString a.trans.length ++ "\n" ++ strJoin "\n" pre ++ "\n" ++
        toString a.trans.length ++ "\n" ++ strJoin "\n" eff ++ "\n" ++ "1" ++ "\nend_operator")

/-- The loop of `make_operators_section` (fd.py:167-177). -/
def operatorElems (t : SasTask) : List SasAction → Except Err (List String)
  | [] => .ok []
  | a :: as => match operatorElem t a with
    | .error e => .error e
    | .ok o => match operatorElems t as with
      | .error e => .error e
      | .ok os => .ok (o :: os)

/-- `make_operators_section` (fd.py:160-179); the `print` is left out. -/
def operatorsSection (t : SasTask) : Except Err String :=
  if t.actions.length > 0 then
    match operatorElems t t.actions with
    | .error e => .error e
    | .ok os => .ok (strJoin "\n" os)
  else .error .assertion

/-- `make_initial_state_section` (fd.py:197-200, templates.py:73-77). -/
def initialSection (t : SasTask) : Except Err String :=
  match elemList t pairElem t.initial with
  | .error e => .error e
  | .ok l => .ok ("begin_initial_state\n" ++ toString t.stateVars.len ++ "\n" ++ strJoin "\n" l ++ "\nend_initial_state")

/-- `make_goal_state_section` (fd.py:213-214, templates.py:82-85). -/
def goalSection (t : SasTask) : Except Err String :=
  match elemList t pairElem t.goal with
  | .error e => .error e
  | .ok l => .ok ("begin_goal\n" ++ strJoin "\n" l ++ "\nend_goal")

/-- `dump` (fd.py:216-239, templates.py:87-103), returning the text that is written. `str` is python's `str` on terms. The
mutex groups, the axioms and their defaults are always empty (fd.py:71-116). -/
def dumpSas (str : Term → String) (t : SasTask) : Except Err String :=
  match variableElems str t (t.stateVars.data.map (·.1)) with
  | .error e => .error e
  | .ok vs => match operatorsSection t with
    | .error e => .error e
    | .ok ops => match initialSection t with
      | .error e => .error e
      | .ok init => match goalSection t with
        | .error e => .error e
        | .ok goal => .ok ("begin_version\n" ++ "4" ++ "\nend_version\nbegin_metric\n" ++ t.metricType ++ "\nend_metric\n" ++
            toString t.stateVars.len ++ "\n" ++ strJoin "\n" vs ++ "\n" ++ "0" ++ "" ++ "\n" ++
            ("begin_axiom_defaults\n" ++ "0" ++ "" ++ "\nend_axiom_defaults") ++ "\n" ++ "0" ++ "" ++ "\n" ++ toString t.actions.length ++
            "\n" ++ ops ++ "\n" ++ init ++ "\n" ++ goal ++ "\n")

end Tarski

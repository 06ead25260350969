import Verif.RddlWriter
import Verif.Model
/-! Model of the writer of whole RDDL files: /repo/src/tarski/io/rddl.py:415-595, 681-688, /repo/src/tarski/rddl/task.py:7-40 and
/repo/src/tarski/io/templates/rddl_model.tpl. Expressions are in RddlWriter.lean. -/
namespace Tarski

/-- A sort of the language: its name, the flag `builtin`, whether it is an `Interval`, the name of its parent and the texts of
the constants of its domain, in the order of the iteration (sorts.py:15-19, 75-77). Every sort but `object` has a parent. -/
structure WSort where
  name : String
  builtin : Bool
  interval : Bool
  parent : String
  dom : List String

/-- The symbol of a fluent: its name, the names of the sorts of its arguments and, for functions, of its values
(predicate.py:25-27, function.py:26-28). The arguments of the fluent are not used. -/
structure WFl where
  head : String
  dom : List String
  cod : Option String

/-- `signature` -/
def WFl.signature (f : WFl) : List String := f.head :: (f.dom ++ f.cod.toList)

/-- `ConstraintType` (rddl.py:362-365) -/
inductive CType where
  | action
  | state
  | invariant
deriving DecidableEq

/-- A task (task.py:7-40). Values, levels and the parameters are given by their texts; `maxNondef` is the attribute
`max_nondef_actions` of the parameters, which `Parameters` does not define (rddl.py:215-218) and a user may set. -/
structure WTask where
  domainName : String
  instanceName : String
  requirements : List String
  sorts : List WSort
  stateFluents : List (WFl × String)
  intermFluents : List (WFl × String)
  actionFluents : List (WFl × String)
  nonFluents : List (WFl × String)
  cpfs : List ((String × List WX) × WX)
  constraints : List (WX × CType)
  reward : WX
  x0 : MState
  horizon : String
  discount : String
  maxNondef : Option String

/-- The attributes of the writer (rddl.py:421-426); `need_constraints` is never read. -/
structure WState where
  needObj : List WSort
  nonSigs : List (List String)
  intermSigs : List (List String)

/-- `Writer.__init__` (rddl.py:421-426) -/
def WState.new : WState := ⟨[], [], []⟩

/-- `sep.join(l)` -/
def sepJoin (sep : String) : List String → String
  | [] => ""
  | [s] => s
  | s :: ss => s ++ sep ++ sepJoin sep ss

/-- `get_requirements` (rddl.py:453-454) -/
def getRequirements (T : WTask) : String := sepJoin ", " T.requirements

/-- The sorts that are written (rddl.py:460-466). -/
def WTask.typeSorts (T : WTask) : List WSort := T.sorts.filter fun S => !(S.builtin || S.name = "object") && !S.interval

/-- One line of `get_types` (rddl.py:466). -/
def typeLine (S : WSort) : String := S.name ++ " : " ++ S.parent ++ ";"

/-- `get_types` (rddl.py:456-468) -/
def getTypes (W : WState) (T : WTask) : WState × String :=
  ({ W with needObj := W.needObj ++ T.typeSorts }, sepJoin "\n" (T.typeSorts.map typeLine))

/-- `get_type` (rddl.py:470-477) with `reverse_built_in_type_map` (rddl.py:301) -/
def getType (f : WFl) : String :=
  match f.cod with
  | none => "bool"
  | some s => if s = "Object" then "object" else if s = "Real" then "real" else if s = "Integer" then "int" else s

/-- `get_signature` (rddl.py:479-493) -/
def getSignature (f : WFl) : String := callText f.head f.dom

/-- One line of `get_pvars` (rddl.py:500, 507, 510, 517). -/
def pvarLine (kind word : String) (f : WFl × String) : String :=
  "\t" ++ getSignature f.1 ++ " : {" ++ kind ++ ", " ++ getType f.1 ++ ", " ++ word ++ " = " ++ f.2 ++ "};"

/-- `get_pvars` (rddl.py:495-518) -/
def getPvars (W : WState) (T : WTask) : WState × String :=
  ({ W with intermSigs := W.intermSigs ++ T.intermFluents.map fun f => f.1.signature, nonSigs := W.nonSigs ++ T.nonFluents.map fun f => f.1.signature },
   sepJoin "\n" (T.stateFluents.map (pvarLine "state-fluent" "default") ++ T.intermFluents.map (pvarLine "interm-fluent" "level") ++
     T.actionFluents.map (pvarLine "action-fluent" "default") ++ T.nonFluents.map (pvarLine "non-fluent" "default")))

/-- One line of `get_cpfs` (rddl.py:523). -/
def cpfLine (c : (String × List WX) × WX) : Except Err String :=
  match getFluent c.1.1 c.1.2 true with
  | .error e => .error e
  | .ok l => match rewriteX c.2 with
    | .error e => .error e
    | .ok r => .ok ("\t" ++ l ++ " = " ++ r ++ ";")

/-- A loop that appends lines. -/
def linesOf {α} (f : α → Except Err String) : List α → Except Err (List String)
  | [] => .ok []
  | a :: as => match f a with
    | .error e => .error e
    | .ok s => match linesOf f as with
      | .error e => .error e
      | .ok ss => .ok (s :: ss)

/-- `"\n".join` of the lines of a loop -/
def linesText {α} (f : α → Except Err String) (as : List α) : Except Err String :=
  match linesOf f as with
  | .error e => .error e
  | .ok ss => .ok (sepJoin "\n" ss)

/-- `get_cpfs` (rddl.py:520-524) -/
def getCpfs (T : WTask) : Except Err String := linesText cpfLine T.cpfs

/-- `get_reward` (rddl.py:526-527) -/
def getReward (T : WTask) : Except Err String := rewriteX T.reward

/-- One line of `get_preconditions` and `get_state_invariants` (rddl.py:533, 540). -/
def constraintLine (c : WX × CType) : Except Err String :=
  match rewriteX c.1 with
  | .error e => .error e
  | .ok s => .ok ("\t" ++ s ++ ";")

/-- `get_preconditions` (rddl.py:529-534) -/
def getPreconditions (T : WTask) : Except Err String := linesText constraintLine (T.constraints.filter fun c => c.2 = .action)

/-- `get_state_invariants` (rddl.py:536-541) -/
def getInvariants (T : WTask) : Except Err String := linesText constraintLine (T.constraints.filter fun c => c.2 = .state)

/-- One line of `get_objects` (rddl.py:551-552). -/
def objLine (S : WSort) : String := "\t" ++ S.name ++ " : {" ++ commaJoin S.dom ++ "};"

/-- `get_objects` (rddl.py:543-554) -/
def getObjects (W : WState) : String :=
  if W.needObj.isEmpty then "" else "objects {" ++ sepJoin "\n" (W.needObj.map objLine) ++ "};"

/-- The name of a signature, `signature[0]`. -/
def sigHead (sig : List String) : String := sig.headD ""

/-- One line for a value of a function (rddl.py:562-563, 586-587). The term is built again by calling the symbol (fol.py `get`), which
succeeds because the point was checked when the value was set; its text has `, ` between the arguments (terms.py:195-196). -/
def fnLine (sig : List String) (d : List Const × Const) : String :=
  "\t" ++ (if d.1.isEmpty then sigHead sig else sigHead sig ++ "(" ++ sepJoin ", " (d.1.map fun c => c.name.render) ++ ")") ++ " = " ++ d.2.name.render ++ ";"

/-- One line for a point of a predicate (rddl.py:569-570, 593-594); the text of an atom has `,` between the arguments
(formulas.py:335-336). -/
def predLine (sig : List String) (pt : List Const) : String :=
  "\t" ++ callText (sigHead sig) (pt.map fun c => c.name.render) ++ " = true;"

/-- The lines of the initial state for the signatures chosen by `keep` (rddl.py:557-570, 581-594). -/
def initLines (keep : List String → Bool) (x0 : MState) : List String :=
  ((x0.fns.filter fun d => keep d.1).flatMap fun d => d.2.map (fnLine d.1)) ++
  ((x0.preds.filter fun d => keep d.1).flatMap fun d => d.2.map (predLine d.1))

/-- `get_non_fluent_init` (rddl.py:556-575) -/
def getNonFluentInit (W : WState) (T : WTask) : String :=
  let ls := initLines (fun sig => decide (sig ∈ W.nonSigs)) T.x0
  if ls.isEmpty then "" else "non-fluents {" ++ sepJoin "\n" ls ++ "};"

/-- `get_state_fluent_init` (rddl.py:577-595) -/
def getStateInit (W : WState) (T : WTask) : String :=
  sepJoin "\n" (initLines (fun sig => !(decide (sig ∈ W.nonSigs) || decide (sig ∈ W.intermSigs))) T.x0)

/-- `get_max_nondef_actions` (rddl.py:681-682) -/
def getMaxNondef (T : WTask) : Except Err String :=
  match T.maxNondef with
  | none => .error .attribute
  | some s => .ok s

/-- The template (rddl_model.tpl) with its fields filled in; `get_horizon` and `get_discount` (rddl.py:684-688) are the texts of the
parameters. -/
def fillTemplate (T : WTask) (reqs types pvars cpfs reward pre inv objs nf init max : String) : String :=
  "domain " ++ (T.domainName ++ (" {\n\n    requirements = { " ++ (reqs ++ (" };\n\n    types {\n" ++ (types ++ ("\n    };\n\n    pvariables {\n" ++ (pvars ++
  ("\n    };\n\n    cpfs {\n" ++ (cpfs ++ ("\n    };\n\n    reward = " ++ (reward ++ (";\n\n    action-preconditions {\n" ++ (pre ++
  ("\n    };\n\n    state-invariants {\n" ++ (inv ++ ("\n    };\n\n}\n\nnon-fluents " ++ ((T.instanceName ++ "_non_fluents") ++ (" {\n    domain = " ++ (T.domainName ++
  (";\n\n    " ++ (objs ++ ("\n\n    " ++ (nf ++ ("\n}\n\ninstance " ++ (T.instanceName ++ (" {\n\n    domain = " ++ (T.domainName ++ (";\n    non-fluents = " ++
  ((T.instanceName ++ "_non_fluents") ++ (";\n\n    init-state {\n" ++ (init ++ ("\n    };\n\n    max-nondef-actions = " ++ (max ++ (";\n    horizon = " ++ (T.horizon ++
  (";\n    discount = " ++ (T.discount ++ ";\n}\n")))))))))))))))))))))))))))))))))))))

/-- `write_model` (rddl.py:428-451): the state of the writer afterwards and the text of the file. -/
def writeModel (W : WState) (T : WTask) : WState × Except Err String :=
  let (W1, types) := getTypes W T
  let (W2, pvars) := getPvars W1 T
  match getCpfs T with
  | .error e => (W2, .error e)
  | .ok cpfs => match getReward T with
    | .error e => (W2, .error e)
    | .ok reward => match getPreconditions T with
      | .error e => (W2, .error e)
      | .ok pre => match getInvariants T with
        | .error e => (W2, .error e)
        | .ok inv => match getMaxNondef T with
          | .error e => (W2, .error e)
          | .ok max => (W2, .ok (fillTemplate T (getRequirements T) types pvars cpfs reward pre inv (getObjects W2) (getNonFluentInit W2 T) (getStateInit W2 T) max))

end Tarski

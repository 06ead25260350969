import Verif.Effects
import Verif.PddlEff
import Verif.Containers
/-! Model of what a planning problem registers under a name: actions and derived predicates
(/repo/src/tarski/fstrips/problem.py, derived.py), reactions and differential constraints
(/repo/src/tarski/fstrips/hybrid/{problem,reaction,differential_constraints}.py), sensing actions
(/repo/src/tarski/fstrips/contingent/{problem,sensor}.py). -/
namespace Tarski

/-- A `Derived` (derived.py:7-27). -/
structure Derived where
  name : String
  params : List Var
  formula : Formula
deriving DecidableEq

/-- A `Reaction` (hybrid/reaction.py:1-13); nothing is checked. -/
structure Reaction where
  name : String
  params : List Var
  cond : Formula
  eff : Effect

/-- A `DifferentialConstraint` (hybrid/differential_constraints.py:5-21). -/
structure DiffConstraint where
  name : String
  params : List Var
  cond : Formula
  variate : Term
  ode : Term
deriving DecidableEq

/-- A `Sensor` (contingent/sensor.py:5-26). -/
structure Sensor where
  name : String
  params : List Var
  cond : Formula
  obs : Formula
deriving DecidableEq

/-- The loop over the parameters in `Derived.__init__` (derived.py:17-24). A sort that differs raises, but not the intended
error: the message reads `.name` of the tuple of sorts of the predicate. -/
def derivedSorts : List String → List Var → Except Err Unit
  | s :: ss, v :: vs => if s ≠ v.sort then .error .attribute else derivedSorts ss vs
  | _, _ => .ok ()

/-- Models `Derived.__init__` (derived.py:7-26). `psorts` gives the sorts of the arguments of the predicates of the language;
`.semantic` stands for `InvalidDerivedPredicateError`. Sorts are compared by name
(sorts.py:32-33). -/
def mkDerived (psorts : String → Option (List String)) (d : Derived) : Except Err Derived :=
  match psorts d.name with
  | none => .error .undefinedTerm
  | some ss =>
    if d.params.length ≠ ss.length then .error .semantic
    else match derivedSorts ss d.params with
      | .error e => .error e
      | .ok _ => .ok d

/-- Models `DifferentialConstraint._check_well_formed` (hybrid/differential_constraints.py:17-22). The second test asks
whether the term is an element of the enumeration `BuiltinFunctionSymbol`: no term is. -/
def mkDiffConstraint (d : DiffConstraint) : Except Err DiffConstraint :=
  match d.variate with
  | .app _ _ => .ok d
  | _ => .error .syntactic

/-- Models `Sensor._check_well_formed` (contingent/sensor.py:16-26); `.semantic` stands for
`ObservationExpressivenessMismatch`. -/
def mkSensor (s : Sensor) : Except Err Sensor :=
  match s.obs with
  | .atom _ _ => .ok s
  | .comp _ .not (.atom _ _ :: _) => .ok s
  | _ => .error .semantic

/-- The tables of a problem (fstrips/problem.py:20-21, hybrid/problem.py:15-16, contingent/problem.py:13). Simplified: one
record for the three classes of problems; a class that lacks a table never touches it. -/
structure Registry where
  actions : List (String × PAction)
  derived : List (String × Derived)
  reactions : List (String × Reaction)
  odes : List (String × DiffConstraint)
  sensors : List (String × Sensor)

/-- A new problem. -/
def Registry.empty : Registry := ⟨[], [], [], [], []⟩

/-- The calls that register something. -/
inductive RegOp where
  | action (a : PAction)
  | derived (d : Derived)
  | reaction (r : Reaction)
  | ode (d : DiffConstraint)
  | sensor (s : Sensor)

/-- Models `Problem.action` (fstrips/problem.py:36-41); `.duplicateVariable` is used for every `DuplicateDefinition`. -/
def Registry.addAction (g : Registry) (a : PAction) : Registry × Option Err :=
  match dlookup g.actions a.name with
  | some _ => (g, some .duplicateVariable)
  | none => ({ g with actions := dinsert g.actions a.name a }, none)

/-- Models `Problem.derived` (fstrips/problem.py:43-48). -/
def Registry.addDerived (psorts : String → Option (List String)) (g : Registry) (d : Derived) : Registry × Option Err :=
  match dlookup g.derived d.name with
  | some _ => (g, some .duplicateVariable)
  | none => match mkDerived psorts d with
    | .error e => (g, some e)
    | .ok d' => ({ g with derived := dinsert g.derived d.name d' }, none)

/-- Models `HybridProblem.reaction` (hybrid/problem.py:18-22). -/
def Registry.addReaction (g : Registry) (r : Reaction) : Registry × Option Err :=
  match dlookup g.reactions r.name with
  | some _ => (g, some .duplicateVariable)
  | none => ({ g with reactions := dinsert g.reactions r.name r }, none)

/-- Models `HybridProblem.differential_constraint` (hybrid/problem.py:32-38): the name is looked up among the *reactions*. -/
def Registry.addOde (g : Registry) (d : DiffConstraint) : Registry × Option Err :=
  match dlookup g.reactions d.name with
  | some _ => (g, some .duplicateVariable)
  | none => match mkDiffConstraint d with
    | .error e => (g, some e)
    | .ok d' => ({ g with odes := dinsert g.odes d.name d' }, none)

/-- Models `ContingentProblem.sensor` (contingent/problem.py:15-19). -/
def Registry.addSensor (g : Registry) (s : Sensor) : Registry × Option Err :=
  match dlookup g.sensors s.name with
  | some _ => (g, some .duplicateVariable)
  | none => match mkSensor s with
    | .error e => (g, some e)
    | .ok s' => ({ g with sensors := dinsert g.sensors s.name s' }, none)

/-- One call. -/
def Registry.step (psorts : String → Option (List String)) (g : Registry) : RegOp → Registry × Option Err
  | .action a => g.addAction a
  | .derived d => g.addDerived psorts d
  | .reaction r => g.addReaction r
  | .ode d => g.addOde d
  | .sensor s => g.addSensor s

/-- A sequence of calls; the caller goes on after a call that raises. -/
def Registry.run (psorts : String → Option (List String)) (g : Registry) : List RegOp → Registry
  | [] => g
  | o :: os => Registry.run psorts (g.step psorts o).1 os

/-- Models `get_action` (fstrips/problem.py:53-56; `has_action`, 50-51). -/
def Registry.getAction (g : Registry) (n : String) : Except Err PAction :=
  match dlookup g.actions n with
  | none => .error .undefinedTerm
  | some a => .ok a

/-- Models `problem.derived_predicates[n]` (fstrips/problem.py:24-26). -/
def Registry.getDerived (g : Registry) (n : String) : Except Err Derived :=
  match dlookup g.derived n with
  | none => .error .keyError
  | some a => .ok a

/-- Models `get_reaction` (hybrid/problem.py:27-30). -/
def Registry.getReaction (g : Registry) (n : String) : Except Err Reaction :=
  match dlookup g.reactions n with
  | none => .error .undefinedTerm
  | some a => .ok a

/-- Models `get_differential_constraint` (hybrid/problem.py:43-46). -/
def Registry.getOde (g : Registry) (n : String) : Except Err DiffConstraint :=
  match dlookup g.odes n with
  | none => .error .undefinedTerm
  | some a => .ok a

/-- Models `get_sensor` (contingent/problem.py:24-27). -/
def Registry.getSensor (g : Registry) (n : String) : Except Err Sensor :=
  match dlookup g.sensors n with
  | none => .error .undefinedTerm
  | some a => .ok a

end Tarski

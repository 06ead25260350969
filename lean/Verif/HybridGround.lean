import Verif.QE
import Verif.Model
import Verif.Registries
/-! Model of the grounders of reactions, sensing actions and differential constraints:
/repo/src/tarski/grounding/naive/{reactions,sensors,diff_constraints}.py. -/
namespace Tarski

/-- The domains as lists of terms, from the constants of every sort (`list(st.sort.domain())`, instantiation.py:18);
built-in sorts raise (instantiation.py:14-16). -/
def termDomains (dom : String → Except Err (List Const)) : Domains := fun s => (dom s).map (List.map (fun c => Term.const c.name c.sort))

/-- What a grounder holds: the index of ground elements and the counter. `SymbolIndex.add` (util.py:22-29) refuses an element
that is already there; the elements here have no `__eq__`, so that two of them are never the same and the index is the list of
what has been added. -/
structure Grounder (α : Type) where
  items : List α
  generated : Nat

/-- A new grounder (reactions.py:11-17, sensors.py:10-16, diff_constraints.py:10-16). -/
def Grounder.new {α} : Grounder α := ⟨[], 0⟩

/-- One ground reaction (reactions.py:33-38). -/
def groundReaction (r : Reaction) (s : Subst) : Reaction := ⟨r.name, [], subF s r.cond, subE s r.eff⟩

/-- Models `ReactionGrounder.calculate_reactions` (reactions.py:22-39): the loop over the schemas. -/
def calculateReactions (dom : String → Except Err (List Const)) : List Reaction → Grounder Reaction → Grounder Reaction × Option Err
  | [], g => (g, none)
  | r :: rs, g =>
    if r.params.length = 0 then
      calculateReactions dom rs ⟨g.items ++ [⟨r.name, [], r.cond, r.eff⟩], g.generated + 1⟩
    else match enumerateGroundings (termDomains dom) (r.params.map Term.var) with
      | .error e => (g, some e)
      | .ok (k, syms, substs) =>
        calculateReactions dom rs
          ⟨g.items ++ (cart substs).map (fun values => groundReaction r (createSubst syms values)), g.generated + k⟩

/-- The inner loop of `calculate_sensors` (sensors.py:27-31): the constructor of a sensing action may raise. -/
def sensorTuples (s : Sensor) (syms : List Term) : List (List Term) → List Sensor → List Sensor × Option Err
  | [], acc => (acc, none)
  | values :: rest, acc =>
    match mkSensor ⟨s.name, [], subF (createSubst syms values) s.cond, subF (createSubst syms values) s.obs⟩ with
    | .error e => (acc, some e)
    | .ok g => sensorTuples s syms rest (acc ++ [g])

/-- Models `SensorGrounder.calculate_sensors` (sensors.py:21-32). -/
def calculateSensors (dom : String → Except Err (List Const)) : List Sensor → Grounder Sensor → Grounder Sensor × Option Err
  | [], g => (g, none)
  | s :: ss, g =>
    match enumerateGroundings (termDomains dom) (s.params.map Term.var) with
    | .error e => (g, some e)
    | .ok (k, syms, substs) =>
      match sensorTuples s syms (cart substs) g.items with
      | (items, some e) => (⟨items, g.generated⟩, some e)
      | (items, none) => calculateSensors dom ss ⟨items, g.generated + k⟩

/-- The inner loop of `calculate_constraints` (diff_constraints.py:24-32). -/
def odeTuples (d : DiffConstraint) (syms : List Term) : List (List Term) → List DiffConstraint → List DiffConstraint × Option Err
  | [], acc => (acc, none)
  | values :: rest, acc =>
    match mkDiffConstraint ⟨d.name, [], subF (createSubst syms values) d.cond, subT (createSubst syms values) d.variate,
        subT (createSubst syms values) d.ode⟩ with
    | .error e => (acc, some e)
    | .ok g => odeTuples d syms rest (acc ++ [g])

/-- Models `DifferentialConstraintGrounder.calculate_constraints` (diff_constraints.py:21-33). -/
def calculateOdes (dom : String → Except Err (List Const)) :
    List DiffConstraint → Grounder DiffConstraint → Grounder DiffConstraint × Option Err
  | [], g => (g, none)
  | d :: ds, g =>
    match enumerateGroundings (termDomains dom) (d.params.map Term.var) with
    | .error e => (g, some e)
    | .ok (k, syms, substs) =>
      match odeTuples d syms (cart substs) g.items with
      | (items, some e) => (⟨items, g.generated⟩, some e)
      | (items, none) => calculateOdes dom ds ⟨items, g.generated + k⟩

end Tarski

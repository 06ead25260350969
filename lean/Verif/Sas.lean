import Verif.ActionGround
import Verif.Evaluator
/-! Model of the grounding of SAS+ action schemas: /repo/src/tarski/sas/__init__.py, sas/temporal.py, sas/util.py. -/
namespace Tarski

/-- A `Schema` (sas/__init__.py:12). The second component of an entry of `variables` is the domain of the variable, or
the key under which the caller's table `domains` has it (util.py:51-54): a value of type `δ`. Variables are `Variable`
objects, transitions are triples of terms. -/
structure SasSchema (δ : Type) where
  name : String
  vars : List (Var × δ)
  constraints : List Formula
  trans : List (Term × Term × Term)

/-- An `Action` (sas/__init__.py:13). -/
structure SasAction where
  name : String
  args : List Const
  trans : List (Term × Term × Term)
deriving DecidableEq

/-- Models `create_substitution(variables, values)` (substitutions.py:34-35) for constants as values. -/
def sasSubst (vs : List Var) (a : List Const) : Subst :=
  createSubst (vs.map Term.var) (a.map (fun c => Term.const c.name c.sort))

/-- Models `check_constraints` (util.py:19-28): the list of all values is built before `all` looks at it, so that every
constraint is evaluated. `s[...]` calls the evaluator without an assignment (model.py:191-200); the evaluator is
`evaluate` (evaluators/simple.py). -/
def checkConstraints (L : MLang) (m : MState) (cs : List Formula) (s : Subst) : Except Err Bool :=
  match cs with
  | [] => .ok true
  | c :: cs => match evFormula L m noSigma (subF s c) with
    | .error e => .error e
    | .ok b => match checkConstraints L m cs s with
      | .error e => .error e
      | .ok b' => .ok (b && b')

/-- The transitions of a ground action (util.py:64-71, 111-118). -/
def subTrans (s : Subst) (ts : List (Term × Term × Term)) : List (Term × Term × Term) :=
  ts.map (fun t => (subT s t.1, subT s t.2.1, subT s t.2.2))

/-- The inner loop of `ground_action_schemas` (util.py:56-74). -/
def groundTuples {δ : Type} (L : MLang) (m : MState) (sch : SasSchema δ) : List (List Const) → Except Err (List SasAction)
  | [] => .ok []
  | a :: as =>
    match checkConstraints L m sch.constraints (sasSubst (sch.vars.map (·.1)) a) with
    | .error e => .error e
    | .ok b => match groundTuples L m sch as with
      | .error e => .error e
      | .ok rest =>
        .ok (if b then ⟨sch.name, a, subTrans (sasSubst (sch.vars.map (·.1)) a) sch.trans⟩ :: rest else rest)

/-- `[domains[entry[1]] for entry in sch.variables]` (util.py:51-54). -/
def sasDomains {δ : Type} (dom : δ → Except Err (List Const)) : List (Var × δ) → Except Err (List (List Const))
  | [] => .ok []
  | (_, d) :: vs => match dom d with
    | .error e => .error e
    | .ok l => match sasDomains dom vs with
      | .error e => .error e
      | .ok ls => .ok (l :: ls)

/-- The outer loop of `ground_action_schemas` (util.py:49-76). -/
def groundSchemasWith {δ : Type} (L : MLang) (m : MState) (dom : δ → Except Err (List Const)) :
    List (SasSchema δ) → Except Err (List SasAction)
  | [] => .ok []
  | sch :: schs =>
    match sasDomains dom sch.vars with
    | .error e => .error e
    | .ok ds => match groundTuples L m sch (cart ds) with
      | .error e => .error e
      | .ok as => match groundSchemasWith L m dom schs with
        | .error e => .error e
        | .ok rest => .ok (as ++ rest)

/-- `ground_action_schemas(lang, schemas)` with inline domains, and with the given structure or the empty one
(util.py:43-47). -/
def groundActionSchemas (L : MLang) (m : Option MState) (schs : List (SasSchema (List Const))) : Except Err (List SasAction) :=
  groundSchemasWith L (m.getD .empty) .ok schs

/-- `ground_action_schemas(lang, schemas, domains)`: `domains[key]` raises KeyError for an unknown key. -/
def groundActionSchemasTable {κ : Type} [DecidableEq κ] (L : MLang) (m : Option MState) (table : List (κ × List Const))
    (schs : List (SasSchema κ)) : Except Err (List SasAction) :=
  groundSchemasWith L (m.getD .empty) (fun k => match dlookup table k with | some l => .ok l | none => .error .keyError) schs

/-! ### Temporal actions -/

/-- A `TemporalAction` (temporal.py:8-20, 45-51): the constructor and `add_event` keep `events` and `deltas` at the same
length, so they are a list of pairs here. `ε` is the type of the events: schemas before grounding, actions afterwards. The
type `τ` of time stamps is arbitrary. -/
structure TemporalAction (τ ε : Type) where
  name : String
  events : List (τ × ε)
deriving DecidableEq

/-- `add_event` (temporal.py:45-51). -/
def TemporalAction.addEvent {τ ε : Type} (t : TemporalAction τ ε) (d : τ) (e : ε) : TemporalAction τ ε :=
  { t with events := t.events ++ [(d, e)] }

/-- `start` (temporal.py:22-27). -/
def TemporalAction.start {τ ε : Type} (t : TemporalAction τ ε) : Except Err ε := pyGet (t.events.map (·.2)) 0

/-- `end` (temporal.py:29-35). -/
def TemporalAction.end' {τ ε : Type} (t : TemporalAction τ ε) : Except Err ε := pyGet (t.events.map (·.2)) (-1)

/-- `duration` (temporal.py:37-43), for time stamps that are added by `plus`, starting from `zero`. -/
def TemporalAction.duration {τ ε : Type} (zero : τ) (plus : τ → τ → τ) (t : TemporalAction τ ε) : τ :=
  (t.events.map (·.1)).foldl plus zero

/-- The variables collected from one event (util.py:90-94); `acc` has the distinct variables seen so far with the domain
of their first occurrence. -/
def collectEvent (acc : List (Var × List Const)) : List (Var × List Const) → List (Var × List Const)
  | [] => acc
  | (v, d) :: vs => if v ∈ acc.map (·.1) then collectEvent acc vs else collectEvent (acc ++ [(v, d)]) vs

/-- The dictionary `D` (util.py:87-94), whose keys are the members of the set `X`, in the order of insertion. The code
iterates over the set `X` (line 96), in an order that depends on the hash seed: the model takes the order as a parameter. -/
def collectVars (acc : List (Var × List Const)) : List (SasSchema (List Const)) → List (Var × List Const)
  | [] => acc
  | e :: es => collectVars (collectEvent acc e.vars) es

/-- The loop over the events for one tuple of values (util.py:104-120): leaves the loop at the first event with a false
constraint, which is `none` (line 121). -/
def groundEvents {τ : Type} (L : MLang) (m : MState) (s : Subst) (a : List Const) :
    List (τ × SasSchema (List Const)) → Except Err (Option (List (τ × SasAction)))
  | [] => .ok (some [])
  | (d, e) :: es => match checkConstraints L m e.constraints s with
    | .error er => .error er
    | .ok false => .ok none
    | .ok true => match groundEvents L m s a es with
      | .error er => .error er
      | .ok none => .ok none
      | .ok (some l) => .ok (some ((d, ⟨e.name, a, subTrans s e.trans⟩) :: l))

/-- `sep.join(...)` -/
def strJoin (sep : String) : List String → String
  | [] => ""
  | [x] => x
  | x :: y :: xs => x ++ sep ++ strJoin sep (y :: xs)

/-- The loop over the tuples (util.py:101-131). -/
def groundTemporalTuples {τ : Type} (L : MLang) (m : MState) (t : TemporalAction τ (SasSchema (List Const))) (vs : List Var) :
    List (List Const) → Except Err (List (TemporalAction τ SasAction))
  | [] => .ok []
  | a :: as =>
    match groundEvents L m (sasSubst vs a) a t.events with
    | .error e => .error e
    | .ok o => match groundTemporalTuples L m t vs as with
      | .error e => .error e
      | .ok rest => .ok (match o with
        | none => rest
        | some evs => ⟨t.name ++ "(" ++ strJoin "," (a.map (fun c => c.name.render)) ++ ")", evs⟩ :: rest)

/-- Models `ground_temporal_action` (util.py:79-131), given the order in which the set of variables is iterated: `ord` is a
rearrangement of `collectVars [] (events)`. The argument `domains` is not used by the code. -/
def groundTemporal {τ : Type} (L : MLang) (m : MState) (ord : List (Var × List Const))
    (t : TemporalAction τ (SasSchema (List Const))) : Except Err (List (TemporalAction τ SasAction)) :=
  groundTemporalTuples L m t (ord.map (·.1)) (cart (ord.map (·.2)))

end Tarski

import Verif.Ply
import Verif.Equality
/-! Model of the actions, durative actions, derived predicates, initial states and metrics of the PLY-based PDDL reader:
/repo/src/tarski/io/pddl/parser.py (520-592, 890-1269, 1299-1432) and /repo/src/tarski/io/pddl/instance.py (262-371).

As in Ply.lean, derivation trees are the input, the bodies of the rules are run from left to right and from the leaves up. The
exceptions `UnsupportedFeature` and `ParseError` are represented by `.notImplemented` and `.syntactic`. -/
namespace Tarski

/-- `assign_op` (parser.py:990-997) -/
inductive YAssign where
  | assign | scaleUp | scaleDown | increase | decrease
deriving DecidableEq

/-- `p_effect` (parser.py:925-931). The rule for `assign` with a numeric expression and the one with a term have different
right-hand sides. -/
inductive YEff where
  | add (a : YAtom)
  | del (a : YAtom)
  | num (op : YAssign) (f : String) (args : List YTerm) (e : YExp)
  | obj (f : String) (args : List YTerm) (t : YTerm)
  | undefine (f : String) (args : List YTerm)

/-- `c_effect` (parser.py:909-913) -/
inductive YCEff where
  | eff (e : YEff)
  | «forall» (vs : List VTok) (es : List YCEff)
  | when (g : YGD) (es : List YEff)

/-- The right-hand side of an effect: a number or a term. -/
inductive YRhs where
  | num (n : Int)
  | term (t : Term)

/-- `AssignmentEffectData` (instance.py:22) -/
structure YAssignment where
  lhs : Term
  rhs : YRhs

/-- `atomic_formula['rhs']`, which is 1 for a predicate (parser.py:697-701). -/
def YAtomVal.right (v : YAtomVal) : YRhs := match v.rhs with
  | none => .num 1
  | some u => .term u

/-- The operation on the old value and the expression in parser.py:951-970: `*` for `scale-up` and for `scale-down`. -/
def YAssign.oper : YAssign → Option String
  | .assign => none
  | .scaleUp => some "*"
  | .scaleDown => some "*"
  | .increase => some "+"
  | .decrease => some "-"

/-- Models `p_p_effect` (parser.py:924-971). -/
def readYEff (L : YLang) (sc : YScope) : YEff → Except Err YAssignment
  | .add a => match readYAtom L sc a with
    | .error e => .error e
    | .ok v => .ok ⟨v.lhs, v.right⟩
  | .del a => match readYAtom L sc a with
    | .error e => .error e
    | .ok v => match v.rhs with
      | some _ => .error .semantic
      | none => .ok ⟨v.lhs, .num 0⟩
  | .num op f args e => match readYExp L sc (.head f args) with
    | .error e => .error e
    | .ok lhs => match readYExp L sc e with
      | .error e => .error e
      | .ok rhs => match op.oper with
        | none => .ok ⟨lhs, .term rhs⟩
        | some o => match L.base.agg.dispatch o lhs rhs with
          | .error e => .error e
          | .ok r => .ok ⟨lhs, .term r⟩
  | .obj f args t => match readYTerm L sc (.fn f args) with
    | .error e => .error e
    | .ok lhs => match readYTerm L sc t with
      | .error e => .error e
      | .ok rhs => .ok ⟨lhs, .term rhs⟩
  | .undefine f args => match readYTerm L sc (.fn f args) with
    | .error e => .error e
    | .ok _ => .error .notImplemented

/-- Models `p_cond_effect` and `p_list_of_p_effect` (parser.py:973-988): with `and`, the rule for the empty list reads the
missing second symbol and raises; `and` is the flag. -/
def readYCond (L : YLang) (sc : YScope) (and : Bool) : List YEff → Except Err (List YAssignment)
  | [] => if and then .error .index else .ok []
  | e :: es => match readYEff L sc e with
    | .error e => .error e
    | .ok a => match readYCond L sc and es with
      | .error e => .error e
      | .ok as => .ok (a :: as)

mutual
/-- Models `p_c_effect` (parser.py:909-922); the variables of `forall` are not put in scope. -/
def readYCEff (L : YLang) (sc : YScope) : YCEff → Except Err YAssignment
  | .eff e => readYEff L sc e
  | .forall _ es => match readYCEffs L sc es with
    | .error e => .error e
    | .ok _ => .error .notImplemented
  | .when g es => match readGD L g sc with
    | .error e => .error e
    | .ok _ => match readYCond L sc (es.length ≠ 1) es with
      | .error e => .error e
      | .ok _ => .error .notImplemented
/-- Models `p_effect` and `p_list_of_c_effect` (parser.py:890-907); a single effect gives a list, too. -/
def readYCEffs (L : YLang) (sc : YScope) : List YCEff → Except Err (List YAssignment)
  | [] => .ok []
  | e :: es => match readYCEff L sc e with
    | .error e => .error e
    | .ok a => match readYCEffs L sc es with
      | .error e => .error e
      | .ok as => .ok (a :: as)
end

/-- `action_def` (parser.py:533-590): an omitted condition and the condition `()` both give `None`, as the effect `()` does. -/
structure YAction where
  name : String
  params : List VTok
  pre : Option YGD
  eff : Option (List YCEff)

/-- `ActionData` (instance.py:24) -/
structure YActionData where
  name : String
  params : List Var
  pre : Option Formula
  post : Option (List YAssignment)

/-- An optional condition. -/
def readYPre (L : YLang) (sc : YScope) : Option YGD → Except Err (Option Formula × YScope)
  | none => .ok (none, sc)
  | some g => match readGD L g sc with
    | .error e => .error e
    | .ok (f, sc) => .ok (some f, sc)

/-- An optional effect. -/
def readPost (L : YLang) (sc : YScope) : Option (List YCEff) → Except Err (Option (List YAssignment))
  | none => .ok none
  | some es => match readYCEffs L sc es with
    | .error e => .error e
    | .ok as => .ok (some as)

/-- Models `p_action_def`, `p_action_parameters` (parser.py:533-555) and `process_instantaneous_action_skeleton`
(instance.py:313-325): the action that is appended, and the variables in scope afterwards. -/
def readYAction (L : YLang) (sc : YScope) (a : YAction) : Except Err (YActionData × YScope) :=
  match normalizeVars L [] a.params with
  | .error e => .error e
  | .ok vs => match readYPre L (enterScope sc vs) a.pre with
    | .error e => .error e
    | .ok (pre, sc1) => match readPost L sc1 a.eff with
      | .error e => .error e
      | .ok post => match leaveScope sc1 vs with
        | .error e => .error e
        | .ok sc2 => .ok (⟨a.name, vs, pre, post⟩, sc2)

/-- `time_specifier` and `interval` (parser.py:1100-1108) -/
inductive YWhen where
  | start | «end» | all
deriving DecidableEq

/-- `da_GD` (parser.py:1056-1098); preferences are left out. -/
inductive YDaGD where
  | timed (w : YWhen) (g : YGD)
  | and (ds : List YDaGD)
  | «forall» (vs : List VTok) (d : YDaGD)

/-- The value of `da_GD` and `da_effect`: a dictionary or a list. -/
inductive YVal (ω α : Type) where
  | entry (w : ω) (x : α)
  | list (vs : List (YVal ω α))

mutual
/-- Models `p_da_GD`, `p_timed_GD` and `p_list_of_da_GD` (parser.py:1047-1098). -/
def readDaGD (L : YLang) : YDaGD → YScope → Except Err (YVal YWhen Formula × YScope)
  | .timed w g, sc => match readGD L g sc with
    | .error e => .error e
    | .ok (f, sc) => .ok (.entry w f, sc)
  | .and ds, sc => match readDaGDs L ds sc with
    | .error e => .error e
    | .ok (vs, sc) => .ok (.list vs, sc)
  | .forall _ d, sc => match readDaGD L d sc with
    | .error e => .error e
    | .ok _ => .error .notImplemented
def readDaGDs (L : YLang) : List YDaGD → YScope → Except Err (List (YVal YWhen Formula) × YScope)
  | [], sc => .ok ([], sc)
  | d :: ds, sc => match readDaGD L d sc with
    | .error e => .error e
    | .ok (v, sc) => match readDaGDs L ds sc with
      | .error e => .error e
      | .ok (vs, sc) => .ok (v :: vs, sc)
end

/-- `timed_effect` (parser.py:1189-1202), with a single effect or a conjunction; `da_effect` (1161-1178). The rules
`f_assign_da` and `f_exp_t` raise on every input (1204-1221, 1238-1244). -/
inductive YDaEff where
  | timed (atEnd : Bool) (e : YEff)
  | timedAnd (atEnd : Bool) (es : List YEff)
  | assignDa (atEnd : Bool) (f : String) (args : List YTerm) (e : YExp)
  | continuous (f : String) (args : List YTerm) (e : YExp)
  | and (ds : List YDaEff)
  | «forall» (vs : List VTok) (d : YDaEff)
  | when (c : YDaGD) (d : YDaEff)

mutual
/-- Models `p_da_effect`, `p_timed_effect` and `p_list_of_da_effect` (parser.py:1161-1202). The errors of what is inside of `forall`, `when` and
the assignments, which would come first, are left out: they raise in any case. -/
def readDaEff (L : YLang) (sc : YScope) : YDaEff → Except Err (YVal Bool (List YAssignment))
  | .timed w e => match readYEff L sc e with
    | .error e => .error e
    | .ok a => .ok (.entry w [a])
  | .timedAnd w es => match readYCond L sc true es with
    | .error e => .error e
    | .ok as => .ok (.entry w as)
  | .assignDa _ _ _ _ => .error .semantic
  | .continuous _ _ _ => .error .notImplemented
  | .and ds => match readDaEffs L sc ds with
    | .error e => .error e
    | .ok vs => .ok (.list vs)
  | .forall _ _ => .error .notImplemented
  | .when _ _ => .error .notImplemented
def readDaEffs (L : YLang) (sc : YScope) : List YDaEff → Except Err (List (YVal Bool (List YAssignment)))
  | [] => .ok []
  | d :: ds => match readDaEff L sc d with
    | .error e => .error e
    | .ok v => match readDaEffs L sc ds with
      | .error e => .error e
      | .ok vs => .ok (v :: vs)
end

/-- `empty_or_da_GD` and `empty_or_da_effect` (parser.py:1021-1045): `()` gives `None`, a dictionary is put in a list. -/
def YVal.listed {ω α} : YVal ω α → List (YVal ω α)
  | .entry w x => [.entry w x]
  | .list vs => vs

/-- `duration_constraint` and `simple_duration_constraint` (parser.py:1110-1147) -/
inductive YDuration where
  | empty
  | simple (op : Cmp) (v : String) (e : YExp)
  | and (ds : List YDuration)
  | at (w : YWhen) (d : YDuration)

mutual
/-- Models `p_duration_constraint` and `p_simple_duration_constraint` (parser.py:1110-1147). -/
def readDuration (L : YLang) (sc : YScope) : YDuration → Except Err (Option Term)
  | .empty => .ok none
  | .simple op v e => match readYExp L sc e with
    | .error e => .error e
    | .ok t => if op ≠ .eq then .error .notImplemented else if v ≠ "?duration" then .error .syntactic else .ok (some t)
  | .and ds => match readDurations L sc ds with
    | .error e => .error e
    | .ok _ => .error .notImplemented
  | .at _ d => match readDuration L sc d with
    | .error e => .error e
    | .ok _ => .error .notImplemented
def readDurations (L : YLang) (sc : YScope) : List YDuration → Except Err Unit
  | [] => .ok ()
  | d :: ds => match readDuration L sc d with
    | .error e => .error e
    | .ok _ => readDurations L sc ds
end

/-- `durative_action_def` (parser.py:999-1019) -/
structure YDurative where
  name : String
  params : List VTok
  duration : YDuration
  cond : Option YDaGD
  eff : Option YDaEff

/-- `DurativeActionData` (instance.py:25) -/
structure YDurativeData where
  name : String
  params : List Var
  duration : Option Term
  startPre : List Formula := []
  endPre : List Formula := []
  overall : List Formula := []
  startPost : List YAssignment := []
  endPost : List YAssignment := []

/-- `if phi_ref not in formulas: formulas += [phi_ref]` (instance.py:279-288); formulas are compared syntactically. -/
def addRef (fs : List Formula) (f : Formula) : List Formula := if f ∈ fs then fs else fs ++ [f]

/-- The loop over the conditions (instance.py:274-288); indexing a list with a string raises. -/
def sortConds (d : YDurativeData) : List (YVal YWhen Formula) → Except Err YDurativeData
  | [] => .ok d
  | .list _ :: _ => .error .typeError
  | .entry .start f :: vs => sortConds { d with startPre := addRef d.startPre f } vs
  | .entry .end f :: vs => sortConds { d with endPre := addRef d.endPre f } vs
  | .entry .all f :: vs => sortConds { d with overall := addRef d.overall f } vs

/-- The loop over the effects (instance.py:300-304): the first one of every entry. -/
def sortEffs (d : YDurativeData) : List (YVal Bool (List YAssignment)) → Except Err YDurativeData
  | [] => .ok d
  | .list _ :: _ => .error .typeError
  | .entry w as :: vs => match as with
    | [] => .error .index
    | a :: _ => sortEffs (if w then { d with endPost := d.endPost ++ [a] } else { d with startPost := d.startPost ++ [a] }) vs

/-- Models `p_durative_action_def` (parser.py:999-1007) and `process_durative_action_skeleton` (instance.py:262-311); the loops
over `None` raise (after everything else has been read, which the model does not distinguish). -/
def readDurative (L : YLang) (sc : YScope) (a : YDurative) : Except Err (YDurativeData × YScope) :=
  match normalizeVars L [] a.params with
  | .error e => .error e
  | .ok vs => match readDuration L (enterScope sc vs) a.duration with
    | .error e => .error e
    | .ok dur => match a.cond with
      | none => .error .typeError
      | some c => match readDaGD L c (enterScope sc vs) with
        | .error e => .error e
        | .ok (cv, sc1) => match a.eff with
          | none => .error .typeError
          | some d => match readDaEff L sc1 d with
            | .error e => .error e
            | .ok ev => match sortConds { name := a.name, params := vs, duration := dur } cv.listed with
              | .error e => .error e
              | .ok d1 => match sortEffs d1 ev.listed with
                | .error e => .error e
                | .ok d2 => match leaveScope sc1 vs with
                  | .error e => .error e
                  | .ok sc2 => .ok (d2, sc2)

/-- `derived_def` (parser.py:1246-1247) -/
structure YDerived where
  head : String
  params : List VTok
  body : YGD

/-- `DerivedPredicateData` (instance.py:26) -/
structure YDerivedData where
  head : String
  params : List Var
  body : Formula

/-- The loop over the domain of the head predicate (parser.py:1257-1262). -/
def checkHead : List String → List Var → Except Err Unit
  | [], _ => .ok ()
  | _ :: _, [] => .error .index
  | s :: ss, v :: vs => if s = v.sort then checkHead ss vs else .error .semantic

/-- Models `p_derived_def` (parser.py:1246-1269), `p_atomic_formula_skeleton_vars` (374-388) and
`process_derived_predicate_skeleton` (instance.py:349-360); `preds` are the domains of the predicates. A predicate that is not
declared is `None`, whose domain cannot be read. -/
def readDerived (L : YLang) (preds : String → Option (List String)) (sc : YScope) (a : YDerived) : Except Err (YDerivedData × YScope) :=
  match normalizeVars L [] a.params with
  | .error e => .error e
  | .ok vs => match readGD L a.body (enterScope sc vs) with
    | .error e => .error e
    | .ok (f, sc1) => match preds a.head with
      | none => .error .attribute
      | some dom => match checkHead dom vs with
        | .error e => .error e
        | .ok _ => match leaveScope sc1 vs with
          | .error e => .error e
          | .ok sc2 => .ok (⟨a.head, vs, f⟩, sc2)

/-- `structure_def` (parser.py:526-531) -/
inductive YStruct where
  | action (a : YAction)
  | durative (a : YDurative)
  | derived (a : YDerived)

/-- What the instance records (instance.py:64-66). -/
structure YInstance where
  actions : List YActionData := []
  durative : List YDurativeData := []
  derived : List YDerivedData := []

/-- Models `p_structure_def_list` (parser.py:520-531): the definitions are read one after the other. -/
def readStructs (L : YLang) (preds : String → Option (List String)) : List YStruct → YScope → YInstance → Except Err (YInstance × YScope)
  | [], sc, i => .ok (i, sc)
  | .action a :: ss, sc, i => match readYAction L sc a with
    | .error e => .error e
    | .ok (d, sc) => readStructs L preds ss sc { i with actions := i.actions ++ [d] }
  | .durative a :: ss, sc, i => match readDurative L sc a with
    | .error e => .error e
    | .ok (d, sc) => readStructs L preds ss sc { i with durative := i.durative ++ [d] }
  | .derived a :: ss, sc, i => match readDerived L preds sc a with
    | .error e => .error e
    | .ok (d, sc) => readStructs L preds ss sc { i with derived := i.derived ++ [d] }

/-- `init_el` (parser.py:1312-1318, 1338-1355) -/
inductive YInit where
  | atom (p : String) (args : List YTerm)
  | notAtom (p : String) (args : List YTerm)
  | eqTerms (a b : YTerm)
  | notEq (a b : YTerm)
  | timed (time : String) (p : String) (args : List YTerm)
  | real (t : YTerm) (text : String)
  | nat (t : YTerm) (n : Nat)
  | obj (t : YTerm) (c : String)

/-- The right-hand side of an element: a number, a term, or another element of the language. -/
inductive YInitVal where
  | int (n : Int)
  | float (text : String)
  | term (t : Term)
  | symbol (n : String)

/-- Models `p_atomic_formula_of_name` (parser.py:1352-1373), of which the first rule checks that the symbol is defined. -/
def readInitAtom (L : YLang) (sc : YScope) (p : String) (args : List YTerm) : Except Err Term :=
  match readYTerms L sc args with
  | .error e => .error e
  | .ok ts => match L.base.sym p with
    | none => .error .semantic
    | some (.fn dom _) => match L.base.checkArgs dom ts with
      | .error e => .error e
      | .ok _ => .ok (.app p ts)
    | _ => .error .typeError

/-- Models `p_init_el` and `p_literal_of_name` (parser.py:1312-1350): the rule for a negated atom returns nothing, reading its
components raises; the name of any symbol is accepted as a value. -/
def readInit (L : YLang) (sc : YScope) : YInit → Except Err (Term × YInitVal)
  | .atom p args => match readInitAtom L sc p args with
    | .error e => .error e
    | .ok t => .ok (t, .int 1)
  | .notAtom p args => match readInitAtom L sc p args with
    | .error e => .error e
    | .ok _ => .error .typeError
  | .eqTerms a b => match readYTerm L sc a with
    | .error e => .error e
    | .ok t => match readYTerm L sc b with
      | .error e => .error e
      | .ok u => .ok (t, .term u)
  | .notEq _ _ => .error .semantic
  | .timed _ p args => match readInitAtom L sc p args with
    | .error e => .error e
    | .ok _ => .error .notImplemented
  | .real t s => match readYTerm L sc t with
    | .error e => .error e
    | .ok u => .ok (u, .float s)
  | .nat t n => match readYTerm L sc t with
    | .error e => .error e
    | .ok u => .ok (u, .int n)
  | .obj t c => match readYTerm L sc t with
    | .error e => .error e
    | .ok u => match L.base.sym c with
      | none => .error .semantic
      | some (.const s) => .ok (u, .term (.const (.str c) s))
      | some _ => .ok (u, .symbol c)

/-- Models `p_list_of_init_el` and `p_init` (parser.py:1299-1310). -/
def readInits (L : YLang) (sc : YScope) : List YInit → Except Err (List (Term × YInitVal))
  | [] => .ok []
  | e :: es => match readInit L sc e with
    | .error e => .error e
    | .ok v => match readInits L sc es with
      | .error e => .error e
      | .ok vs => .ok (v :: vs)

/-- `metric_f_exp` (parser.py:1405-1415) -/
inductive YMetric where
  | bin (op : String) (a b : YMetric)
  | multi (op : String) (a : YMetric) (rest : List YMetric)
  | minus (a : YMetric)
  | real (text : String)
  | fluent (f : String) (args : List String)
  | id (n : String)
  | totalTime
  | totalCost
  | violated (n : String)

/-- `ObjectiveType` (instance.py:37-45), as far as it is used. -/
inductive YObjective where
  | unspecified | totalCost | totalTime
deriving DecidableEq

mutual
/-- Models `p_metric_f_exp` and `p_list_of_metric_f_exp` (parser.py:1405-1432): for a single symbol, the second one is missing, and reading it raises. -/
def readYMetric : YMetric → Except Err YObjective
  | .bin _ a b => match readYMetric a with
    | .error e => .error e
    | .ok _ => match readYMetric b with
      | .error e => .error e
      | .ok _ => .ok .unspecified
  | .multi _ a rest => match readYMetric a with
    | .error e => .error e
    | .ok _ => match readYMetrics rest with
      | .error e => .error e
      | .ok _ => .ok .unspecified
  | .minus a => match readYMetric a with
    | .error e => .error e
    | .ok _ => .ok .unspecified
  | .real _ => .error .index
  | .fluent _ _ => .ok .unspecified
  | .id _ => .error .index
  | .totalTime => .ok .totalTime
  | .totalCost => .ok .totalCost
  | .violated _ => .ok .unspecified
def readYMetrics : List YMetric → Except Err Unit
  | [] => .ok ()
  | m :: ms => match readYMetric m with
    | .error e => .error e
    | .ok _ => readYMetrics ms
end

/-- Models `p_metric_spec`, `p_optimization` (parser.py:1392-1403) and `process_objective_definition` (instance.py:362-371):
whether the objective is minimized, and its type. -/
def readMetricSpec (minimize : Bool) (m : YMetric) : Except Err (Bool × YObjective) :=
  match readYMetric m with
  | .error e => .error e
  | .ok o => .ok (minimize, o)

end Tarski

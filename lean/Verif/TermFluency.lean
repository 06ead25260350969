import Verif.Effects
import Verif.FreeVars
import Verif.PddlEff
import Verif.Grounding
/-! Model of the classification of terms into fluent and static ones: `FluentSymbolCollector`
(/repo/src/tarski/fstrips/visitors.py), `get_symbols` of the problem classes (/repo/src/tarski/fstrips/problem.py:58-89,
hybrid/problem.py:48-64, contingent/problem.py:29-33), `ProblemGrounding.process_symbols` and
`create_all_possible_state_variables` (/repo/src/tarski/grounding/naive_grounding.py:18-106). -/
namespace Tarski

/-- A `TermReference` to an atom or a compound term (symrefs.py:5-28); references are compared syntactically. -/
inductive TRef where
  | atom (p : PSym) (ts : List Term)
  | term (f : String) (ts : List Term)
deriving DecidableEq

/-- Connectives of a `CompoundFormula` or a `TemporalCompoundFormula` (formulas.py:20-30; ltl.py:7-8). -/
inductive LConn where
  | bool (c : Conn)
  | next
  | eventually
  | always
  | til
  | release
deriving DecidableEq

/-- The formulas of state constraints: first-order formulas with temporal connectives (ltl.py:14-62). -/
inductive LForm where
  | top
  | bot
  | atom (p : PSym) (ts : List Term)
  | comp (c : LConn) (fs : List LForm)
  | quant (q : Quant) (vs : List Var) (f : LForm)

/-- `phi.predicate.builtin`: the comparison predicates (theories.py:77-82, 97-100). -/
def PSym.builtin : PSym → Bool
  | .cmp _ => true
  | .user _ => false

/-- `phi.symbol.builtin` of a compound term (theories.py:86-132). -/
def fnBuiltin (f : String) : Bool := builtinFunctionNames.contains f

mutual
/-- Models `_visit_action_effect_formula` on terms (visitors.py:48-53): variables, constants and if-then-else terms are
ignored. -/
def effT : Term → List TRef → List TRef
  | .app f ts, fl => if fnBuiltin f then effTs ts fl else setAdd fl (.term f ts)
  | _, fl => fl
termination_by structural t => t
/-- `[self.visit(f) for f in phi.subterms]` (visitors.py:46, 53). -/
def effTs : List Term → List TRef → List TRef
  | [], fl => fl
  | t :: ts, fl => effTs ts (effT t fl)
termination_by structural ts => ts
end

/-- Models `_visit_action_effect_formula` on atoms (visitors.py:42-46). -/
def effAtom (p : PSym) (ts : List Term) (fl : List TRef) : List TRef :=
  if p.builtin then effTs ts fl else setAdd fl (.atom p ts)

mutual
/-- Models `_visit_action_effect_formula` on formulas (visitors.py:35-46). -/
def effF : Formula → List TRef → List TRef
  | .comp _ _ fs, fl => effFs fs fl
  | .quant _ _ f, fl => effF f fl
  | .atom p ts, fl => effAtom p ts fl
  | _, fl => fl
termination_by structural f => f
/-- `[self.visit(f) for f in phi.subformulas]` (visitors.py:37). -/
def effFs : List Formula → List TRef → List TRef
  | [], fl => fl
  | f :: fs, fl => effFs fs (effF f fl)
termination_by structural fs => fs
end

mutual
/-- Models `_visit_precondition_formula` on formulas (visitors.py:96-104). -/
def preF : Formula → List TRef → List TRef
  | .comp _ _ fs, st => preFs fs st
  | .quant _ _ f, st => preF f st
  | .atom p ts, st => setAdd st (.atom p ts)
  | _, st => st
termination_by structural f => f
/-- `[self.visit(f) for f in phi.subformulas]` (visitors.py:98). -/
def preFs : List Formula → List TRef → List TRef
  | [], st => st
  | f :: fs, st => preFs fs (preF f st)
termination_by structural fs => fs
end

/-- Models `_visit_precondition_formula` on terms (visitors.py:103-104). -/
def preT : Term → List TRef → List TRef
  | .app f ts, st => setAdd st (.term f ts)
  | _, st => st

/-- The sets that the visitors share and the `visited` set of the constraint visitor (visitors.py:24-33). -/
structure FState where
  fluents : List TRef
  statics : List TRef
  visited : List TRef

/-- The common part of the two branches for atoms and terms (visitors.py:77-83, 87-93); `nx` is `self.under_next`. -/
def conNode (nx builtin : Bool) (x : TRef) (s : FState) : FState :=
  let v := if builtin then s.visited else setAdd s.visited x
  if nx then ⟨if builtin then s.fluents else setAdd s.fluents x, s.statics, v⟩
  else ⟨s.fluents, setAdd s.statics x, v⟩

mutual
/-- Models `_visit_constraint_formula` on terms (visitors.py:86-94). -/
def conT (nx : Bool) : Term → FState → FState
  | .app f ts, s => conTs nx ts (conNode nx (fnBuiltin f) (.term f ts) s)
  | _, s => s
termination_by structural t => t
/-- `[self.visit(f) for f in phi.subterms]` (visitors.py:84, 94). -/
def conTs (nx : Bool) : List Term → FState → FState
  | [], s => s
  | t :: ts, s => conTs nx ts (conT nx t s)
termination_by structural ts => ts
end

/-- Lines 65-71 of visitors.py: if a term visited since `old` is fluent, all of them are. -/
def spread (old : List TRef) (s : FState) : FState :=
  let delta := s.visited.filter (fun x => x ∉ old)
  if delta.any (fun x => x ∈ s.fluents) then { s with fluents := delta.foldl setAdd s.fluents } else s

mutual
/-- Models `_visit_constraint_formula` (visitors.py:55-84): `under_next` is restored after the visit, so it is a parameter. -/
def conL (nx : Bool) : LForm → FState → FState
  | .comp .next fs, s => conLs true fs s
  | .comp _ fs, s => spread s.visited (conLs nx fs s)
  | .quant _ _ f, s => conL nx f s
  | .atom p ts, s => conTs nx ts (conNode nx p.builtin (.atom p ts) s)
  | _, s => s
termination_by structural f => f
/-- `[self.visit(f) for f in phi.subformulas]` (visitors.py:59, 64). -/
def conLs (nx : Bool) : List LForm → FState → FState
  | [], s => s
  | f :: fs, s => conLs nx fs (conL nx f s)
termination_by structural fs => fs
end

/-- The parts of a problem that `get_symbols` looks at. Plain problems have actions and constraints (problem.py:68-89); hybrid
problems also have reactions, with one effect each, and differential constraints, given by condition and variate
(hybrid/problem.py:50-64); contingent problems also have sensors, given by condition and observation
(contingent/problem.py:31-33). -/
structure GProblem where
  actions : List PAction
  constraints : List LForm := []
  reactions : List (Formula × Effect) := []
  diffs : List (Formula × Term) := []
  sensors : List (Formula × Formula) := []

/-- Lines 70-83 of problem.py. The effects of a universal effect are passed to the visitor themselves (line 83), which ignores
everything that is not a formula or a term. Choice effects are not modelled. -/
def symEffect (e : Effect) (s : FState) : FState :=
  let s := { s with statics := preF e.cond s.statics }
  match e with
  | .add _ p ts => { s with fluents := effAtom p ts s.fluents }
  | .del _ p ts => { s with fluents := effAtom p ts s.fluents }
  | .lit _ l => { s with fluents := effF l s.fluents }
  | .assign _ f ts _ => { s with fluents := effT (.app f ts) s.fluents }
  | .univ _ _ _ => s

/-- Lines 68-83 of problem.py, for one action. -/
def symAction (s : FState) (a : PAction) : FState :=
  a.effs.foldl (fun s e => symEffect e s) { s with statics := preF a.pre s.statics }

/-- Lines 87-89 of problem.py, for one constraint. -/
def symConstraint (s : FState) (c : LForm) : FState := conL false c { s with visited := [] }

/-- Lines 50-61 of hybrid/problem.py; black-box and choice effects are not modelled. -/
def symReactions : List (Formula × Effect) → FState → Except Err FState
  | [], s => .ok s
  | (c, e) :: rs, s =>
    let s := { s with statics := preF c s.statics }
    match e with
    | .add _ p ts => symReactions rs { s with fluents := effAtom p ts s.fluents }
    | .del _ p ts => symReactions rs { s with fluents := effAtom p ts s.fluents }
    | .assign _ f ts _ => symReactions rs { s with fluents := effT (.app f ts) s.fluents }
    | _ => .error .runtime

/-- Lines 62-64 of hybrid/problem.py. -/
def symDiff (s : FState) (d : Formula × Term) : FState := { s with statics := preT d.2 (preF d.1 s.statics) }

/-- Lines 31-33 of contingent/problem.py. -/
def symSensor (s : FState) (d : Formula × Formula) : FState := { s with statics := preF d.2 (preF d.1 s.statics) }

/-- Models `get_symbols` (problem.py:58-89, hybrid/problem.py:48-64, contingent/problem.py:29-33). -/
def getSymbols (p : GProblem) (s : FState) : Except Err FState :=
  let s := p.actions.foldl symAction s
  let s := p.constraints.foldl symConstraint s
  match symReactions p.reactions s with
  | .error e => .error e
  | .ok s => .ok (p.sensors.foldl symSensor (p.diffs.foldl symDiff s))

/-- `_check_static_not_fluents` (naive_grounding.py:29-36); the assertion holds of the result. -/
def dropFluents (st fl : List TRef) : List TRef := st.filter (fun x => x ∉ fl)

/-- The rounds after the first of the loop of `process_symbols` (naive_grounding.py:49-55), `none` after `n` rounds without
end. Line 35 binds a new set to `self.static_terms`, while the visitors keep the one they were made with (lines 43-45): what
they add to it (`vis.statics`) in these rounds is lost. -/
def symLoop (p : GProblem) : Nat → List TRef → FState → Option (Except Err (List TRef × List TRef))
  | 0, _, _ => none
  | n + 1, st, vis => match getSymbols p vis with
    | .error e => some (.error e)
    | .ok vis' =>
      let st' := dropFluents st vis'.fluents
      if vis'.fluents.length = vis.fluents.length ∧ st'.length = st.length then some (.ok (vis'.fluents, st'))
      else symLoop p n st' vis'

/-- Models `process_symbols` (naive_grounding.py:38-55): the fluent and the static terms. -/
def processSymbols (p : GProblem) (n : Nat) : Option (Except Err (List TRef × List TRef)) :=
  match getSymbols p ⟨[], [], []⟩ with
  | .error e => some (.error e)
  | .ok vis =>
    let st := dropFluents vis.statics vis.fluents
    if vis.fluents.length = 0 ∧ st.length = 0 then some (.ok (vis.fluents, st)) else symLoop p n st vis

/-! ### State variables -/

/-- A predicate or a function symbol. -/
inductive SVHead where
  | pred (p : PSym)
  | fn (f : String)
deriving DecidableEq

/-- `head` of a state variable for this reference (naive_grounding.py:89). -/
def TRef.head : TRef → SVHead
  | .atom p _ => .pred p
  | .term f _ => .fn f

/-- `subterms` of the expression of a reference (naive_grounding.py:66). -/
def TRef.args : TRef → List Term
  | .atom _ ts => ts
  | .term _ ts => ts

/-- The instantiations of the subterms of a reference (naive_grounding.py:65-74). `builtin` tells builtin sorts, `dom` gives
`list(sort.domain())` or its exception. -/
def svDomains (builtin : String → Bool) (dom : String → Except Err (List Const)) : List Term → Except Err (List (List Const))
  | [] => .ok []
  | .const n so :: ts => match svDomains builtin dom ts with
    | .error e => .error e
    | .ok ds => .ok ([⟨n, so⟩] :: ds)
  | .var v :: ts => if builtin v.sort then .error .unableToGround else match dom v.sort with
    | .error e => .error e
    | .ok d => match svDomains builtin dom ts with
      | .error e => .error e
      | .ok ds => .ok (d :: ds)
  | _ :: _ => .error .unableToGround

/-- A `StateVariable` (naive_grounding.py:81-96): two of them are equal when head and instantiation are. -/
structure StateVar where
  ref : TRef
  inst : List Const

/-- What `__eq__` and `__hash__` of a `StateVariable` look at (naive_grounding.py:92-96). -/
def StateVar.key (v : StateVar) : SVHead × List Const := (v.ref.head, v.inst)

/-- `variables.add(...)` with duplicates suppressed (naive_grounding.py:75-77). The index is keyed by what equality looks at. -/
def addStateVars (r : TRef) : List (List Const) → SymIndex (SVHead × List Const) → SymIndex (SVHead × List Const)
  | [], s => s
  | i :: is, s => addStateVars r is (s.add (StateVar.key ⟨r, i⟩)).1

/-- Models `create_all_possible_state_variables` (naive_grounding.py:58-78), for the references in the order of the
iteration. -/
def allStateVariables (builtin : String → Bool) (dom : String → Except Err (List Const)) :
    List TRef → SymIndex (SVHead × List Const) → Except Err (SymIndex (SVHead × List Const))
  | [], s => .ok s
  | r :: rs, s => match svDomains builtin dom r.args with
    | .error e => .error e
    | .ok ds => allStateVariables builtin dom rs (addStateVars r (cart ds) s)

/-- Models the property `ground` (naive_grounding.py:103-106): the keys of the substitution are the subterms; with equal keys,
the last pair counts. -/
def StateVar.ground (v : StateVar) : TRef :=
  let s : Subst := createSubst v.ref.args (v.inst.map (fun c => Term.const c.name c.sort))
  match v.ref with
  | .atom p ts => .atom p (subTs s ts)
  | .term f ts => .term f (subTs s ts)

end Tarski

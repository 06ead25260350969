import Verif.Reach
import Verif.PddlDecl
import Verif.ModelTextLemmas
/-! What the compiler of reachability logic programs reads of a planning problem (the reader of PDDL text makes the same kind of problem):
/repo/src/tarski/reachability/asp.py:64-113. -/
namespace Tarski

/-- `parent(s)` (fol.py:383-385, asp.py:77): none for `object`. -/
def PDecls.parentOf (D : PDecls) (s : String) : Option String := (D.sort s).map SDecl.parent

/-- `s.domain()` (sorts.py:76-77, 158-164): the constants of the sort and of the sorts below it, or the numbers of an interval; the builtin numeric
sorts and long intervals raise. The order of a python set is not modelled. -/
def PDecls.listDomain (D : PDecls) : Domains := fun s => match D.bounds s with
  | none => .ok ((D.consts.filter fun c => D.isSub c.2 s).map fun c => Term.const c.1 c.2)
  | some (l, u) => if s ∈ builtinSorts.map SDecl.name ∨ 9999 < u - l then .error .notImplemented
    else .ok ((List.range (u + 1 - l).toNat).map fun (k : Nat) => Term.const (.int (l + (k : Int))) s)

/-- Whether an atom of a state is a predicate, with its arguments as terms (model.py:156-169, asp.py:85-99). -/
def predAtom : TrueAtom → Option (String × List Term)
  | (p, pt, none) => some (p, pt.map fun c => Term.const c.name c.sort)
  | (_, _, some _) => none

/-- The functions of the atoms of a state (asp.py:86-95). -/
def fnAtom : TrueAtom → Option String
  | (_, _, none) => none
  | (f, _, some _) => some f

/-- What `ReachabilityLPCompiler` reads of a problem (asp.py:64-113): constants, sorts, atoms of the initial state, actions and goal. `costFns` are the
functions that occur in cost-related effects only (asp.py:68). Simplified: a problem without a goal, for which the compiler raises, is given the trivial
goal. -/
def lpInputOf (p : PProblem) (costFns : List String) : LPInput where
  consts := p.lang.consts
  sorts := "object" :: p.lang.allSorts.map SDecl.name
  interval s := (p.lang.bounds s).isSome
  parent := p.lang.parentOf
  dom := p.lang.listDomain
  initAtoms := (rawAtoms p.init).filterMap predAtom
  initFns := (rawAtoms p.init).filterMap fnAtom
  costFns := costFns
  actions := p.actions.map fun a => (a.name, ⟨a.params, a.pre, a.effs⟩)
  goal := p.goal.getD .top

/-- The dictionary of the constants of a language (fol.py:38, 246-255). -/
def PDecls.constTable (D : PDecls) (n : Name) : Option Const := (dlookup D.consts n).map fun s => ⟨n, s⟩

/-- The dictionary of the actions of a problem (fstrips/problem.py:20, 36-41). -/
def PProblem.actionTable (p : PProblem) : List (String × PAction) := p.actions.map fun a => (a.name, a)

end Tarski

import Verif.TaskInput
import Verif.Grounding
import Verif.EffectsSpec
import Mathlib.Data.List.Dedup
/-! Model of the symbols and state variables of `NaiveGroundingStrategy` for a problem: /repo/src/tarski/grounding/naive_grounding.py:116-129 with
/repo/src/tarski/grounding/ops.py:5-25. -/
namespace Tarski

/-- The symbols of the atoms that effects add or delete. Simplified: the builtin predicates, which no PDDL effect changes, are left out. -/
def userSym : PSym → Option Sym
  | .user q => some (.pred q)
  | .cmp _ => none

/-- `collect_affected_symbols(problem)` (ops.py:22; fstrips/ops.py:31-38): a set, in some order. -/
def affectedSyms (p : PProblem) : Except Err (List Sym) :=
  match affectedEs (p.actions.flatMap PAction.effs) with
  | .error e => .error e
  | .ok (ps, fs) => .ok (ps.filterMap userSym ++ fs.map Sym.fn).dedup

/-- `s.name` -/
def symIdent : Sym → String
  | .pred q => q
  | .fn f => f

/-- `set(get_symbols(problem.language, include_builtin=False))` (ops.py:23). -/
def languageSyms (D : PDecls) : List Sym := D.preds.map (fun q => .pred q.1) ++ D.funs.map (fun f => .fn f.1)

/-- Models `NaiveGroundingStrategy.__init__` (naive_grounding.py:116-121, ops.py:22-25): the fluent and the static symbols. An empty or missing
`ignore_symbols` is the empty list. -/
def strategySyms (p : PProblem) (ign : List String) : Except Err (List Sym × List Sym) :=
  match affectedSyms p with
  | .error e => .error e
  | .ok fl => .ok (fl.filter (fun s => symIdent s ∉ ign), ((languageSyms p.lang).filter (fun s => s ∉ fl)).filter (fun s => symIdent s ∉ ign))

/-- `symbol.domain`: the sorts of the arguments (predicate.py:37-38, function.py). -/
def symSorts (D : PDecls) : Sym → List String
  | .pred q => (dlookup D.preds q).getD []
  | .fn f => match dlookup D.funs f with
    | some (ss, _) => ss
    | none => []

/-- Models `ground_state_variables` (naive_grounding.py:123-129) of the strategy for the problem. -/
def strategyVars (p : PProblem) (ign : List String) : Except Err (SymIndex (Sym × List Term)) :=
  match strategySyms p ign with
  | .error e => .error e
  | .ok (fl, _) => groundSymbols p.lang.listDomain (symSorts p.lang) fl

end Tarski

import Verif.AspNames
import Verif.Reach
import Mathlib.Data.List.Dedup
/-! Model of the parsing of the answer of the ASP solver (/repo/src/tarski/reachability/clingo_wrapper.py:75-91) and of the
grounding strategy that uses it (/repo/src/tarski/grounding/lp_grounding.py:14-102).

The solver itself is not modelled: its answer is a list of lines. -/
namespace Tarski

/-- `s.rstrip(chars)`. -/
def pyRstrip (cs : List Char) (s : AStr) : AStr := (s.reverse.dropWhile (fun c => cs.contains c)).reverse

/-- `s.split(c)` for a single character. -/
def pySplit (c : Char) : AStr → List AStr
  | [] => [[]]
  | x :: xs => if x = c then [] :: pySplit c xs else match pySplit c xs with
    | [] => [[x]]
    | p :: ps => (x :: p) :: ps

/-- A model, as `_parse_model` returns it: the dictionary of sets of bindings, given by the pairs of a symbol and a binding
in the set of that symbol. (A symbol without bindings is not told from an absent one; the code never does either.) -/
abbrev LPModel := List (AStr × List AStr)

/-- One iteration of the loop of `_parse_model` (clingo_wrapper.py:79-89). -/
def parseLine (tr : Translator) (line : AStr) : Except Err (AStr × List AStr) :=
  match pySplit '(' (pyRstrip [')'] (pyRstrip [' ', '\n', '.'] line)) with
  | [s] => .ok (tr.back s, [])
  | [s, args] => .ok (tr.back s, (pySplit ',' args).map tr.back)
  | _ => .error .runtime

/-- Models `_parse_model` (clingo_wrapper.py:75-91). -/
def parseModel (tr : Translator) : List AStr → Except Err LPModel
  | [] => .ok []
  | l :: ls => match parseLine tr l with
    | .error e => .error e
    | .ok x => match parseModel tr ls with
      | .error e => .error e
      | .ok xs => .ok (x :: xs)

/-- `model[key]`, `model.get(key, set())`. -/
def LPModel.get (m : LPModel) (key : AStr) : List (List AStr) := (m.filter (fun x => x.1 = key)).map Prod.snd

/-- The attributes of `LPGroundingStrategy` (lp_grounding.py:23-28) that matter: the switch, the names of the actions, the
fluent symbols, and the cached model. -/
structure LPStrategy where
  groundActs : Bool
  actions : List AStr
  fluents : List AStr
  model : Option LPModel

/-- What `create_reachability_lp` and `run_clingo` return (lp_grounding.py:70-71), which depends only on the problem: the
translator and the lines of the answer. -/
abbrev SolverRun := Except Err (Translator × List AStr)

/-- Models `_solve_lp` (lp_grounding.py:68-80); `Err.representation` stands for ReachabilityLPUnsolvable. `model[GOAL]` is a
set, with at most one (empty) binding. -/
def LPStrategy.solve (run : SolverRun) (s : LPStrategy) : LPStrategy × Except Err LPModel :=
  match s.model with
  | some m => (s, .ok m)
  | none => match run with
    | .error e => (s, .error e)
    | .ok (tr, lines) => match parseModel tr lines with
      | .error e => (s, .error e)
      | .ok m =>
        if (m.get "goal".toList).dedup.length ≠ 1 then ({ s with model := some m }, .error .representation)
        else ({ s with model := some m }, .ok m)

/-- Models `ground_actions` (lp_grounding.py:47-61): the sets of groundings, by action. -/
def LPStrategy.groundActions (run : SolverRun) (s : LPStrategy) : LPStrategy × Except Err (List (AStr × List (List AStr))) :=
  if !s.groundActs then (s, .error .runtime)
  else match s.solve run with
    | (s', .error e) => (s', .error e)
    | (s', .ok m) => (s', .ok (s.actions.map fun k => (k, m.get ("action_".toList ++ k))))

/-- Models `iterate_over_schema_groundings` (lp_grounding.py:63-66): the list of what is iterated over. -/
def LPStrategy.iterateGroundings (run : SolverRun) (s : LPStrategy) (name : AStr) :
    LPStrategy × Except Err (List (List AStr)) :=
  match s.solve run with
  | (s', .error e) => (s', .error e)
  | (s', .ok m) => (s', .ok (m.get name))

/-- `tuple(lang.get(c) for c in binding)` and the check of `StateVariableLite` (lp_grounding.py:42-43, common.py:19-23):
every name must be the name of a constant. -/
def bindingConsts (isConst : AStr → Bool) (b : List AStr) : Except Err (List AStr) :=
  if b.all isConst then .ok b else .error .undefinedTerm

/-- The bindings of one symbol, added one by one (lp_grounding.py:41-43). -/
def addVariables (isConst : AStr → Bool) (sym : AStr) : SymIndex (AStr × List AStr) → List (List AStr) →
    Except Err (SymIndex (AStr × List AStr))
  | idx, [] => .ok idx
  | idx, b :: bs => match bindingConsts isConst b with
    | .error e => .error e
    | .ok b' => match idx.add (sym, b') with
      | (_, some e) => .error e
      | (idx', none) => addVariables isConst sym idx' bs

/-- The loop over the fluent symbols (lp_grounding.py:37-43). A set of bindings has no repetitions. -/
def addSymbols (isConst : AStr → Bool) (m : LPModel) : SymIndex (AStr × List AStr) → List AStr →
    Except Err (SymIndex (AStr × List AStr))
  | idx, [] => .ok idx
  | idx, p :: ps => match addVariables isConst p idx (m.get ("atom_".toList ++ p)).dedup with
    | .error e => .error e
    | .ok idx' => addSymbols isConst m idx' ps

/-- Models `ground_state_variables` (lp_grounding.py:30-45). -/
def LPStrategy.groundVariables (run : SolverRun) (isConst : AStr → Bool) (s : LPStrategy) :
    LPStrategy × Except Err (SymIndex (AStr × List AStr)) :=
  match s.solve run with
  | (s', .error e) => (s', .error e)
  | (s', .ok m) => (s', addSymbols isConst m SymIndex.empty s.fluents)

end Tarski

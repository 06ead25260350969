import Verif.Nodes
import Verif.PddlEff
/-! Model of the functions that tell which symbols a problem uses: /repo/src/tarski/fstrips/representation.py:365-430,
/repo/src/tarski/fstrips/ops.py:16-28, 41-60 with /repo/src/tarski/fstrips/walker.py:69-168, /repo/src/tarski/syntax/util.py:4-20.
That the expressions are changed in place by the walks (C58) is not repeated here. -/
namespace Tarski

/-- `f.symbol.name` of a compound term. -/
def Node.fnName : Node → Option String
  | .t (.app g _) => some g
  | _ => none

/-- Models `collect_all_function_names` (representation.py:365-368). -/
def collectFnNames (e : Node) (out : List String) : List String :=
  ((uniqueNodes Node.isApp e).1.filterMap Node.fnName).foldl setAdd out

mutual
/-- Models `mark_cost_unrelated_functions_in_effect` (representation.py:387-398). -/
def markE : Effect → List String → List String
  | .add c p ts, out => collectFnNames (.f (.atom p ts)) (collectFnNames (.f c) out)
  | .del c p ts, out => collectFnNames (.f (.atom p ts)) (collectFnNames (.f c) out)
  | .lit c l, out => collectFnNames (.f l) (collectFnNames (.f c) out)
  | .assign c f ts r, out => collectFnNames (.t r) (collectFnNames (.t (.app f ts)) (collectFnNames (.f c) out))
  | .univ c _ es, out => markEs es (collectFnNames (.f c) out)
def markEs : List Effect → List String → List String
  | [], out => out
  | e :: es, out => markEs es (markE e out)
end

/-- The loop over the actions (representation.py:379-382). -/
def markActions : List Schema → List String → List String
  | [], out => out
  | a :: as, out => markActions as (markEs a.effs (collectFnNames (.f a.pre) out))

/-- Models `get_symbols(language, "function", include_builtin=False)` (util.py:4-20) on the names of the declared functions,
where a builtin function is one with the name of a builtin function. -/
def userFunctions (fns : List String) : List String :=
  (fns.filter (fun f => !builtinFunctionNames.contains f)).filter (fun f => f != "total-cost")

/-- Models `identify_cost_related_functions` (representation.py:371-384); the costs of the actions are not looked at. -/
def costFunctions (fns : List String) (goal : Formula) (as : List Schema) : List String :=
  (userFunctions fns).filter (fun f => decide (f ∉ markActions as (collectFnNames (.f goal) [])))

/-- A symbol that is met by `AllSymbolWalker` (ops.py:52-60). -/
inductive Met where
  | pred (p : PSym)
  | fn (f : String)
deriving DecidableEq

/-- The symbol added when a node is visited (ops.py:48-60). -/
def Node.met : Node → Option Met
  | .t (.app g _) => some (.fn g)
  | .f (.atom p _) => some (.pred p)
  | _ => none

/-- Models `AllSymbolWalker` on an expression: `visit_expression` (fstrips/walker.py:125-159) visits the same nodes as the walker
of first-order expressions. -/
def metExpr (e : Node) (out : List Met) : List Met := (e.nodes.filterMap Node.met).foldl setAdd out

mutual
/-- Models `ProblemWalker.visit_effect` (fstrips/walker.py:103-124) with `AllSymbolWalker`: the condition of a universal effect is
not visited, literal effects raise. -/
def metE : Effect → List Met → Except Err (List Met)
  | .add c p ts, out => .ok (metExpr (.f (.atom p ts)) (metExpr (.f c) out))
  | .del c p ts, out => .ok (metExpr (.f (.atom p ts)) (metExpr (.f c) out))
  | .assign c f ts r, out => .ok (metExpr (.t r) (metExpr (.t (.app f ts)) (metExpr (.f c) out)))
  | .univ _ _ es, out => metEs es out
  | .lit _ _, _ => .error .runtime
def metEs : List Effect → List Met → Except Err (List Met)
  | [], out => .ok out
  | e :: es, out => match metE e out with
    | .error er => .error er
    | .ok out' => metEs es out'
end

/-- The loop of `visit_problem` over the actions (fstrips/walker.py:84-101). -/
def metActions : List Schema → List Met → Except Err (List Met)
  | [], out => .ok out
  | a :: as, out => match metEs a.effs (metExpr (.f a.pre) out) with
    | .error er => .error er
    | .ok out' => metActions as out'

/-- `not s.builtin` (ops.py:28). -/
def Met.isUser : Met → Bool
  | .pred (.user _) => true
  | .pred (.cmp _) => false
  | .fn f => !builtinFunctionNames.contains f

/-- Models `collect_all_symbols` (ops.py:16-28). -/
def allSymbols (includeBuiltin : Bool) (goal : Formula) (as : List Schema) : Except Err (List Met) :=
  match metActions as (metExpr (.f goal) []) with
  | .error e => .error e
  | .ok s => .ok (if includeBuiltin then s else s.filter Met.isUser)

end Tarski

import Verif.Equality
import Verif.FreeVars
/-! Model of `collect_unique_nodes` and of the queries that are built on it: /repo/src/tarski/syntax/ops.py:60-62, 83-102,
/repo/src/tarski/syntax/walker.py:57-89, /repo/src/tarski/fstrips/representation.py:171-172, 275-284, 365-368. -/
namespace Tarski

/-- A node of an expression. -/
inductive Node where
  | t (t : Term)
  | f (f : Formula)
deriving DecidableEq

mutual
/-- What `FOLWalker.visit_expression` (walker.py:57-86) makes of a term when `visit` returns every node unchanged: the walk
replaces the containers of subexpressions by lists, in place (walker.py:67-82, 88-89); for the subterms of terms and atoms
the kind of container is not modelled, as it does not matter to equality (util.py:23-25). -/
def walkT : Term → Term
  | .var v => .var v
  | .const n s => .const n s
  | .app g ts => .app g (walkTs ts)
  | .ite c a b => .ite (walkF c) (walkT a) (walkT b)
def walkTs : List Term → List Term
  | [] => []
  | t :: ts => walkT t :: walkTs ts
/-- The same for formulas. -/
def walkF : Formula → Formula
  | .top => .top
  | .bot => .bot
  | .atom p ts => .atom p (walkTs ts)
  | .comp _ c fs => .comp .list c (walkFs fs)
  | .quant q vs f => .quant q (walkTs vs) (walkF f)
def walkFs : List Formula → List Formula
  | [] => []
  | f :: fs => walkF f :: walkFs fs
end

mutual
/-- The nodes that are visited, in the order of the visits: children first (walker.py:63-86). -/
def nodesT : Term → List Node
  | .var v => [.t (.var v)]
  | .const n s => [.t (.const n s)]
  | .app g ts => nodesTs ts ++ [.t (walkT (.app g ts))]
  | .ite c a b => nodesF c ++ (nodesT a ++ nodesT b) ++ [.t (walkT (.ite c a b))]
def nodesTs : List Term → List Node
  | [] => []
  | t :: ts => nodesT t ++ nodesTs ts
def nodesF : Formula → List Node
  | .top => [.f .top]
  | .bot => [.f .bot]
  | .atom p ts => nodesTs ts ++ [.f (walkF (.atom p ts))]
  | .comp k c fs => nodesFs fs ++ [.f (walkF (.comp k c fs))]
  | .quant q vs f => nodesF f ++ nodesTs vs ++ [.f (walkF (.quant q vs f))]
def nodesFs : List Formula → List Node
  | [] => []
  | f :: fs => nodesF f ++ nodesFs fs
end

def Node.nodes : Node → List Node
  | .t x => nodesT x
  | .f x => nodesF x

/-- What becomes of the expression itself. -/
def Node.walk : Node → Node
  | .t x => .t (walkT x)
  | .f x => .f (walkF x)

/-- Adding the visited nodes that pass the filter to a set (ops.py:99-101). -/
def collectNodes (p : Node → Bool) : List Node → List Node → List Node
  | acc, [] => acc
  | acc, n :: ns => collectNodes p (if p n then setAdd acc n else acc) ns

/-- Models `collect_unique_nodes` (ops.py:83-89, 92-102): the nodes that are returned, and what becomes of the expression. -/
def uniqueNodes (p : Node → Bool) (e : Node) : List Node × Node := (collectNodes p [] e.nodes, e.walk)

/-- `isinstance(x, Variable)` -/
def Node.isVar : Node → Bool
  | .t (.var _) => true
  | _ => false

/-- `isinstance(x, CompoundTerm)` -/
def Node.isApp : Node → Bool
  | .t (.app _ _) => true
  | _ => false

/-- `isinstance(x, QuantifiedFormula)` -/
def Node.isQuant : Node → Bool
  | .f (.quant _ _ _) => true
  | _ => false

/-- Models `all_variables` (ops.py:60-62). -/
def allVariables (e : Node) : List Node × Node := uniqueNodes Node.isVar e

/-- Models `is_ground` (representation.py:171-172). -/
def isGround (e : Node) : Bool × Node := (decide ((allVariables e).1.length = 0), (allVariables e).2)

/-- Models `is_function_free` (representation.py:275-279). -/
def isFunctionFree (f : Formula) : Bool × Node :=
  (decide ((uniqueNodes Node.isApp (.f f)).1.length = 0), (uniqueNodes Node.isApp (.f f)).2)

/-- Models `is_quantifier_free` (representation.py:282-284). -/
def isQuantifierFree (f : Formula) : Bool × Node :=
  (decide ((uniqueNodes Node.isQuant (.f f)).1.length = 0), (uniqueNodes Node.isQuant (.f f)).2)

end Tarski

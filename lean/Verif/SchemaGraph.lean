import Verif.Equality
import Verif.Csp
/-! Model of the constraint hypergraph and the primal graph of an action schema:
/repo/src/tarski/analysis/csp.py:16-37, 99-116. -/
namespace Tarski

/-- `x.symbol[1:]` (analysis/csp.py:105). -/
def tailName (s : String) : String := String.ofList (s.toList.drop 1)

/-- `isinstance(x, (Variable, Constant))` (analysis/csp.py:101). -/
def isVarOrConst : Term → Bool
  | .var _ => true
  | .const _ _ => true
  | _ => false

/-- The set `edge` of analysis/csp.py:102-105, in the order in which its elements are added. -/
def edgeSet : List Term → List String → List String
  | [], acc => acc
  | .var v :: ts, acc => edgeSet ts (if tailName v.sym ∈ acc then acc else acc ++ [tailName v.sym])
  | _ :: ts, acc => edgeSet ts acc

/-- Puts a string into a sorted list. -/
def insertString (a : String) : List String → List String
  | [] => [a]
  | b :: l => if a ≤ b then a :: b :: l else b :: insertString a l

/-- `sorted` on strings: python compares them by code points, as `≤` on `String` does. Sorting by insertion gives the
same list as python's algorithm. -/
def pySorted (l : List String) : List String := l.foldr insertString []

/-- `set.update` on a set in order of insertion. -/
def setUpdate {β : Type} [DecidableEq β] (E l : List β) : List β :=
  l.foldl (fun E e => if e ∈ E then E else E ++ [e]) E

/-- `set.add` on the set of hyperedges. -/
def addEdge (E : List (List String)) (e : List String) : List (List String) := if e ∈ E then E else E ++ [e]

mutual
/-- Models `_collect_hyperedges` (analysis/csp.py:99-116). `WrongFormalismError` is `.representation`, the failed
assertion of line 101 `.assertion`. -/
def collectEdges : Formula → List (List String) → Except Err (List (List String))
  | .atom _ args, E =>
    if args.all isVarOrConst then
      let edge := edgeSet args []
      if edge.isEmpty then .ok E else .ok (addEdge E (pySorted edge))
    else .error .assertion
  | .comp _ .and fs, E => collectEdgesL fs E
  | .comp _ .not [], _ => .error .index
  | .comp _ .not (f :: _), E => collectEdges f E
  | .comp _ .or _, _ => .error .representation
  | .top, _ => .error .representation
  | .bot, _ => .error .representation
  | .quant _ _ _, _ => .error .representation
/-- The loop of analysis/csp.py:110. -/
def collectEdgesL : List Formula → List (List String) → Except Err (List (List String))
  | [], E => .ok E
  | g :: gs, E =>
    match collectEdges g E with
    | .error e => .error e
    | .ok E' => collectEdgesL gs E'
end

/-- Models `compute_schema_constraint_hypergraph` (analysis/csp.py:16-22) on the precondition of the action. -/
def schemaHypergraph (pre : Formula) : Except Err (List (List String)) := collectEdges pre []

/-- Models `itertools.combinations(t, 2)` (analysis/csp.py:36): pairs of elements at increasing positions. -/
def combinations2 : List String → List (String × String)
  | [] => []
  | x :: xs => xs.map (fun y => (x, y)) ++ combinations2 xs

/-- Models `compute_primal_graph_from_hypergraph` (analysis/csp.py:32-37); the loop body is `set.update`. -/
def primalGraph (H : List (List String)) : List (String × String) :=
  H.foldl (fun edges h => setUpdate edges (combinations2 h)) []

/-- Models `compute_schema_primal_graph` (analysis/csp.py:25-29). -/
def schemaPrimalGraph (pre : Formula) : Except Err (List (String × String)) :=
  match schemaHypergraph pre with
  | .error e => .error e
  | .ok H => .ok (primalGraph H)

end Tarski

import Verif.ExprText
import Verif.Equality
/-! Model of the texts of temporal requests and effects and of `is_literal`: /repo/src/tarski/ndl/temporal.py:27-56, 59-122, 135-140. Times are integers. -/
namespace Tarski

/-- The objects that a temporal action is made of (temporal.py:27-122). `UnionExpression` has no text of its own and is left out. -/
inductive NdlExpr where
  | lock (ts td : Int) (r : Term)
  | level (ts td : Int) (r : Term) (n : Const)
  | set (lit : Formula) (value : Bool)
  | assign (lhs rhs : Term)
  | forall (x : Var) (e : NdlExpr)
  | cond (c : Formula) (t e : NdlExpr)
  | timed (delay : Int) (e : NdlExpr)

/-- `str` of a truth value. -/
def boolShown (b : Bool) : Text := if b then ['T', 'r', 'u', 'e'] else ['F', 'a', 'l', 's', 'e']

/-- The text of a request (temporal.py:35-36, 55-56: the same in both classes). -/
def requestShown (ts td : Int) (r : Term) : Text :=
  ['L', 'O', 'C', 'K', ' '] ++ showT r ++ [' ', 'A', 'F', 'T', 'E', 'R', ' '] ++ intText ts ++ [' ', 'F', 'O', 'R', ' '] ++ intText td

/-- Models `str` (temporal.py:35-36, 55-56, 68-69, 81-82, 94-95, 108-109, 121-122). `UniversalEffect.__str__` reads the attribute `effect`, which is never
set (line 92 sets `eff`): `.attribute` stands for `AttributeError`. -/
def showN : NdlExpr → Except Err Text
  | .lock ts td r => .ok (requestShown ts td r)
  | .level ts td r _ => .ok (requestShown ts td r)
  | .set l v => .ok (['S', 'E', 'T', '('] ++ showF l ++ [',', ' '] ++ boolShown v ++ [')'])
  | .assign l r => .ok (['A', 'S', 'S', 'I', 'G', 'N', '('] ++ showT l ++ [',', ' '] ++ showT r ++ [')'])
  | .forall _ _ => .error .attribute
  | .cond c t e =>
    match showN t with
    | .error x => .error x
    | .ok a =>
      match showN e with
      | .error x => .error x
      | .ok b => .ok (['I', 'F', ' ', '('] ++ showF c ++ [')', ' ', '\n', 'T', 'H', 'E', 'N', ' '] ++ a ++ ['\n', ' ', 'E', 'L', 'S', 'E', ' '] ++ b)
  | .timed d e =>
    match showN e with
    | .error x => .error x
    | .ok a => .ok (['A', 'F', 'T', 'E', 'R', ' '] ++ intText d ++ [' ', 'A', 'P', 'P', 'L', 'Y', ' '] ++ a)

/-- Models `is_literal` (temporal.py:135-140). A negation of no formula, which is not constructed, would raise `IndexError`. -/
def ndlLiteral : Formula → Except Err Bool
  | .atom _ _ => .ok true
  | .comp _ .not [] => .error .index
  | .comp _ .not (.atom _ _ :: _) => .ok true
  | _ => .ok false

end Tarski

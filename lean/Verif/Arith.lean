import Verif.Effects
/-! Model of the symbolic simplification of arithmetic terms, /repo/src/tarski/syntax/arithmetic/__init__.py:162-239. -/
namespace Tarski

/-- What `simplify` needs to know about the language: the codomain of user functions, and whether casting -1 to a sort
succeeds (sorts.py:43-52, 135-139). -/
structure ArithLang where
  codomain : String → String
  castsNegOne : String → Bool

/-- `term.sort`: builtin functions have codomain Real (theories.py:86-118), the sort of an if-then-else is that of its
first branch (terms.py:281-283). -/
def ArithLang.sortOf (L : ArithLang) : Term → String
  | .var v => v.sort
  | .const _ s => s
  | .app f _ => if builtinFunctionNames.contains f then "Real" else L.codomain f
  | .ite _ t _ => L.sortOf t

/-- `t.is_syntactically_equal(zero(expr.sort))` for an expression of sort Real (lines 162-164, terms.py:344-345): the
name and the sort must be the same, so that a zero of another sort does not count. -/
def isRealConst (n : Int) : Term → Bool
  | .const (.int m) s => decide (m = n) && decide (s = "Real")
  | _ => false

/-- Simplify both operands, left first (lines 180, 188, 196, 208), then combine. -/
def bind2 (a b : Except Err Term) (k : Term → Term → Except Err Term) : Except Err Term :=
  match a with
  | .error e => .error e
  | .ok x => match b with
    | .error e => .error e
    | .ok y => k x y

/-- Lines 181-186. -/
def simpAdd (x y : Term) : Except Err Term :=
  if isRealConst 0 x then .ok y else if isRealConst 0 y then .ok x else .ok (.app "+" [x, y])

/-- Lines 189-194; `-1 * y` casts -1 to the sort of `y` (ops.py:35-36). -/
def simpSub (L : ArithLang) (x y : Term) : Except Err Term :=
  if isRealConst 0 x then
    if L.castsNegOne (L.sortOf y) then .ok (.app "*" [.const (.int (-1)) (L.sortOf y), y]) else .error .value
  else if isRealConst 0 y then .ok x else .ok (.app "-" [x, y])

/-- Lines 197-206. -/
def simpMul (x y : Term) : Except Err Term :=
  if isRealConst 0 x then .ok (.const (.int 0) "Real")
  else if isRealConst 0 y then .ok (.const (.int 0) "Real")
  else if isRealConst 1 x then .ok y
  else if isRealConst 1 y then .ok x
  else .ok (.app "*" [x, y])

/-- Lines 209-219. -/
def simpDiv (x y : Term) : Except Err Term :=
  if isRealConst 0 x then .ok (.const (.int 0) "Real")
  else if isRealConst 0 y then .error .semantic
  else if isRealConst 1 y then .ok x
  else .ok (.app "/" [x, y])

/-- Lines 222-225. -/
def simpExp (x : Term) : Except Err Term :=
  if isRealConst 0 x then .ok (.const (.int 1) "Real") else .ok (.app "exp" [x])

/-- Models `simplify` (lines 172-239) on terms; the code updates the subterms of its argument in place and returns the
same object where a new term is built here. Not modelled: matrices and aggregate terms. -/
def simplifyT (L : ArithLang) : Term → Except Err Term
  | .var v => .ok (.var v)
  | .const n s => .ok (.const n s)
  | .app f [a, b] =>
    if f = "+" then bind2 (simplifyT L a) (simplifyT L b) simpAdd
    else if f = "-" then bind2 (simplifyT L a) (simplifyT L b) (simpSub L)
    else if f = "*" then bind2 (simplifyT L a) (simplifyT L b) simpMul
    else if f = "/" then bind2 (simplifyT L a) (simplifyT L b) simpDiv
    else if builtinFunctionNames.contains f then .error .notImplemented
    else .ok (.app f [a, b])
  | .app f [a] =>
    if f = "exp" then bind2 (simplifyT L a) (.ok a) (fun x _ => simpExp x)
    else if builtinFunctionNames.contains f then .error .notImplemented
    else .ok (.app f [a])
  | .app f ts => if builtinFunctionNames.contains f then .error .notImplemented else .ok (.app f ts)
  | .ite c t e => bind2 (simplifyT L t) (simplifyT L e) (fun x y => .ok (.ite c x y))

end Tarski

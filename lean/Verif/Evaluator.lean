import Verif.Model
/-! Model of the evaluator: /repo/src/tarski/evaluators/simple.py. -/
namespace Tarski

/-- Python's `<` on names of constants: integers numerically, strings lexicographically, anything else raises
TypeError. -/
def nameLt : Name → Name → Except Err Bool
  | .int a, .int b => .ok (decide (a < b))
  | .str a, .str b => .ok (decide (a < b))
  | _, _ => .error .typeError

/-- The comparison of `a.symbol` and `b.symbol` made by `evaluate_builtin_predicate` (simple.py:118-129);
`<=`, `>`, `>=` on python integers and strings are determined by `<` and `==`. -/
def cmpNames (c : Cmp) (a b : Name) : Except Err Bool :=
  match c with
  | .eq => .ok (decide (a = b))
  | .ne => .ok (decide (a ≠ b))
  | .lt => nameLt a b
  | .gt => nameLt b a
  | .le => match nameLt b a with | .ok r => .ok (!r) | .error e => .error e
  | .ge => match nameLt a b with | .ok r => .ok (!r) | .error e => .error e

/-- `Constant(value, language.Integer)` for an integer result (simple.py:210-211, terms.py:313-314): the constructor
casts, raising ValueError outside the bounds of the integers (sorts.py:223-226). -/
def mkInteger (v : Int) : Except Err Const :=
  if theIntegers.contains v then .ok ⟨.int v, "Integer"⟩ else .error .value

/-- Builtin functions whose evaluation is modelled: `+`, `-`, `*`, `%` (simple.py:151-157); the remaining ones
(floating point, numpy, random) are not. -/
def isArith (f : String) : Bool := f == "+" || f == "-" || f == "*" || f == "%"

/-- Models `_arithmetic_evaluator_2` (simple.py:190-211) with `operator.add/sub/mul/mod` on two evaluated constants.
Only integers are modelled; on other names the code raises (the class of the exception is not modelled: `+` on two
strings concatenates them and then fails for lack of a sort). -/
def arith (f : String) (a b : Const) : Except Err Const :=
  match a.name, b.name with
  | .int x, .int y =>
    if f = "+" then mkInteger (x + y)
    else if f = "-" then mkInteger (x - y)
    else if f = "*" then mkInteger (x * y)
    else if y = 0 then .error .zeroDivision else mkInteger (Int.fmod x y)
  | _, _ => .error .typeError

/-- Which of the three entry points a term is evaluated with: `evaluate` (simple.py:27), `evaluate_term`
(simple.py:77), or the code after the branch of an if-then-else has been chosen (simple.py:81-115). -/
inductive EvMode where
  | eval | term | branch
deriving DecidableEq

/-- `m.value`, with KeyError turned into UndefinedTerm (simple.py:112-115). -/
def valueOrUndefined (L : MLang) (m : MState) (f : String) (pt : List Const) : Except Err Const :=
  match m.value L f pt with
  | .ok c => .ok c
  | .error _ => .error .undefinedTerm

mutual
/-- Models `evaluate` / `evaluate_term` on terms (simple.py:47-52, 77-115). `sigma` is the given assignment (a lookup
that may fail, line 49). A variable or an if-then-else that is itself the chosen branch of an if-then-else, or a
variable handed to `evaluate_term`, fails the assertion in line 96. -/
def evTerm (L : MLang) (m : MState) (sigma : Var → Except Err Const) : EvMode → Term → Except Err Const
  | mode, .var v => if mode = .eval then sigma v else .error .assertion
  | _, .const n s => .ok ⟨n, s⟩
  | _, .app f ts =>
    if isArith f then
      match evTerms L m sigma .term ts with
      | .ok [a, b] => arith f a b
      | .ok _ => .error .index
      | .error e => .error e
    else match evTerms L m sigma .eval ts with
      | .ok pt => valueOrUndefined L m f pt
      | .error e => .error e
  | mode, .ite c t e =>
    if mode = .branch then .error .assertion
    else match evFormula L m sigma c with
      | .error er => .error er
      | .ok true => evTerm L m sigma .branch t
      | .ok false => evTerm L m sigma .branch e
/-- Left-to-right evaluation of a list of terms (simple.py:69, 110). -/
def evTerms (L : MLang) (m : MState) (sigma : Var → Except Err Const) : EvMode → List Term → Except Err (List Const)
  | _, [] => .ok []
  | mode, t :: ts =>
    match evTerm L m sigma mode t with
    | .error e => .error e
    | .ok c => match evTerms L m sigma mode ts with
      | .error e => .error e
      | .ok cs => .ok (c :: cs)
/-- Models `evaluate` on formulas (simple.py:27-45, 57-74). Builtin comparisons have exactly two arguments
(formulas.py:299-330 checks arities), so evaluating the whole argument list is what lines 121-126 do. -/
def evFormula (L : MLang) (m : MState) (sigma : Var → Except Err Const) : Formula → Except Err Bool
  | .top => .ok true
  | .bot => .ok false
  | .atom (.cmp c) ts =>
    match evTerms L m sigma .eval ts with
    | .ok [a, b] => cmpNames c a.name b.name
    | .ok _ => .error .index
    | .error e => .error e
  | .atom (.user p) ts =>
    match evTerms L m sigma .eval ts with
    | .ok pt => .ok (m.holds L p pt)
    | .error e => .error e
  | .comp _ .and fs => evAll L m sigma fs
  | .comp _ .or fs => evAny L m sigma fs
  | .comp _ .not [] => .error .index
  | .comp _ .not (f :: _) =>
    match evFormula L m sigma f with
    | .ok b => .ok (!b)
    | .error e => .error e
  | .quant _ _ _ => .error .notImplemented
/-- `all(...)`: stops at the first false subformula (simple.py:59). -/
def evAll (L : MLang) (m : MState) (sigma : Var → Except Err Const) : List Formula → Except Err Bool
  | [] => .ok true
  | f :: fs => match evFormula L m sigma f with
    | .ok true => evAll L m sigma fs
    | .ok false => .ok false
    | .error e => .error e
/-- `any(...)`: stops at the first true subformula (simple.py:60). -/
def evAny (L : MLang) (m : MState) (sigma : Var → Except Err Const) : List Formula → Except Err Bool
  | [] => .ok false
  | f :: fs => match evFormula L m sigma f with
    | .ok true => .ok true
    | .ok false => evAny L m sigma fs
    | .error e => .error e
end

end Tarski

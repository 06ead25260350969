import Verif.MatrixTerms
import Verif.Theories
/-! Model of numeric expressions: Python numbers as operands (/repo/src/tarski/syntax/ops.py:12-37, terms.py:42-110), the functions of
/repo/src/tarski/syntax/arithmetic/{__init__,special,random}.py, and the evaluation of all builtin functions and comparisons
(/repo/src/tarski/evaluators/simple.py:91-95, 118-129, 146-211, /repo/src/tarski/funcsym/__init__.py). -/
namespace Tarski

/-- What is used of Python's numbers and of numpy and scipy, on floating point numbers. `pyLt`, `pyEq` are `<` and `==` on Python numbers. -/
structure PyMath (F : Type) extends Floats F where
  pyLt : PyNum F → PyNum F → Bool
  pyEq : PyNum F → PyNum F → Bool
  npMin : F → F → F
  npMax : F → F → F
  npAbs : F → F
  npSign : F → F
  npSin : F → F
  npCos : F → F
  npTan : F → F
  npArcsin : F → F
  npArctan : F → F
  npExp : F → F
  npLog : F → F
  npSqrt : F → F
  sciErf : F → F
  sciErfc : F → F

/-- How the values of a sort are encoded, and its bounds (sorts.py:80-95, 195-226): floating point numbers, integers, or no interval at all. -/
inductive Enc (F : Type) where
  | real (inB : F → Bool)
  | int (lb ub : Int)
  | other

/-- A sort: its name and its encoding. -/
structure NSort (F : Type) where
  name : String
  enc : Enc F

/-- The sorts Real, Integer and Natural (sorts.py:216-232). -/
def realSort {F} (P : PyMath F) : NSort F := ⟨"Real", .real P.inBounds⟩
/-- sorts.py:222-225 -/
def intSort {F} : NSort F := ⟨"Integer", .int (-(2 ^ 31 - 1)) (2 ^ 31 - 1)⟩
/-- sorts.py:216-219 -/
def natSort {F} : NSort F := ⟨"Natural", .int 0 (2 ^ 32 - 1)⟩

/-- A numeric constant -/
structure NConst (F : Type) where
  v : PyNum F
  sort : NSort F

/-- Numeric terms: constants, variables, the value of a function without arguments, and applications of builtin functions. `raw` is a Python number
among the arguments of a builtin function (terms.py:180-184); it is no term. -/
inductive NTerm (F : Type) where
  | const (c : NConst F)
  | raw (n : PyNum F)
  | var (s : String) (sort : NSort F)
  | fn (f : String) (sort : NSort F)
  | un (f : BFun) (a : NTerm F)
  | bin (f : BFun) (a b : NTerm F)

/-- `term.sort`; the builtin functions have codomain Real (theories.py:91-131). A Python number has none. -/
def NTerm.sort {F} (P : PyMath F) : NTerm F → Option (NSort F)
  | .const c => some c.sort
  | .raw _ => none
  | .var _ s => some s
  | .fn _ s => some s
  | .un _ _ => some (realSort P)
  | .bin _ _ _ => some (realSort P)

/-- Models `sort.cast(n)` on Python numbers (sorts.py:43-52, 105-117, 195-202). A number is no element of a sort that is no interval (elements that
are named by numbers are not modelled). -/
def castTo {F} (P : PyMath F) (s : NSort F) (n : PyNum F) : Except Err (PyNum F) :=
  match s.enc with
  | .real inB => match n.toFloat P.toFloats with
    | .error e => .error e
    | .ok x => if inB x then .ok (.flt x) else .error .value
  | .int lb ub => match (match n with | .int z => some z | .flt x => P.toInt x) with
    | none => .error .value
    | some z => if lb ≤ z ∧ z ≤ ub then .ok (.int z) else .error .value
  | .other => .error .value

/-- Models `Constant(n, sort)` for a number and an interval (terms.py:308-317). -/
def mkConst {F} (P : PyMath F) (n : PyNum F) (s : NSort F) : Except Err (NConst F) :=
  match castTo P s n with
  | .error e => .error e
  | .ok m => .ok ⟨m, s⟩

/-! ### Evaluation -/

/-- The functions of numpy and scipy that are used (funcsym/__init__.py:9-31). -/
inductive NpFun where
  | npMin | npMax | npPower | npAbs | npSin | npCos | npTan | npArcsin | npArctan | npExp | npLog | npSign | npSqrt | randNormal | randGamma
  | sciErf | sciErfc
deriving DecidableEq

/-- Models `funcsym.impl` (funcsym/__init__.py:4-31). -/
def funcImpl (s : String) : Option NpFun :=
  if s = "erf" then some .sciErf
  else if s = "erfc" then some .sciErfc
  else if s = "min" then some .npMin
  else if s = "max" then some .npMax
  else if s = "pow" then some .npPower
  else if s = "abs" then some .npAbs
  else if s = "sin" then some .npSin
  else if s = "cos" then some .npCos
  else if s = "tan" then some .npTan
  else if s = "asin" then some .npArcsin
  else if s = "atan" then some .npArctan
  else if s = "exp" then some .npExp
  else if s = "log" then some .npLog
  else if s = "sgn" then some .npSign
  else if s = "sqrt" then some .npSqrt
  else if s = "normal" then some .randNormal
  else if s = "gamma" then some .randGamma
  else none

/-- The values of `BuiltinFunctionSymbol` (builtins.py:22-50). -/
def BFun.value : BFun → String
  | .add => "+" | .sub => "-" | .mul => "*" | .matmul => "@" | .div => "/" | .pow => "**" | .mod => "%"
  | .min => "min" | .max => "max" | .abs => "abs" | .sin => "sin" | .cos => "cos" | .tan => "tan" | .atan => "atan" | .asin => "asin"
  | .exp => "exp" | .log => "log" | .erf => "erf" | .erfc => "erfc" | .sgn => "sgn" | .sqrt => "sqrt"
  | .normal => "normal" | .gamma => "gamma" | .kron => "kron" | .dirac => "dirac" | .bernoulli => "bernoulli"
  | .discrete => "discrete" | .poisson => "poisson"

/-- The entries of the table of evaluators (simple.py:150-174): a Python operator on two arguments, or `funcsym.impl` of the value of a symbol on one
or two arguments. -/
inductive EvKind where
  | oper (o : NOp)
  | impl1 (f : BFun)
  | impl2 (f : BFun)
deriving DecidableEq

/-- Models the table of evaluators (simple.py:150-174); other symbols raise KeyError. -/
def evaluators : BFun → Option EvKind
  | .add => some (.oper .add)
  | .sub => some (.oper .sub)
  | .mul => some (.oper .mul)
  | .matmul => some (.oper .matmul)
  | .div => some (.oper .div)
  | .pow => some (.oper .pow)
  | .mod => some (.oper .mod)
  | .min => some (.impl2 .min)
  | .max => some (.impl2 .max)
  | .abs => some (.impl1 .abs)
  | .sin => some (.impl1 .sin)
  | .cos => some (.impl1 .cos)
  | .tan => some (.impl1 .tan)
  | .atan => some (.impl1 .atan)
  | .asin => some (.impl1 .asin)
  | .exp => some (.impl1 .exp)
  | .log => some (.impl1 .log)
  | .erf => some (.impl1 .erf)
  | .erfc => some (.impl1 .erfc)
  | .sgn => some (.impl1 .sgn)
  | .sqrt => some (.impl1 .sqrt)
  | .normal => some (.impl2 .normal)
  | .gamma => some (.impl2 .gamma)
  | _ => none

/-- What an operation gives: a Python number (the floating point numbers of numpy are instances of `float`), or an integer of numpy, which is no
instance of `int`. -/
inductive NpVal (F : Type) where
  | py (n : PyNum F)
  | npInt (z : Int)

/-- A function of numpy that gives floating point numbers, on a Python number. -/
def viaFloat {F} (P : PyMath F) (g : F → F) (n : PyNum F) : Except Err (NpVal F) :=
  match n.toFloat P.toFloats with
  | .error e => .error e
  | .ok x => .ok (.py (.flt (g x)))

/-- The functions of one argument. On integers, the absolute value and the sign are integers of numpy (integers of more than 64 bits are not
modelled: there are none among constants). Called with one argument, the other functions raise TypeError. -/
def call1 {F} (P : PyMath F) : NpFun → PyNum F → Except Err (NpVal F)
  | .npAbs, .int z => .ok (.npInt (if z < 0 then -z else z))
  | .npAbs, .flt x => .ok (.py (.flt (P.npAbs x)))
  | .npSign, .int z => .ok (.npInt (if z < 0 then -1 else if 0 < z then 1 else 0))
  | .npSign, .flt x => .ok (.py (.flt (P.npSign x)))
  | .npSin, n => viaFloat P P.npSin n
  | .npCos, n => viaFloat P P.npCos n
  | .npTan, n => viaFloat P P.npTan n
  | .npArcsin, n => viaFloat P P.npArcsin n
  | .npArctan, n => viaFloat P P.npArctan n
  | .npExp, n => viaFloat P P.npExp n
  | .npLog, n => viaFloat P P.npLog n
  | .npSqrt, n => viaFloat P P.npSqrt n
  | .sciErf, n => viaFloat P P.sciErf n
  | .sciErfc, n => viaFloat P P.sciErfc n
  | _, _ => .error .typeError

/-- The array `(x, y)` is of floating point numbers unless both are integers. -/
def viaFloat2 {F} (P : PyMath F) (g : F → F → F) (m n : PyNum F) : Except Err (NpVal F) :=
  match m.toFloat P.toFloats with
  | .error e => .error e
  | .ok x => match n.toFloat P.toFloats with
    | .error e => .error e
    | .ok y => .ok (.py (.flt (g x y)))

/-- The functions of two arguments. Random draws are not modelled (`notImplemented` stands for them). -/
def call2 {F} (P : PyMath F) : NpFun → PyNum F → PyNum F → Except Err (NpVal F)
  | .npMin, .int a, .int b => .ok (.npInt (if a ≤ b then a else b))
  | .npMin, m, n => viaFloat2 P P.npMin m n
  | .npMax, .int a, .int b => .ok (.npInt (if a ≤ b then b else a))
  | .npMax, m, n => viaFloat2 P P.npMax m n
  | .randNormal, _, _ => .error .notImplemented
  | .randGamma, _, _ => .error .notImplemented
  | _, _, _ => .error .typeError

/-- `Constant(value, infer_numeric_sort(value, language))` (ops.py:40-45, simple.py:186-187, 210-211, terms.py:308-317): an integer of numpy has no sort,
and `None` has no attribute `extend`. -/
def finishNum {F} (P : PyMath F) : NpVal F → Except Err (NConst F)
  | .py (.int z) => mkConst P (.int z) intSort
  | .py (.flt x) => mkConst P (.flt x) (realSort P)
  | .npInt _ => .error .attribute

/-- Models `_arithmetic_evaluator_1` after the evaluation of the argument (simple.py:185-187); a symbol without implementation gives `None`, which
cannot be called. -/
def apply1 {F} (P : PyMath F) (f : BFun) (x : NConst F) : Except Err (NConst F) :=
  match funcImpl f.value with
  | none => .error .typeError
  | some g => match call1 P g x.v with
    | .error e => .error e
    | .ok r => finishNum P r

/-- Models `_arithmetic_evaluator_2` after the evaluation of the arguments, on constants (simple.py:209-211). -/
def apply2 {F} (P : PyMath F) (f : BFun) (x y : NConst F) : Except Err (NConst F) :=
  match funcImpl f.value with
  | none => .error .typeError
  | some g => match call2 P g x.v y.v with
    | .error e => .error e
    | .ok r => finishNum P r

/-- `_arithmetic_evaluator_2` with a Python operator (simple.py:151-157, 209-211). -/
def applyOper {F} (P : PyMath F) (o : NOp) (x y : NConst F) : Except Err (NConst F) :=
  match pyArith P.toFloats o x.v y.v with
  | .error e => .error e
  | .ok n => finishNum P (.py n)

/-- Models `evaluate_term` on numeric terms (simple.py:77-115, 146-211); `st` gives the values of the functions in the state. A variable fails the
assertion in line 96. -/
def evN {F} (P : PyMath F) (st : String → Option (NConst F)) : NTerm F → Except Err (NConst F)
  | .const c => .ok c
  | .raw (.int z) => mkConst P (.int z) intSort
  | .raw (.flt x) => mkConst P (.flt x) (realSort P)
  | .var _ _ => .error .assertion
  | .fn f _ => match st f with
    | none => .error .undefinedTerm
    | some c => .ok c
  | .un f a => match evaluators f with
    | none => .error .keyError
    | some (.impl1 g) => match evN P st a with
      | .error e => .error e
      | .ok x => apply1 P g x
    | some _ => .error .index
  | .bin f a b => match evaluators f with
    | none => .error .keyError
    | some (.impl1 g) => match evN P st a with
      | .error e => .error e
      | .ok x => apply1 P g x
    | some (.impl2 g) => match evN P st a with
      | .error e => .error e
      | .ok x => match evN P st b with
        | .error e => .error e
        | .ok y => apply2 P g x y
    | some (.oper o) => match evN P st a with
      | .error e => .error e
      | .ok x => match evN P st b with
        | .error e => .error e
        | .ok y => applyOper P o x y

/-- A comparison of two numeric terms -/
structure NAtom (F : Type) where
  c : Cmp
  l : NTerm F
  r : NTerm F

/-- The comparison of two values (simple.py:120-127). -/
def cmpNum {F} (P : PyMath F) (c : Cmp) (a b : PyNum F) : Bool :=
  match c with
  | .eq => P.pyEq a b
  | .ne => !P.pyEq a b
  | .lt => P.pyLt a b
  | .le => P.pyLt a b || P.pyEq a b
  | .gt => P.pyLt b a
  | .ge => P.pyLt b a || P.pyEq a b

/-- Models `evaluate` on comparisons (simple.py:63-65, 118-129). -/
def evCmp {F} (P : PyMath F) (st : String → Option (NConst F)) (a : NAtom F) : Except Err Bool :=
  match evN P st a.l with
  | .error e => .error e
  | .ok x => match evN P st a.r with
    | .error e => .error e
    | .ok y => .ok (cmpNum P a.c x.v y.v)

/-! ### Construction -/

/-- An operand: a Python number or a term. -/
inductive NArg (F : Type) where
  | num (n : PyNum F)
  | term (t : NTerm F)

/-- `Constant(t.sort.cast(n), t.sort)` (ops.py:26, 32): the number is cast to the sort of the other operand. -/
def numConst {F} (P : PyMath F) (t : NTerm F) (n : PyNum F) : Except Err (NTerm F) :=
  match t.sort P with
  | none => .error .attribute
  | some s => match castTo P s n with
    | .error e => .error e
    | .ok m => match mkConst P m s with
      | .error e => .error e
      | .ok c => .ok (.const c)

/-- Models `cast_to_closest_common_numeric_ancestor` (ops.py:12-37) on numbers and terms. -/
def castArgs {F} (P : PyMath F) : NArg F → NArg F → Except Err (NTerm F × NTerm F)
  | .term a, .term b => .ok (a, b)
  | .term a, .num n => match numConst P a n with
    | .error e => .error e
    | .ok b => .ok (a, b)
  | .num n, .term b => match numConst P b n with
    | .error e => .error e
    | .ok a => .ok (a, b)
  | .num (.int m), .num (.int n) => match mkConst P (.int m) intSort with
    | .error e => .error e
    | .ok a => match mkConst P (.int n) intSort with
      | .error e => .error e
      | .ok b => .ok (.const a, .const b)
  | .num m, .num n => match mkConst P m (realSort P) with
    | .error e => .error e
    | .ok a => match mkConst P n (realSort P) with
      | .error e => .error e
      | .ok b => .ok (.const a, .const b)

/-- One argument of a builtin function (terms.py:174-184): a term of a subsort of Real, or a number, which is cast and kept as a number. `sub` tells
the names of the subsorts of Real. -/
def fnArg {F} (P : PyMath F) (sub : String → Bool) : NArg F → Except Err (NTerm F)
  | .num n => match castTo P (realSort P) n with
    | .error e => .error e
    | .ok m => .ok (.raw m)
  | .term t => match t.sort P with
    | none => .error .attribute
    | some s => if sub s.name then .ok t else .error .sortMismatch

/-- `fun(x)` (function.py:55-58, terms.py:167-185). -/
def callUn {F} (P : PyMath F) (sub : String → Bool) (f : BFun) (x : NArg F) : Except Err (NTerm F) :=
  match fnArg P sub x with
  | .error e => .error e
  | .ok a => .ok (.un f a)

/-- `fun(x, y)` -/
def callBin {F} (P : PyMath F) (sub : String → Bool) (f : BFun) (x y : NArg F) : Except Err (NTerm F) :=
  match fnArg P sub x with
  | .error e => .error e
  | .ok a => match fnArg P sub y with
    | .error e => .error e
    | .ok b => .ok (.bin f a b)

/-- `dispatch_operator` with an arithmetic function (fol.py:406-413, theories.py:134-142, factory.py:29-38). -/
def dispatchNum {F} (P : PyMath F) (sub : String → Bool) (f : BFun) (x y : NArg F) : Except Err (NTerm F) :=
  match castArgs P x y with
  | .error e => .error e
  | .ok (a, b) => callBin P sub f (.term a) (.term b)

/-- Which operators have a method for a number at the left (terms.py:81-91). -/
def hasReflected : BFun → Bool
  | .add => true
  | .sub => true
  | .mul => true
  | .div => true
  | _ => false

/-- Models `x op y` for `+ - * / ** % @` where one of the operands is a term (terms.py:66-101). Two numbers do not reach this code; TypeError stands
for whatever Python does with them. -/
def opNum {F} (P : PyMath F) (sub : String → Bool) (f : BFun) : NArg F → NArg F → Except Err (NTerm F)
  | .term a, y => dispatchNum P sub f (.term a) y
  | .num n, .term b => if hasReflected f then dispatchNum P sub f (.num n) (.term b) else .error .typeError
  | .num _, .num _ => .error .typeError

/-- The comparison that Python tries on the right operand. -/
def reflectCmp : Cmp → Cmp
  | .eq => .eq
  | .ne => .ne
  | .lt => .gt
  | .le => .ge
  | .gt => .lt
  | .ge => .le

/-- `create_atom` (factory.py:14-26) after the cast of the operands; equality takes all sorts, the other comparisons subsorts of Real. -/
def cmpAtom {F} (P : PyMath F) (sub : String → Bool) (c : Cmp) (x y : NArg F) : Except Err (NAtom F) :=
  match castArgs P x y with
  | .error e => .error e
  | .ok (a, b) =>
    if c = .eq ∨ c = .ne then .ok ⟨c, a, b⟩
    else match fnArg P sub (.term a) with
      | .error e => .error e
      | .ok _ => match fnArg P sub (.term b) with
        | .error e => .error e
        | .ok _ => .ok ⟨c, a, b⟩

/-- Models `x < y`, ... where one of the operands is a term (terms.py:48-64). -/
def cmpNumOp {F} (P : PyMath F) (sub : String → Bool) (c : Cmp) : NArg F → NArg F → Except Err (NAtom F)
  | .term a, y => cmpAtom P sub c (.term a) y
  | .num n, .term b => cmpAtom P sub (reflectCmp c) (.term b) (.num n)
  | .num _, .num _ => .error .typeError

/-- Models the functions `min` and `max` (special.py:4-23): with two numbers the function calls itself, and Python raises RecursionError (`runtime`). -/
def specialMinMax {F} (P : PyMath F) (sub : String → Bool) (f : BFun) : NArg F → NArg F → Except Err (NTerm F)
  | .num _, .num _ => .error .runtime
  | x, y => callBin P sub f x y

/-- Models `abs`, `sin`, ... (special.py:26-78) and `sqrt` (arithmetic/__init__.py:130-132): a number has no language. -/
def specialUn {F} (P : PyMath F) (sub : String → Bool) (f : BFun) : NArg F → Except Err (NTerm F)
  | .num _ => .error .attribute
  | x => callUn P sub f x

/-- Models `pow` (arithmetic/__init__.py:125-127). -/
def powFn {F} (P : PyMath F) (sub : String → Bool) : NArg F → NArg F → Except Err (NTerm F)
  | .num _, _ => .error .attribute
  | x, y => callBin P sub .pow x y

/-- Models `normal` (random.py:5-14): both attempts look for the language of the first argument; without it numpy is called (`none`: a random number)
and raises TypeError on a term. -/
def normalFn {F} (P : PyMath F) (sub : String → Bool) : NArg F → NArg F → Except Err (Option (NTerm F))
  | .num _, .num _ => .ok none
  | .num _, .term _ => .error .typeError
  | x, y => match callBin P sub .normal x y with
    | .error e => .error e
    | .ok t => .ok (some t)

/-- Models `gamma` (random.py:17-26). -/
def gammaFn {F} (P : PyMath F) (sub : String → Bool) : NArg F → NArg F → Except Err (Option (NTerm F))
  | .num _, .num _ => .ok none
  | x, y => match callBin P sub .gamma x y with
    | .error e => .error e
    | .ok t => .ok (some t)

/-- Can the term be hashed (terms.py:198-200, util.py:30-32)? Numbers have no method `hash`. -/
def hashN {F} : NTerm F → Except Err Unit
  | .raw _ => .error .attribute
  | .un _ a => hashN a
  | .bin _ a b => match hashN a with
    | .error e => .error e
    | .ok _ => hashN b
  | _ => .ok ()

end Tarski

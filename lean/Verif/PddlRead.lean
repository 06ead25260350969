import Verif.PddlText
import Verif.Containers
import Verif.Effects
/-! Model of the PDDL/FSTRIPS reader on formulas, terms and variable lists:
/repo/src/tarski/io/_fstrips/reader.py (the visitor) with the grammar rules of
/repo/utils/parsers/grammars/fstrips.g4 that it visits. -/
namespace Tarski

/-- The part of a language that the visitor consults. -/
structure RLang where
  /-- declared argument sorts of the (user) predicates: `get_predicate` (fol.py:300-303) -/
  preds : String → Option (List String)
  /-- declared argument sorts and codomain of the (user) functions: `get_function` (fol.py:327-330) -/
  funs : String → Option (List String × String)
  /-- the sort of the declared constants: `get_constant` (fol.py:261-264) -/
  consts : String → Option String
  /-- `has_sort` -/
  hasSort : String → Bool
  /-- `is_subtype` (fol.py:351-354) -/
  isSub : String → String → Bool
  /-- the constant that a python integer is cast to: `sort.cast`, `sort.to_constant` (sorts.py:43-62, 105-124) -/
  castInt : String → Int → Except Err Name
  /-- whether the equality, arithmetic and special theories are loaded (theories.py:77-121) -/
  equality : Bool
  arithmetic : Bool
  special : Bool

/-- The function symbols of the arithmetic and special theories with two arguments (theories.py:102-116). -/
def builtinBinary : List String := ["+", "-", "*", "/", "**", "%", "min", "max", "@"]

/-- `term.sort` (terms.py:144-146, 191-193, 283-285, 327-329). -/
def RLang.sortOf (L : RLang) : Term → String
  | .var v => v.sort
  | .const _ s => s
  | .app f _ => if builtinBinary.contains f then "Real" else match L.funs f with
    | some (_, c) => c
    | none => ""
  | .ite _ t _ => L.sortOf t

/-- What the visitor returns for a term: a term, or a python integer for a number (reader.py:221-223). -/
inductive RVal where
  | term (t : Term)
  | num (n : Int)

instance : Inhabited RVal := ⟨.num 0⟩

/-- The value of a sequence of digits. -/
def digitsVal (ds : Text) : Int := Int.ofNat (Nat.ofDigitChars 10 ds 0)

/-- `int(number)` for a number without decimal point. -/
def intVal : Text → Int
  | '-' :: ds => - digitsVal ds
  | ds => digitsVal ds

/-- Models `parse_number` (io/_fstrips/common.py:25-30). With a decimal point and only zeros after it, the float is an
integer but `int("5.0")` raises ValueError. Numbers with a proper fraction are not modelled (python floats). -/
def parseNumber (t : Text) : Except Err Int :=
  if t.contains '.' then
    (if ((t.dropWhile (· != '.')).drop 1).all (· == '0') then .error .value else .error .notImplemented)
  else .ok (intVal t)

/-- Models `visitTermVariable` and `_recover_variable_from_context` (reader.py:225-233). -/
def readVar (b : Option VBinding) (s : String) : Except Err Term :=
  match b with
  | none => .error .syntactic
  | some b => match b.get (lowerS s) with
    | .error e => .error e
    | .ok v => .ok (.var v)

/-- Models `visitTermObject` (reader.py:217-219). -/
def readObject (L : RLang) (s : String) : Except Err Term :=
  match L.consts (lowerS s) with
  | none => .error .undefinedVariable
  | some srt => .ok (.const (.str (lowerS s)) srt)

/-- The constant of sort `s` that the integer `n` is cast to. -/
def RLang.constOf (L : RLang) (s : String) (n : Int) : Except Err Term :=
  match L.castInt s n with
  | .error e => .error e
  | .ok c => .ok (.const c s)

/-- Models `cast_to_closest_common_numeric_ancestor` (ops.py:12-37) on terms and integers. -/
def castPair (L : RLang) : RVal → RVal → Except Err (Term × Term)
  | .term a, .term b => .ok (a, b)
  | .term a, .num n => match L.constOf (L.sortOf a) n with
    | .error e => .error e
    | .ok c => .ok (a, c)
  | .num n, .term b => match L.constOf (L.sortOf b) n with
    | .error e => .error e
    | .ok c => .ok (c, b)
  | .num n, .num m =>
    if L.hasSort "Integer" then
      match L.constOf "Integer" n, L.constOf "Integer" m with
      | .ok a, .ok b => .ok (a, b)
      | _, _ => .error .value
    else .error .undefinedVariable

/-- The sort of the arguments of a comparison (theories.py:77-95). -/
def Cmp.argSort : Cmp → String
  | .eq => "object"
  | .ne => "object"
  | _ => "Real"

/-- Whether the theory that defines the comparison is loaded (theories.py:77-95). -/
def RLang.hasCmp (L : RLang) : Cmp → Bool
  | .eq => L.equality
  | .ne => L.equality
  | _ => L.arithmetic

/-- Models `dispatch_operator` with a builtin predicate (fol.py:406-413, theories.py:135-142, factory.py:14-26) and the
checks of the constructor of atoms (formulas.py:312-333): equality takes objects, the other comparisons reals. -/
def mkCmp (L : RLang) (c : Cmp) (l r : RVal) : Except Err Formula :=
  if L.hasCmp c then
    match castPair L l r with
    | .error e => .error e
    | .ok (a, b) =>
      if L.isSub (L.sortOf a) c.argSort && L.isSub (L.sortOf b) c.argSort then .ok (.atom (.cmp c) [a, b])
      else .error .sortMismatch
  else .error .language

/-- Models `dispatch_operator` with a builtin function (factory.py:29-38) and the checks of the constructor of
compound terms (terms.py:167-185): both arguments are reals. -/
def mkArith (L : RLang) (loaded : Bool) (f : String) (l r : RVal) : Except Err Term :=
  if loaded then
    match castPair L l r with
    | .error e => .error e
    | .ok (a, b) =>
      if L.isSub (L.sortOf a) "Real" && L.isSub (L.sortOf b) "Real" then .ok (.app f [a, b])
      else .error .sortMismatch
  else .error .language

/-- The arguments of a predicate: each a term of a subsort; an integer is not a term (formulas.py:325-333). -/
def atomArgs (L : RLang) : List RVal → List String → Except Err (List Term)
  | [], _ => .ok []
  | _, [] => .ok []
  | .num _ :: _, _ :: _ => .error .language
  | .term t :: vs, s :: ss =>
    if L.isSub (L.sortOf t) s then
      match atomArgs L vs ss with
      | .error e => .error e
      | .ok ts => .ok (t :: ts)
    else .error .sortMismatch

/-- Models `visitAtomicTermFormula` (reader.py:208-212) on the visited arguments. -/
def mkUserAtom (L : RLang) (p : String) (vs : List RVal) : Except Err Formula :=
  match L.preds (lowerS p) with
  | none => .error .undefinedVariable
  | some ss =>
    if vs.length ≠ ss.length then .error .arity
    else match atomArgs L vs ss with
      | .error e => .error e
      | .ok ts => .ok (.atom (.user (lowerS p)) ts)

/-- The arguments of a function: integers are cast to the declared sort (reader.py:240-242), terms are checked
(terms.py:174-179; sorts are equal when their names are). -/
def funArgs (L : RLang) : List RVal → List String → Except Err (List Term)
  | [], _ => .ok []
  | _, [] => .ok []
  | .num n :: vs, s :: ss => match L.constOf s n with
    | .error e => .error e
    | .ok c => match funArgs L vs ss with
      | .error e => .error e
      | .ok ts => .ok (c :: ts)
  | .term t :: vs, s :: ss =>
    if L.sortOf t ≠ s ∧ L.isSub (L.sortOf t) s = false then .error .sortMismatch
    else match funArgs L vs ss with
      | .error e => .error e
      | .ok ts => .ok (t :: ts)

/-- Models `visitGenericFunctionTerm` (reader.py:235-243) on the visited arguments. -/
def mkUserApp (L : RLang) (f : String) (vs : List RVal) : Except Err Term :=
  match L.funs (lowerS f) with
  | none => .error .undefinedVariable
  | some (ss, _) =>
    if ss.length ≠ vs.length then .error .assertion
    else match funArgs L vs ss with
      | .error e => .error e
      | .ok ts => .ok (.app (lowerS f) ts)

/-- The name of the builtin function of an operator; `^` is not one of them (builtins.py:22-50, 130-131). -/
def arName (c : Char) : Except Err String :=
  if c = '*' then .ok "*" else if c = '+' then .ok "+" else if c = '/' then .ok "/" else .error .value

mutual
/-- Models `visitTerm...`/`visit...FunctionTerm` (reader.py:217-249; grammar: `term`, `functionTerm`,
fstrips.g4:242-254). Unary builtin functions have no visitor and end in an exception. -/
def readT (L : RLang) (b : Option VBinding) : SX → Except Err RVal
  | .tok (.name s) => match readObject L s with
    | .error e => .error e
    | .ok t => .ok (.term t)
  | .tok (.num t) => match parseNumber t with
    | .error e => .error e
    | .ok n => .ok (.num n)
  | .tok (.var s) => match readVar b s with
    | .error e => .error e
    | .ok t => .ok (.term t)
  | .list (.tok (.name f) :: xs) => match readTs L b xs with
    | .error e => .error e
    | .ok vs => match mkUserApp L f vs with
      | .error e => .error e
      | .ok t => .ok (.term t)
  | .list [.tok (.ar c), x, y] => match readT L b x with
    | .error e => .error e
    | .ok l => match readT L b y with
      | .error e => .error e
      | .ok r => match arName c with
        | .error e => .error e
        | .ok f => match mkArith L L.arithmetic f l r with
          | .error e => .error e
          | .ok t => .ok (.term t)
  | .list [.tok .dash, x, y] => match readT L b x with
    | .error e => .error e
    | .ok l => match readT L b y with
      | .error e => .error e
      | .ok r => match mkArith L L.arithmetic "-" l r with
        | .error e => .error e
        | .ok t => .ok (.term t)
  | .list [.tok (.kw .kMax), x, y] => match readT L b x with
    | .error e => .error e
    | .ok l => match readT L b y with
      | .error e => .error e
      | .ok r => match mkArith L L.special "max" l r with
        | .error e => .error e
        | .ok t => .ok (.term t)
  | .list [.tok (.kw .kMin), x, y] => match readT L b x with
    | .error e => .error e
    | .ok l => match readT L b y with
      | .error e => .error e
      | .ok r => match mkArith L L.special "min" l r with
        | .error e => .error e
        | .ok t => .ok (.term t)
  | _ => .error .syntactic
def readTs (L : RLang) (b : Option VBinding) : List SX → Except Err (List RVal)
  | [] => .ok []
  | x :: xs => match readT L b x with
    | .error e => .error e
    | .ok v => match readTs L b xs with
      | .error e => .error e
      | .ok vs => .ok (v :: vs)
end

/-- Models `visitPrimitiveTypename` / `visitEitherTypename` (reader.py:107-111; grammar fstrips.g4:136-141). -/
def readTypename : SX → Except Err String
  | .tok (.name s) => .ok (lowerS s)
  | .tok (.kw .kObject) => .ok "object"
  | .tok (.kw .kInt) => .ok "int"
  | .tok (.kw .kFloat) => .ok "float"
  | .tok (.kw .kNumber) => .ok "number"
  | _ => .error .syntactic

/-- `self.language.variable(name.lower(), sort)` (fol.py:188-192) for each name. -/
def mkVars (L : RLang) (names : List String) (sort : String) : Except Err (List Var) :=
  if names = [] then .ok []
  else if L.hasSort sort then .ok (names.map (fun n => ⟨lowerS n, sort⟩)) else .error .undefinedVariable

/-- Models `visitUntypedVariableList`, `visitTypedVariableList`, `visitVariable_list_with_type`
(reader.py:136-149; grammar fstrips.g4:124-135); `pend` are the variables read since the last type. -/
def readVarsGo (L : RLang) : List String → List SX → Except Err (List Var)
  | pend, [] => mkVars L pend "object"
  | pend, .tok (.var s) :: xs => readVarsGo L (pend ++ [s]) xs
  | pend, .tok .dash :: ty :: xs =>
    if pend = [] then .error .syntactic
    else match readTypename ty with
      | .error e => .error e
      | .ok s => match mkVars L pend s with
        | .error e => .error e
        | .ok vs => match readVarsGo L [] xs with
          | .error e => .error e
          | .ok ws => .ok (vs ++ ws)
  | _, _ => .error .syntactic

/-- A possibly typed list of variables. -/
def readVarsList (L : RLang) (xs : List SX) : Except Err (List Var) := readVarsGo L [] xs

/-- `for v in self.variables: self.parser.current_binding.add(v)` (reader.py:487-488). -/
def pushAll : VBinding → List Var → Except Err VBinding
  | b, [] => .ok b
  | b, v :: vs => match b.add v with
    | (_, some e) => .error e
    | (b', none) => pushAll b' vs

/-- Models `ParserVariableContext.__enter__` for a non-root context (reader.py:478-489). On exit the previous binding is
restored (reader.py:491-493): the binding is an argument of the recursive calls here. -/
def pushVars (b : Option VBinding) (vs : List Var) : Except Err VBinding :=
  match b with
  | none => .ok (VBinding.ofList vs)
  | some b => pushAll b vs

mutual
/-- Models the visitor on formulas (reader.py:208-215, 260-310; grammar: `goalDesc`, fstrips.g4:227-236). -/
def readF (L : RLang) (b : Option VBinding) : SX → Except Err Formula
  | .list (.tok (.name p) :: xs) => match readTs L b xs with
    | .error e => .error e
    | .ok vs => mkUserAtom L p vs
  | .list (.tok (.kw .kAnd) :: xs) => match readFs L b xs with
    | .error e => .error e
    | .ok [] => .ok .top
    | .ok [f] => .ok f
    | .ok fs => mkComp .list .and fs
  | .list (.tok (.kw .kOr) :: xs) => match readFs L b xs with
    | .error e => .error e
    | .ok fs => mkComp .list .or fs
  | .list [.tok (.kw .kNot), x] => match readF L b x with
    | .error e => .error e
    | .ok f => .ok (neg f)
  | .list [.tok (.kw .kImply), x, y] => match readF L b x with
    | .error e => .error e
    | .ok f => match readF L b y with
      | .error e => .error e
      | .ok g => .ok (implies f g)
  | .list [.tok (.kw .kExists), .list vs, x] => match readVarsList L vs with
    | .error e => .error e
    | .ok vs => match pushVars b vs with
      | .error e => .error e
      | .ok b' => match readF L (some b') x with
        | .error e => .error e
        | .ok f => quantified .exists (vs.map Term.var) f
  | .list [.tok (.kw .kForall), .list vs, x] => match readVarsList L vs with
    | .error e => .error e
    | .ok vs => match pushVars b vs with
      | .error e => .error e
      | .ok b' => match readF L (some b') x with
        | .error e => .error e
        | .ok f => quantified .forall (vs.map Term.var) f
  | .list [.tok (.cmp c), x, y] => match readT L b x with
    | .error e => .error e
    | .ok l => match readT L b y with
      | .error e => .error e
      | .ok r => mkCmp L c l r
  | _ => .error .syntactic
def readFs (L : RLang) (b : Option VBinding) : List SX → Except Err (List Formula)
  | [] => .ok []
  | x :: xs => match readF L b x with
    | .error e => .error e
    | .ok f => match readFs L b xs with
      | .error e => .error e
      | .ok fs => .ok (f :: fs)
end

/-- Reads a formula from its text (the `goalDesc` of a goal or a precondition), in the scope of the given variables. -/
def readFormula (L : RLang) (b : Option VBinding) (t : Text) : Except Err Formula :=
  match readTrees t with
  | .error e => .error e
  | .ok [x] => readF L b x
  | .ok _ => .error .syntactic

end Tarski

import Verif.Aggregate
import Verif.Equality
/-! Model of the reader of RDDL expressions: /repo/src/tarski/io/rddl.py:50-213. The parser of RDDL is an external library
(pyrddl); its expression trees are the input. The numbers of RDDL are modelled by names: an integer `n` by `.int n`, any other
number by `.str` of its text (as everywhere in this model); Python's `5` and `5.0` are equal and have equal hashes, so that
`float(5)` is `.int 5` as well. -/
namespace Tarski

/-- An argument of a fluent: a Python string, which is a variable if it begins with `?`, or a number. -/
inductive RArg where
  | var (n : String)
  | name (n : String)
  | num (n : Name)
deriving DecidableEq

/-- The expression trees of the parser, by their `etype`. A name of a fluent with `'` is its base name and a flag. The
variables of an aggregation are `v` and `vs`; they precede the body in `args`. -/
inductive RX where
  | lit (n : Name)
  | bool (b : Bool)
  | pvar (f : String) (primed : Bool) (args : Option (List RArg))
  | control (args : List RX)
  | rel (op : String) (args : List RX)
  | agg (op : String) (v : String × String) (vs : List (String × String)) (body : RX)
  | arith (op : String) (args : List RX)
  | func (f : String) (args : List RX)
  | logic (op : String) (args : List RX)

/-- What `lang.get` finds under a name (fol.py:415-437). -/
inductive RSym where
  | fn (dom : List String) (cod : String)
  | pred (sorts : List String)
  | const (sort : String)
  | sort

/-- What the reader uses of a language with the theories equality, arithmetic, special and random. -/
structure RddlLang where
  sym : String → Option RSym
  sub : String → String → Bool
  parent : String → Option String
  dom : Domains
  /-- may `0` be cast to the sort (`Constant(0, sort)`, terms.py:309-317)? -/
  zeroOk : String → Bool

/-- `t.sort` (terms.py:144-146, 191-193, 283-285, 327-329): built-in functions have the codomain `Real`. -/
def RddlLang.sortOf (L : RddlLang) : Term → String
  | .var v => v.sort
  | .const _ s => s
  | .app f _ => match L.sym f with
    | some (.fn _ cod) => cod
    | _ => "Real"
  | .ite _ a b =>
    if L.sortOf a ≠ L.sortOf b ∧ L.parent (L.sortOf a) = some (L.sortOf b) then L.sortOf b else L.sortOf a

/-- The arithmetic operators of the language, for `summation` and `product`. -/
def RddlLang.agg (L : RddlLang) : AggLang := ⟨true, fun t => L.sub (L.sortOf t) "Real"⟩

/-- A term or a formula. -/
inductive RRes where
  | term (t : Term)
  | form (f : Formula)

/-- All results are terms. -/
def RRes.terms : List RRes → Option (List Term)
  | [] => some []
  | .term t :: rs => (RRes.terms rs).map (t :: ·)
  | .form _ :: _ => none

/-- All results are formulas. -/
def RRes.forms : List RRes → Option (List Formula)
  | [] => some []
  | .form f :: rs => (RRes.forms rs).map (f :: ·)
  | .term _ :: _ => none

/-- The arguments of a fluent (rddl.py:93-107, 123-137): the sort of a variable is taken from the symbol; for a number,
`arg[0]` raises TypeError. A name that is not a constant is looked up too, but the term or atom cannot be built with it. -/
def rddlArgs (L : RddlLang) (sorts : List String) : List RArg → Except Err (List Term)
  | [] => .ok []
  | .num _ :: _ => .error .typeError
  | .var x :: as =>
    match sorts with
    | [] => .error .index
    | s :: sorts => match rddlArgs L sorts as with
      | .error e => .error e
      | .ok ts => .ok (.var ⟨x, s⟩ :: ts)
  | .name c :: as =>
    match L.sym c with
    | some (.const s) => match rddlArgs L sorts.tail as with
      | .error e => .error e
      | .ok ts => .ok (.const (.str c) s :: ts)
    | none => .error .undefinedTerm
    | _ => .error .sortMismatch

/-- The checks of `CompoundTerm` and `Atom` on arity and sorts (terms.py:170-178, formulas.py:318-333). -/
def RddlLang.checkArgs (L : RddlLang) (sorts : List String) (ts : List Term) : Except Err Unit :=
  if ts.length ≠ sorts.length then .error .arity
  else if (ts.zip sorts).all (fun p => L.sub (L.sortOf p.1) p.2) then .ok ()
  else .error .sortMismatch

/-- The formula `X p(ts)` (ltl.py:46-47) is represented by an atom with the name `X p`. -/
def nextName (p : String) : String := "X " ++ p

/-- Models the reading of a fluent (rddl.py:111-141); also of the entries of the initial state (84-109), which have no prime
(there it would be dropped, `lang.get(pvar_name.replace("'", ""))`). -/
def readPvar (L : RddlLang) (f : String) (primed : Bool) (args : Option (List RArg)) : Except Err RRes :=
  match L.sym f with
  | none => .error .undefinedTerm
  | some (.fn dom _) =>
    match rddlArgs L dom (args.getD []) with
    | .error e => .error e
    | .ok ts =>
      if primed then .error .language
      else match L.checkArgs dom ts with
        | .error e => .error e
        | .ok _ => .ok (.term (.app f ts))
  | some (.pred sorts) =>
    match rddlArgs L sorts (args.getD []) with
    | .error e => .error e
    | .ok ts => match L.checkArgs sorts ts with
      | .error e => .error e
      | .ok _ => .ok (.form (.atom (.user (if primed then nextName f else f)) ts))
  | some _ =>
    match args.getD [] with
    | .var _ :: _ => .error .assertion
    | _ => if primed then .error .language else .error .typeError

/-- Models `ite` (terms.py:257-277, 304-305). The code does not look at the class of the condition; a term as a condition
cannot be represented and is counted as an error here. -/
def readIte (L : RddlLang) : List RRes → Except Err RRes
  | [.form c, .term a, .term b] =>
    if L.sortOf a = L.sortOf b ∨ L.parent (L.sortOf a) = some (L.sortOf b) ∨ L.parent (L.sortOf b) = some (L.sortOf a) then
      .ok (.term (.ite c a b))
    else .error .syntactic
  | [.term _, .term _, .term _] => .error .notAFormula
  | [_, _, _] => .error .attribute
  | _ => .error .typeError

/-- The table of relations (rddl.py:52). -/
def rddlRel : String → Option Cmp
  | "==" => some .eq
  | "<=" => some .le
  | ">=" => some .ge
  | _ => none

/-- Models `create_atom` (builtins.py:60-64); equality is declared for `object`, the comparisons for `Real`. -/
def readRel (L : RddlLang) (c : Cmp) : List RRes → Except Err RRes
  | .term a :: .term b :: _ =>
    match L.checkArgs (if c = .eq then ["object", "object"] else ["Real", "Real"]) [a, b] with
    | .error e => .error e
    | .ok _ => .ok (.form (.atom (.cmp c) [a, b]))
  | _ :: _ :: _ => .error .language
  | _ => .error .index

/-- `lang.get(var_type)` for a typed variable (rddl.py:142-144); a name that is not a sort is counted as an error here. -/
def readTyped (L : RddlLang) (v : String × String) : Except Err Var :=
  match L.sym v.2 with
  | some .sort => .ok ⟨v.1, v.2⟩
  | _ => .error .undefinedTerm

/-- A formula that is summed up counts 1 or 0 (rddl.py:157-158, 163-164). -/
def asNumber : RRes → Term
  | .term t => t
  | .form f => .ite f (.const (.int 1) "Integer") (.const (.int 0) "Integer")

/-- The end of the case of aggregations (rddl.py:153-169); `e` is the translation of `args[1]`. -/
def readAgg (L : RddlLang) (op : String) (v : Var) (e : RRes) : Except Err RRes :=
  if op = "sum" then (summation L.dom L.agg [.term (.var v), .term (asNumber e)]).map .term
  else if op = "prod" then (product L.dom L.agg [.term (.var v), .term (asNumber e)]).map .term
  else match e with
    | .term _ => .error .language
    | .form f => (quantified .forall [.var v] f).map .form

/-- The table of arithmetic operators (rddl.py:54-59). -/
def rddlArith (op : String) : Bool := op = "-" ∨ op = "+" ∨ op = "*" ∨ op = "/"

/-- Models `lang.dispatch_operator(op, Term, Term, x, y)`. With a formula as an operand the cast to a number raises. -/
def dispatchR (L : RddlLang) (op : String) : RRes → RRes → Except Err RRes
  | .term a, .term b => (L.agg.dispatch op a b).map .term
  | _, _ => .error .typeError

/-- `ite(f, t, Constant(0, t.sort))` (rddl.py:177, 179). -/
def guarded (L : RddlLang) (f : Formula) (t : Term) : Except Err RRes :=
  if L.zeroOk (L.sortOf t) then readIte L [.form f, .term t, .term (.const (.int 0) (L.sortOf t))] else .error .value

/-- Models the case of arithmetic operators (rddl.py:170-187), given the translations of the arguments. -/
def readArith (L : RddlLang) (op : String) (rs : List RRes) : Except Err RRes :=
  match rs with
  | [] => if op = "*" then .error .index else .error .typeError
  | [.form _] => if op = "*" then .error .index else if op = "-" then .error .typeError else .error .typeError
  | [.term t] =>
    if op = "*" then .error .index
    else if op = "-" then dispatchR L "*" (.term (.const (.int (-1)) "Real")) (.term t)
    else .error .typeError
  | a :: b :: rest =>
    match a, b with
    | .form f, .term t => if op = "*" then guarded L f t else if rest.isEmpty then dispatchR L op a b else .error .typeError
    | .form _, .form _ => if op = "*" then .error .attribute else .error .typeError
    | .term t, .form f => if op = "*" then guarded L f t else if rest.isEmpty then dispatchR L op a b else .error .typeError
    | .term _, .term _ => if rest.isEmpty then dispatchR L op a b else .error .typeError

/-- The table of functions (rddl.py:61-69) with the arities of theories.py:102-128. -/
def rddlFunc : String → Option (String × Nat)
  | "abs" => some ("abs", 1)
  | "Normal" => some ("normal", 2)
  | "sqrt" => some ("sqrt", 1)
  | "pow" => some ("**", 2)
  | "exp" => some ("exp", 1)
  | "max" => some ("max", 2)
  | "Gamma" => some ("gamma", 2)
  | _ => none

/-- Models `lang.get(func)(*targs)` (rddl.py:188-191, terms.py:167-185); for a formula the cast to `Real` raises. -/
def readFunc (L : RddlLang) (f : String) (n : Nat) (rs : List RRes) : Except Err RRes :=
  if rs.length ≠ n then .error .arity
  else match RRes.terms rs with
    | none => .error .typeError
    | some ts => match L.checkArgs (ts.map fun _ => "Real") ts with
      | .error e => .error e
      | .ok _ => .ok (.term (.app f ts))

/-- Models the connectives (rddl.py:50, 192-195). A single argument of `^` and `|` is returned as it is. -/
def readLogic (op : String) (rs : List RRes) : Except Err RRes :=
  if op = "=>" then
    match rs with
    | [.form a, .form b] => .ok (.form (implies a b))
    | [_, _] => .error .language
    | _ => .error .typeError
  else if op = "~" then
    match rs with
    | [.form a] => .ok (.form (neg a))
    | [_] => .error .language
    | _ => .error .typeError
  else if op = "^" ∨ op = "|" then
    match rs with
    | [r] => .ok r
    | _ => match RRes.forms rs with
      | none => .error .language
      | some fs => .ok (.form (if op = "^" then land fs else lor fs))
  else .error .keyError

mutual
/-- Models `translate_expression` (rddl.py:73-204). -/
def readX (L : RddlLang) : RX → Except Err RRes
  | .lit n => .ok (.term (.const n "Real"))
  | .bool _ => .error .runtime
  | .pvar f primed args => readPvar L f primed args
  | .control args => match readXs L args with
    | .error e => .error e
    | .ok rs => readIte L rs
  | .rel op args => match rddlRel op with
    | none => .error .keyError
    | some c => match readXs L args with
      | .error e => .error e
      | .ok rs => readRel L c rs
  | .agg op v vs body =>
    if op = "sum" ∨ op = "prod" ∨ op = "forall" then
      match readTyped L v with
      | .error e => .error e
      | .ok x => match vs with
        | [] => match readX L body with
          | .error e => .error e
          | .ok r => readAgg L op x r
        | w :: _ => match readTyped L w with
          | .error e => .error e
          | .ok y => readAgg L op x (.term (.var y))
    else .error .runtime
  | .arith op args =>
    if rddlArith op then match readXs L args with
      | .error e => .error e
      | .ok rs => readArith L op rs
    else .error .keyError
  | .func f args => match rddlFunc f with
    | none => .error .keyError
    | some (g, n) => match readXs L args with
      | .error e => .error e
      | .ok rs => readFunc L g n rs
  | .logic op args =>
    if op = "=>" ∨ op = "^" ∨ op = "|" ∨ op = "~" then match readXs L args with
      | .error e => .error e
      | .ok rs => readLogic op rs
    else .error .keyError
def readXs (L : RddlLang) : List RX → Except Err (List RRes)
  | [] => .ok []
  | x :: xs => match readX L x with
    | .error e => .error e
    | .ok r => match readXs L xs with
      | .error e => .error e
      | .ok rs => .ok (r :: rs)
end

end Tarski

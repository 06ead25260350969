import Verif.Rddl
import Verif.Containers
import Verif.Model
import Verif.PddlTypes
/-! Model of the conditions and actions of the PLY-based PDDL reader: /repo/src/tarski/io/pddl/parser.py (337-439, 533-1007,
1246-1269, 1299-1423) and /repo/src/tarski/io/pddl/instance.py (215-371).

The input are the derivation trees of the grammar; which derivation the generated LALR parser finds is not modelled. The
bodies of the rules are run from left to right and from the leaves up, as the parser does. -/
namespace Tarski

/-- `term` (parser.py:719-747) -/
inductive YTerm where
  | id (n : String)
  | var (n : String)
  | fn (f : String) (args : List YTerm)

/-- The operators of the rule `f_exp -> ( binary_op f_exp f_exp )` for which it has an action. -/
inductive YBin where
  | minus | div
deriving DecidableEq

/-- `multi_op` (parser.py:859-863) -/
inductive YMulti where
  | plus | times
deriving DecidableEq

/-- `f_exp` and `f_head` (parser.py:768-850) -/
inductive YExp where
  | nat (n : Nat)
  | real (text : String)
  | var (n : String)
  | bin (op : YBin) (a b : YExp)
  | multi (op : YMulti) (a b : YExp) (rest : List YExp)
  | minus (a : YExp)
  | head (f : String) (args : List YTerm)
  | headId (f : String)

/-- A token of `list_of_typed_variables` or `quantifier_scope` (parser.py:394-439); the word of a type. -/
inductive VTok where
  | var (n : String)
  | type (t : String)
deriving DecidableEq

/-- `atomic_formula_of_term` (parser.py:689-707) -/
inductive YAtom where
  | pred (p : String) (args : List YTerm)
  | eq (a b : YTerm)

/-- `GD` (parser.py:632-687) and `f_comp` (865-888) -/
inductive YGD where
  | lit (a : YAtom)
  | notLit (a : YAtom)
  | and (gs : List YGD)
  | or (gs : List YGD)
  | not (g : YGD)
  | imply (a b : YGD)
  | quant (q : Quant) (vs : List VTok) (g : YGD)
  | comp (c : Cmp) (a b : YExp)

/-- What the reader uses of the instance: the language, the keys of `types`, and whether an integer can be cast to a sort
(sorts.py:43-52, 105-116). -/
structure YLang where
  base : RddlLang
  types : List String
  castOk : String → Int → Bool

/-- `var_dict`: the variables in scope (parser.py:54). -/
abbrev YScope := List (String × Var)

mutual
/-- Models `p_term` (parser.py:719-747), and with the second component `p_function_term` (749-757). The symbol of a function or
a sort is no term: using it as one raises. -/
def readYTerm (L : YLang) (sc : YScope) : YTerm → Except Err Term
  | .id n => match L.base.sym n with
    | some (.const s) => .ok (.const (.str n) s)
    | none => .error .semantic
    | _ => .error .attribute
  | .var n => match dlookup sc n with
    | some v => .ok (.var v)
    | none => .error .semantic
  | .fn f args => match readYTerms L sc args with
    | .error e => .error e
    | .ok ts => match L.base.sym f with
      | none => .error .semantic
      | some (.fn dom _) => match L.base.checkArgs dom ts with
        | .error e => .error e
        | .ok _ => .ok (.app f ts)
      | _ => .error .typeError
def readYTerms (L : YLang) (sc : YScope) : List YTerm → Except Err (List Term)
  | [] => .ok []
  | t :: ts => match readYTerm L sc t with
    | .error e => .error e
    | .ok u => match readYTerms L sc ts with
      | .error e => .error e
      | .ok us => .ok (u :: us)
end

/-- The symbols of the operators. -/
def YBin.sym : YBin → String
  | .minus => "-"
  | .div => "/"

/-- The symbols of the operators. -/
def YMulti.sym : YMulti → String
  | .plus => "+"
  | .times => "*"

mutual
/-- Models `p_f_exp` and `p_f_head` (parser.py:768-850). Terms have no unary minus (terms.py:25-132), so that `-p[3]` raises.
A wrong number or sort of arguments of a head is reported as a SemanticError; the model keeps the kind of the error. -/
def readYExp (L : YLang) (sc : YScope) : YExp → Except Err Term
  | .nat n => .ok (.const (.int n) "Integer")
  | .real s => .ok (.const (.str s) "Real")
  | .var n => match dlookup sc n with
    | some v => .ok (.var v)
    | none => .error .semantic
  | .bin op a b => match readYExp L sc a with
    | .error e => .error e
    | .ok t => match readYExp L sc b with
      | .error e => .error e
      | .ok u => L.base.agg.dispatch op.sym t u
  | .multi op a b rest => match readYExp L sc a with
    | .error e => .error e
    | .ok t => match readYExp L sc b with
      | .error e => .error e
      | .ok u => match readYExps L sc rest with
        | .error e => .error e
        | .ok us => L.base.agg.chain op.sym t (u :: us)
  | .minus a => match readYExp L sc a with
    | .error e => .error e
    | .ok _ => .error .typeError
  | .head f args => readYTerm L sc (.fn f args)
  | .headId f => readYTerm L sc (.fn f [])
def readYExps (L : YLang) (sc : YScope) : List YExp → Except Err (List Term)
  | [] => .ok []
  | t :: ts => match readYExp L sc t with
    | .error e => .error e
    | .ok u => match readYExps L sc ts with
      | .error e => .error e
      | .ok us => .ok (u :: us)
end

/-- The loop of `normalize_typed_variable_list` (parser.py:345-363); `pending` are the variables since the last type. The words
`object` and `number` are replaced before (283-293), the type `object` is appended at the end (349). -/
def normalizeVars (L : YLang) (pending : List String) : List VTok → Except Err (List Var)
  | [] => if "object" ∈ L.types then .ok (pending.map (⟨·, "object"⟩)) else .error .semantic
  | .var n :: ts => normalizeVars L (pending ++ [n]) ts
  | .type t :: ts =>
    if primitiveType t ∈ L.types then match normalizeVars L [] ts with
      | .error e => .error e
      | .ok vs => .ok (pending.map (⟨·, primitiveType t⟩) ++ vs)
    else .error .semantic

/-- `self.var_dict[entry['var']] = entry['term']` for all entries (parser.py:425-426, 552-553). -/
def enterScope (sc : YScope) (vs : List Var) : YScope := vs.foldl (fun sc v => dinsert sc v.sym v) sc

/-- `del self.var_dict[entry['var']]` for all entries (parser.py:544-545, 661-662, 668-669). -/
def leaveScope : YScope → List Var → Except Err YScope
  | sc, [] => .ok sc
  | sc, v :: vs => if (dlookup sc v.sym).isSome then leaveScope (ddelete sc v.sym) vs else .error .keyError

/-- The value of `atomic_formula_of_term` (parser.py:689-707): `boolean`, `lhs`, and `rhs` unless it is the number 1. -/
structure YAtomVal where
  lhs : Term
  rhs : Option Term

/-- Models `p_atomic_formula_of_term` (parser.py:689-707); an undeclared predicate raises the exception of `L.get`. -/
def readYAtom (L : YLang) (sc : YScope) : YAtom → Except Err YAtomVal
  | .pred p args => match readYTerms L sc args with
    | .error e => .error e
    | .ok ts => match L.base.sym p with
      | none => .error .undefinedTerm
      | some (.fn dom _) => match L.base.checkArgs dom ts with
        | .error e => .error e
        | .ok _ => .ok ⟨.app p ts, none⟩
      | _ => .error .typeError
  | .eq a b => match readYTerm L sc a with
    | .error e => .error e
    | .ok t => match readYTerm L sc b with
      | .error e => .error e
      | .ok u => .ok ⟨t, some u⟩

/-- `lhs == n` (terms.py:51-52, theories.py:135-142, ops.py:26): the number is cast to the sort of the term. -/
def eqNumber (L : YLang) (t : Term) (n : Int) : Except Err Formula :=
  if L.castOk (L.base.sortOf t) n then
    match L.base.checkArgs ["object", "object"] [t, .const (.int n) (L.base.sortOf t)] with
    | .error e => .error e
    | .ok _ => .ok (.atom (.cmp .eq) [t, .const (.int n) (L.base.sortOf t)])
  else .error .value

/-- A comparison of terms (terms.py:51-67, factory.py:14-26). -/
def compareTerms (L : YLang) (c : Cmp) (t u : Term) : Except Err Formula :=
  match L.base.checkArgs (if c = .eq ∨ c = .ne then ["object", "object"] else ["Real", "Real"]) [t, u] with
  | .error e => .error e
  | .ok _ => .ok (.atom (.cmp c) [t, u])

/-- Models `p_literal_of_term` (parser.py:674-687). -/
def readYLit (L : YLang) (sc : YScope) (a : YAtom) (positive : Bool) : Except Err Formula :=
  match readYAtom L sc a with
  | .error e => .error e
  | .ok v => match v.rhs with
    | none => eqNumber L v.lhs (if positive then 1 else 0)
    | some u => match compareTerms L .eq v.lhs u with
      | .error e => .error e
      | .ok f => .ok (if positive then f else neg f)

mutual
/-- Models `p_GD` (parser.py:632-671) and `p_f_comp` (865-879). -/
def readGD (L : YLang) : YGD → YScope → Except Err (Formula × YScope)
  | .lit a, sc => match readYLit L sc a true with
    | .error e => .error e
    | .ok f => .ok (f, sc)
  | .notLit a, sc => match readYLit L sc a false with
    | .error e => .error e
    | .ok f => .ok (f, sc)
  | .and gs, sc => match readGDs L gs sc with
    | .error e => .error e
    | .ok (fs, sc) => .ok (land fs, sc)
  | .or gs, sc => match readGDs L gs sc with
    | .error e => .error e
    | .ok (fs, sc) => .ok (lor fs, sc)
  | .not g, sc => match readGD L g sc with
    | .error e => .error e
    | .ok (f, sc) => .ok (neg f, sc)
  | .imply a b, sc => match readGD L a sc with
    | .error e => .error e
    | .ok (f, sc) => match readGD L b sc with
      | .error e => .error e
      | .ok (g, sc) => .ok (lor [neg f, g], sc)
  | .quant q toks g, sc => match normalizeVars L [] toks with
    | .error e => .error e
    | .ok vs => match readGD L g (enterScope sc vs) with
      | .error e => .error e
      | .ok (f, sc) => match leaveScope sc vs with
        | .error e => .error e
        | .ok sc => .ok (.quant q (vs.map .var) f, sc)
  | .comp c a b, sc => match readYExp L sc a with
    | .error e => .error e
    | .ok t => match readYExp L sc b with
      | .error e => .error e
      | .ok u => match compareTerms L c t u with
        | .error e => .error e
        | .ok f => .ok (f, sc)
def readGDs (L : YLang) : List YGD → YScope → Except Err (List Formula × YScope)
  | [], sc => .ok ([], sc)
  | g :: gs, sc => match readGD L g sc with
    | .error e => .error e
    | .ok (f, sc) => match readGDs L gs sc with
      | .error e => .error e
      | .ok (fs, sc) => .ok (f :: fs, sc)
end

end Tarski

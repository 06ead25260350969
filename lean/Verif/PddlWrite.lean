import Verif.PddlText
import Verif.Effects
/-! Model of the PDDL/FSTRIPS writer: /repo/src/tarski/io/fstrips.py:319-427. Texts are lists of characters.
`real` tells the sorts whose values are python floats (their `encode` is `float`, sorts.py:201-202, 228-231). -/
namespace Tarski

/-- `" ".join(l)` and the like. -/
def joinWith (sep : Text) : List Text → Text
  | [] => []
  | [a] => a
  | a :: b :: l => a ++ sep ++ joinWith sep (b :: l)

/-- `str(n)` of a python integer. -/
def intText : Int → Text
  | .ofNat n => Nat.toDigits 10 n
  | .negSucc n => '-' :: Nat.toDigits 10 (n + 1)

/-- Models `print_variable_name` (io/fstrips.py:326-327). -/
def printVarName (s : String) : Text := if s.toList.head? = some '?' then s.toList else '?' :: s.toList

/-- One element of `print_variable_list` (io/fstrips.py:331): the raw name of the sort is printed. -/
def printVarDecl (v : Var) : Text := printVarName v.sym ++ [' ', '-', ' '] ++ v.sort.toList

/-- Models `print_variable_list` (io/fstrips.py:330-331). -/
def printVarList (vs : List Var) : Text := joinWith [' '] (vs.map printVarDecl)

/-- The string of a comparison symbol (builtins.py:7-16). -/
def Cmp.text : Cmp → Text
  | .eq => ['=']
  | .ne => ['!', '=']
  | .lt => ['<']
  | .le => ['<', '=']
  | .gt => ['>']
  | .ge => ['>', '=']

/-- `f"{term.symbol}"` for a constant (io/fstrips.py:397-398). A whole float is printed with `.0`; floats from 1e16
on, printed with an exponent, are not modelled. -/
def printConst (real : String → Bool) (n : Name) (sort : String) : Text :=
  match n with
  | .str s => s.toList
  | .int n => if real sort then intText n ++ ['.', '0'] else intText n
  | .pyNone => ['N', 'o', 'n', 'e']

mutual
/-- Models `print_term` (io/fstrips.py:391-399): an if-then-else term is none of the three classes. -/
def printT (real : String → Bool) : Term → Except Err Text
  | .var v => .ok (printVarName v.sym)
  | .const n s => .ok (printConst real n s)
  | .app f ts => match printTs real ts with
    | .error e => .error e
    | .ok ss => .ok ('(' :: f.toList ++ ' ' :: joinWith [' '] ss ++ [')'])
  | .ite _ _ _ => .error .runtime
/-- The texts joined by `print_term_list` (io/fstrips.py:414-415). -/
def printTs (real : String → Bool) : List Term → Except Err (List Text)
  | [] => .ok []
  | t :: ts => match printT real t with
    | .error e => .error e
    | .ok s => match printTs real ts with
      | .error e => .error e
      | .ok ss => .ok (s :: ss)
end

/-- Models `print_atom` (io/fstrips.py:402-411). -/
def printAtom (real : String → Bool) (p : PSym) (ts : List Term) : Except Err Text :=
  match printTs real ts with
  | .error e => .error e
  | .ok ss =>
    let sub := joinWith [' '] ss
    match p with
    | .cmp .ne => .ok (['(', 'n', 'o', 't', ' ', '(', '=', ' '] ++ sub ++ [')', ')'])
    | .cmp c => .ok ('(' :: c.text ++ ' ' :: sub ++ [')'])
    | .user n => .ok ('(' :: n.toList ++ ' ' :: sub ++ [')'])

/-- `str(connective)` (formulas.py:16-17). -/
def Conn.text : Conn → Text
  | .and => ['a', 'n', 'd']
  | .or => ['o', 'r']
  | .not => ['n', 'o', 't']

/-- `str(quantifier)` (formulas.py:26-27). -/
def Quant.text : Quant → Text
  | .exists => ['e', 'x', 'i', 's', 't', 's']
  | .forall => ['f', 'o', 'r', 'a', 'l', 'l']

/-- The variables of a quantified formula. A non-variable among them (only substitution can put one there) is an error
here; the code prints its symbol. -/
def asVars : List Term → Except Err (List Var)
  | [] => .ok []
  | .var v :: ts => match asVars ts with
    | .error e => .error e
    | .ok vs => .ok (v :: vs)
  | _ :: _ => .error .attribute

mutual
/-- Models `print_formula` (io/fstrips.py:334-349); the indentation argument is not used by the code. -/
def printF (real : String → Bool) : Formula → Except Err Text
  | .top => .ok ['(', 'a', 'n', 'd', ' ', ')']
  | .bot => .ok ['(', '=', ' ', '0', ' ', '1', ')']
  | .atom p ts => printAtom real p ts
  | .comp _ c fs => match printFs real fs with
    | .error e => .error e
    | .ok ss => .ok ('(' :: c.text ++ ' ' :: joinWith [' '] ss ++ [')'])
  | .quant q vs f => match asVars vs with
    | .error e => .error e
    | .ok vs => match printF real f with
      | .error e => .error e
      | .ok s => .ok ('(' :: q.text ++ [' ', '('] ++ printVarList vs ++ [')', ' '] ++ s ++ [')'])
/-- The texts joined by `print_formula_list` (io/fstrips.py:422-423). -/
def printFs (real : String → Bool) : List Formula → Except Err (List Text)
  | [] => .ok []
  | f :: fs => match printF real f with
    | .error e => .error e
    | .ok s => match printFs real fs with
      | .error e => .error e
      | .ok ss => .ok (s :: ss)
end

end Tarski

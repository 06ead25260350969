import Verif.PddlEff
import Verif.Induct
/-! Model of the texts that expressions, effects and actions have in Python (`str`, `repr`): /repo/src/tarski/syntax/terms.py:148-152, 195-198,
287-290, 335-339, /repo/src/tarski/syntax/formulas.py:69-91, 114-122, 155-159, 335-338, /repo/src/tarski/fstrips/fstrips.py:20-103 and
/repo/src/tarski/fstrips/action.py:21-36. -/
namespace Tarski

/-- `str(name)` of the name of a constant (terms.py:335-336). -/
def constShown : Name → Text
  | .str s => s.toList
  | .int n => intText n
  | .pyNone => ['N', 'o', 'n', 'e']

/-- `predicate.symbol` as a text (predicate.py:21-23, builtins.py:7-16, formulas.py:336). -/
def psymShown : PSym → Text
  | .cmp c => c.text
  | .user n => n.toList

/-- `str` of the function `ite`: its name and its arity (function.py:50-51, theories.py:89). -/
def iteShown : Text := ['i', 't', 'e', '/', '2']

/-- Models `CompoundFormula.__str__` (formulas.py:114-120) on the texts of the subformulas. A negation of other than one formula fails the assertion of
line 116 and is not constructed (lines 108-110): it is printed like the other connectives here. -/
def compShown : Conn → List Text → Text
  | .not, [t] => '(' :: Conn.not.text ++ ' ' :: t ++ [')']
  | c, ts => '(' :: joinWith (' ' :: c.text ++ [' ']) ts ++ [')']

mutual
/-- Models `str(term)` (terms.py:148-149, 195-196, 287-288, 335-336). -/
def showT : Term → Text
  | .var v => v.sym.toList
  | .const n _ => constShown n
  | .app f ts => f.toList ++ '(' :: joinWith [',', ' '] (showTs ts) ++ [')']
  | .ite c t e => iteShown ++ '(' :: joinWith [',', ' '] [showF c, showT t, showT e] ++ [')']

/-- `[str(t) for t in ts]` -/
def showTs : List Term → List Text
  | [] => []
  | t :: ts => showT t :: showTs ts

/-- Models `str(formula)` (formulas.py:70-71, 83-84, 114-120, 155-157, 335-336). -/
def showF : Formula → Text
  | .top => ['T']
  | .bot => ['F']
  | .atom p ts => psymShown p ++ '(' :: joinWith [','] (showTs ts) ++ [')']
  | .comp _ c fs => compShown c (showFs fs)
  | .quant q vs f => q.text ++ ' ' :: joinWith [',', ' '] (showTs vs) ++ [' ', ':', ' ', '('] ++ showF f ++ [')']

/-- `[str(f) for f in fs]` -/
def showFs : List Formula → List Text
  | [] => []
  | f :: fs => showF f :: showFs fs
end

/-- Models `Variable.__repr__` (terms.py:151-152). -/
def varRepr (v : Var) : Text := v.sym.toList ++ [' ', '('] ++ v.sort.toList ++ [')']

/-- The text of a Python list of variables. -/
def varsRepr (vs : List Var) : Text := '[' :: joinWith [',', ' '] (vs.map varRepr) ++ [']']

/-- The arrow between the condition of an effect and the effect (fstrips.py:22, 99). -/
def arrowShown : Text := [' ', '-', '>', ' ']

mutual
/-- Models `str(effect)` (fstrips.py:20-27, 37-38, 48-49, 57-58, 86-87, 97-99). -/
def showE : Effect → Text
  | .add c p ts => '(' :: showF c ++ arrowShown ++ ['A', 'D', 'D', '('] ++ showF (.atom p ts) ++ [')', ')']
  | .del c p ts => '(' :: showF c ++ arrowShown ++ ['D', 'E', 'L', '('] ++ showF (.atom p ts) ++ [')', ')']
  | .lit c l => '(' :: showF c ++ arrowShown ++ ['L', 'I', 'T', '('] ++ showF l ++ [')', ')']
  | .assign c f ts rhs => '(' :: showF c ++ arrowShown ++ showT (.app f ts) ++ [' ', ':', '=', ' '] ++ showT rhs ++ [')']
  | .univ c vs es => '(' :: showF c ++ arrowShown ++ Quant.forall.text ++ [' ', '('] ++ varsRepr vs ++ [')', ' ', ':', ' ', '('] ++
      joinWith [',', ' '] (showEs es) ++ [')', ')']

/-- `map(str, effects)` -/
def showEs : List Effect → List Text
  | [] => []
  | e :: es => showE e :: showEs es
end

/-- One parameter in `Action.ident` (action.py:22). -/
def paramShown (v : Var) : Text := v.sym.toList ++ [':', ' '] ++ v.sort.toList

/-- Models `Action.ident` and `Action.__str__` (action.py:21-26). -/
def actionIdent (a : PAction) : Text := a.name.toList ++ '(' :: joinWith [','] (a.params.map paramShown) ++ [')']

/-- Models `Action.print` (action.py:30-36). -/
def actionPrint (a : PAction) : Text :=
  actionIdent a ++ [':', '\n', 'p', 'r', 'e', '=', '('] ++ showF a.pre ++ [')', '\n', 'e', 'f', 'f', '=', '('] ++ joinWith [' ', '&', ' '] (showEs a.effs) ++ [')']

end Tarski

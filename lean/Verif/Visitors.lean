import Verif.Equality
import Verif.FreeVars
import Verif.Effects
/-! Model of the visitors of expressions `MatchExpression`, `CollectVariables` and `CollectEqualityAtoms`
(/repo/src/tarski/syntax/visitors.py:5-56, 84-97) and of `visit_effect` (/repo/src/tarski/fstrips/fstrips.py:297-316). -/
namespace Tarski

/-- An expression that `symref` accepts (symrefs.py:5-12). -/
inductive XExpr where
  | term (t : Term)
  | form (f : Formula)
deriving DecidableEq

/-- `symref(phi) == self.target` (visitors.py:17; symrefs.py:27-28): `is_syntactically_equal`, which compares classes first. -/
def refEq : XExpr → XExpr → Bool
  | .term t, .term u => termEq t u
  | .form f, .form g => formulaEq f g
  | _, _ => false

mutual
/-- Models `MatchExpression.visit` on terms (visitors.py:22-38): `h` is the counter `hits`. Variables, constants and if-then-else
terms match no branch. -/
def matchT (x : XExpr) : Term → Nat → Nat
  | .var _, h => h
  | .const _ _, h => h
  | .app f ts, h => if refEq (.term (.app f ts)) x then h + 1 else matchTs x ts h
  | .ite _ _ _, h => h
/-- `[self.visit(f) for f in phi.subterms]` (visitors.py:38). -/
def matchTs (x : XExpr) : List Term → Nat → Nat
  | [], h => h
  | t :: ts, h => matchTs x ts (matchT x t h)
end

mutual
/-- Models `MatchExpression.visit` on formulas (visitors.py:22-38). -/
def matchF (x : XExpr) : Formula → Nat → Nat
  | .top, h => h
  | .bot, h => h
  | .atom p ts, h => if refEq (.form (.atom p ts)) x then h + 1 else matchTs x ts h
  | .comp k c fs, h => if refEq (.form (.comp k c fs)) x then h + 1 else matchFs x fs h
  | .quant q vs f, h => if refEq (.form (.quant q vs f)) x then h + 1 else matchF x f h
/-- `[self.visit(f) for f in phi.subformulas]` (visitors.py:26). -/
def matchFs (x : XExpr) : List Formula → Nat → Nat
  | [], h => h
  | f :: fs, h => matchFs x fs (matchF x f h)
end

mutual
/-- Models `CollectVariables.visit` on terms (visitors.py:47-56): `self.variables.add(phi)` hashes the variable, and terms are not
hashable (terms.py:127), so that it raises TypeError. -/
def collectVarsT : Term → List Var → Except Err (List Var)
  | .var _, _ => .error .typeError
  | .const _ _, s => .ok s
  | .app _ ts, s => collectVarsTs ts s
  | .ite _ _ _, s => .ok s
def collectVarsTs : List Term → List Var → Except Err (List Var)
  | [], s => .ok s
  | t :: ts, s => match collectVarsT t s with
    | .error e => .error e
    | .ok s' => collectVarsTs ts s'
end

mutual
/-- Models `CollectVariables.visit` on formulas (visitors.py:47-56). -/
def collectVarsF : Formula → List Var → Except Err (List Var)
  | .top, s => .ok s
  | .bot, s => .ok s
  | .atom _ ts, s => collectVarsTs ts s
  | .comp _ _ fs, s => collectVarsFs fs s
  | .quant _ _ f, s => collectVarsF f s
def collectVarsFs : List Formula → List Var → Except Err (List Var)
  | [], s => .ok s
  | f :: fs, s => match collectVarsF f s with
    | .error e => .error e
    | .ok s' => collectVarsFs fs s'
end

mutual
/-- Models `CollectEqualityAtoms.visit` (visitors.py:90-95): the set `atoms`, without repetitions. -/
def eqAtomsF : Formula → List Formula → List Formula
  | .top, s => s
  | .bot, s => s
  | .atom p ts, s => if isEqAtom (.atom p ts) then setAdd s (.atom p ts) else s
  | .comp _ _ fs, s => eqAtomsFs fs s
  | .quant _ _ _, s => s
def eqAtomsFs : List Formula → List Formula → List Formula
  | [], s => s
  | f :: fs, s => eqAtomsFs fs (eqAtomsF f s)
end

/-- What the callback of `visit_effect` is called with. -/
inductive VNode where
  | eff (e : Effect)
  | expr (x : XExpr)

mutual
/-- Models `visit_effect` (fstrips.py:297-316): the arguments of the calls of the callback, in order. Procedural effects and the
effects that are refused are not modelled. -/
def visitEffect : Effect → List VNode
  | .add c p ts => [.eff (.add c p ts), .expr (.form c), .expr (.form (.atom p ts))]
  | .del c p ts => [.eff (.del c p ts), .expr (.form c), .expr (.form (.atom p ts))]
  | .lit c l => [.eff (.lit c l), .expr (.form c), .expr (.form l)]
  | .assign c f ts r => [.eff (.assign c f ts r), .expr (.form c), .expr (.term (.app f ts)), .expr (.term r)]
  | .univ c vs es => .eff (.univ c vs es) :: .expr (.form c) :: (vs.map (fun v => VNode.expr (.term (.var v))) ++ visitEffects es)
/-- `[visit_effect(x, callback) for x in effect.effects]` (fstrips.py:311). -/
def visitEffects : List Effect → List VNode
  | [] => []
  | e :: es => visitEffect e ++ visitEffects es
end

end Tarski

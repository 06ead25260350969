import Verif.Induct
/-! Model of /repo/src/tarski/syntax/transform/nnf.py. -/
namespace Tarski

/-- Models `negate_connective` (nnf.py:66-67); raises KeyError on `Not`, never called with it. -/
def negateConnective : Conn → Conn
  | .or => .and
  | .and => .or
  | .not => .not

mutual
/-- Models `NNFTransformation._convert` (nnf.py:28-53). The in-place updates of the deep copy are
returned as new values; and/or nodes get a python tuple (line 45).
Lines 29-33 return the *class* `Contradiction`/`Tautology` instead of an instance when a truth
constant is negated: the result then is, or contains, an object which is not a formula. This is
represented by the value `.error .notAFormula`. A negation whose container has not exactly one
element (assertion, line 50) is `.error .value`. -/
def nnf (negated : Bool) : Formula → Except Err Formula
  | .top => if negated then .error .notAFormula else .ok .top
  | .bot => if negated then .error .notAFormula else .ok .bot
  | .atom p ts => .ok (if negated then neg (.atom p ts) else .atom p ts)
  | .quant q vs f =>
    match nnf negated f with
    | .ok g => .ok (.quant (if negated then negateQuantifier q else q) vs g)
    | .error e => .error e
  | .comp k .not fs =>
    match k, fs with
    | _, [f] => nnf (!negated) f
    | _, _ => .error .value
  | .comp _ .and fs =>
    match nnfs negated fs with
    | .ok gs => .ok (.comp .tuple (if negated then negateConnective .and else .and) gs)
    | .error e => .error e
  | .comp _ .or fs =>
    match nnfs negated fs with
    | .ok gs => .ok (.comp .tuple (if negated then negateConnective .or else .or) gs)
    | .error e => .error e
/-- The generator expression of nnf.py:45. -/
def nnfs (negated : Bool) : List Formula → Except Err (List Formula)
  | [] => .ok []
  | f :: fs =>
    match nnf negated f with
    | .error e => .error e
    | .ok g =>
      match nnfs negated fs with
      | .error e => .error e
      | .ok gs => .ok (g :: gs)
end

/-- Models `to_negation_normal_form` (nnf.py:70-72, 55-57). -/
def toNNF (f : Formula) : Except Err Formula := nnf false f

end Tarski

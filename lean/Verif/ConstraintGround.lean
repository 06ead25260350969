import Verif.QE
import Verif.Nodes
import Verif.CNF
import Verif.Builtins
import Verif.Containers
/-! Model of the grounder of state constraints: /repo/src/tarski/grounding/naive/constraints.py. -/
namespace Tarski

/-- The variables that `all_variables` lists (ops.py:60-62), in the order of the iteration over a Python set, which is
given by the parameter `ord`. -/
def listedVariables (ord : List Node → List Node) (g : Formula) : List Term :=
  (ord (allVariables (.f g)).1).filterMap fun n => match n with
    | .t x => some x
    | .f _ => none

/-- Models the body of the inner loop of `calculate_constraints` (constraints.py:33-45) up to the call of `add`: the
formula that is added for one tuple of values. The root may be an existential quantifier (lines 38-42); a universal one
fails the assertion of line 39. -/
def groundConstraint (g : Formula) (s : Subst) : Except Err Formula :=
  match absorb (subF s g) with
  | .quant .exists vs b =>
    match toCNF b with
    | .error e => .error e
    | .ok c => .ok (.quant .exists vs c)
  | .quant .forall _ _ => .error .assertion
  | h => toCNF h

/-- Models the inner loop (constraints.py:32-45). `SymbolIndex.add` raises on an element that is already there
(util.py:24-26). -/
def constraintTuples (g : Formula) (syms : List Term) : List (List Term) → SymIndex Formula → Except Err (SymIndex Formula)
  | [], idx => .ok idx
  | values :: rest, idx =>
    match groundConstraint g (createSubst syms values) with
    | .error e => .error e
    | .ok c =>
      match idx.add c with
      | (_, some e) => .error e
      | (idx', none) => constraintTuples g syms rest idx'

/-- Models the outer loop of `calculate_constraints` (constraints.py:28-46): the index and the counter. The walk of
`all_variables` (line 31) has changed the formula in place when the substitution is applied to it. -/
def groundSchemas (dom : Domains) (ord : List Node → List Node) :
    List Formula → SymIndex Formula → Nat → Except Err (SymIndex Formula × Nat)
  | [], idx, n => .ok (idx, n)
  | f :: fs, idx, n =>
    match removeQuantifiers dom .forall f with
    | .error e => .error e
    | .ok g =>
      match enumerateGroundings dom (listedVariables ord g) with
      | .error e => .error e
      | .ok (card, syms, substs) =>
        match constraintTuples (walkF g) syms (cart substs) idx with
        | .error e => .error e
        | .ok idx' => groundSchemas dom ord fs idx' (n + card)

/-- Models `ConstraintGrounder.calculate_constraints` on a new grounder (constraints.py:16-22, 27-46). -/
def calculateConstraints (dom : Domains) (ord : List Node → List Node) (schemas : List Formula) :
    Except Err (SymIndex Formula × Nat) :=
  groundSchemas dom ord schemas SymIndex.empty 0

end Tarski

import Verif.Visitors
/-! Model of the constructors of the effects on vectors of terms, of choice effects and of the optimization types
(/repo/src/tarski/fstrips/fstrips.py:111-285). `InvalidEffectError` is `Err.representation`. -/
namespace Tarski

/-- An argument of these constructors, as far as they look at it: the attribute `shape`, if it has one (numpy's tuple of dimensions). -/
abbrev VShape := Option (List Nat)

/-- `t[i]` on a tuple (of non-negative index): IndexError out of range. -/
def tupleAt (t : List Nat) (i : Nat) : Except Err Nat :=
  match t[i]? with
  | some n => .ok n
  | none => .error .index

/-- Models `VectorisedEffect.check_well_formed` (fstrips.py:166-182). -/
def checkVectorised (lhs rhs : VShape) : Except Err Unit :=
  match lhs with
  | none => .error .representation
  | some l => match tupleAt l 0 with
    | .error e => .error e
    | .ok n => if n > 1 then .error .representation else match rhs with
      | none => .error .representation
      | some r => if l = r then .error .representation else .ok ()

/-- Models `LinearEffect.check_well_formed` (fstrips.py:206-241), for `y := A x + b`. -/
def checkLinear (y A x b : VShape) : Except Err Unit :=
  match y with
  | none => .error .representation
  | some ys => match tupleAt ys 0 with
    | .error e => .error e
    | .ok n => if n > 1 then .error .representation else match x with
      | none => .error .representation
      | some xs => if ys ≠ xs then .error .representation else match A with
        | none => .error .representation
        | some as => match tupleAt as 1 with
          | .error e => .error e
          | .ok k => if n ≠ k then .error .representation else match b with
            | none => .error .representation
            | some bs => if xs ≠ bs then .error .representation else .ok ()

/-- The left-hand side of a black-box effect: its shape and, if it is two-dimensional, its first column. -/
structure BBLhs where
  shape : VShape
  column : List Term

/-- The loop of `BlackBoxEffect.check_well_formed` (fstrips.py:272-279), from the `k`-th component on. -/
def checkOutputs (outs : List Term) : Nat → List Term → Except Err Unit
  | _, [] => .ok ()
  | k, y :: ys => match outs[k]? with
    | none => .error .index
    | some o => if refEq (.term y) (.term o) then checkOutputs outs (k + 1) ys else .error .representation

/-- Models `BlackBoxEffect.check_well_formed` (fstrips.py:258-279): `outs` are the symbols of `function.out_x` after
`bind_to_language` (a method of the caller's function object, not modelled otherwise). With more than two dimensions `lhs[0, 0]` is an
array, which has no attribute `language`. -/
def checkBlackBox (lhs : BBLhs) (outs : List Term) : Except Err Unit :=
  match lhs.shape with
  | none => .error .representation
  | some s => match tupleAt s 1 with
    | .error e => .error e
    | .ok m => if m > 1 then .error .representation else match s with
      | [_, _] => match lhs.column with
        | [] => .error .index
        | c => checkOutputs outs 0 c
      | _ => .error .attribute

/-- Models `ChoiceEffect.check_well_formed` (fstrips.py:143-147). -/
def checkChoice (obj : XExpr) : Except Err Unit :=
  match obj with
  | .term (.app _ _) => .ok ()
  | _ => .error .representation

/-- Models `OptimizationType` (fstrips.py:111-113). -/
inductive OptType where
  | minimize
  | maximize
deriving DecidableEq, Repr

/-- Models `OptimizationType.__str__` (fstrips.py:115-116). -/
def OptType.text : OptType → String
  | .minimize => "minimize"
  | .maximize => "maximize"

/-- Models `OptimizationType.from_string` (fstrips.py:118-121). -/
def optFromString (s : String) : Except Err OptType :=
  if ["minimize", "maximize"].contains s then .ok (if s = "minimize" then .minimize else .maximize) else .error .assertion

end Tarski

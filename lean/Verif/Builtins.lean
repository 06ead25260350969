import Verif.Induct
/-! Model of /repo/src/tarski/syntax/builtins.py (comparison symbols) and
/repo/src/tarski/syntax/transform/neg_builtin.py. -/
namespace Tarski

/-- Models `symbol_complements` and `BuiltinPredicateSymbol.complement` (builtins.py:4, 18-19). -/
def Cmp.complement : Cmp → Cmp
  | .eq => .ne
  | .ne => .eq
  | .lt => .ge
  | .le => .gt
  | .gt => .le
  | .ge => .lt

/-- Models `negate_builtin_atom` with `create_atom` (builtins.py:60-76): builtin atoms are rebuilt
with the complementary symbol on the two arguments, anything else is returned unchanged.
`create_atom` takes exactly two arguments; builtin predicates have arity two. -/
def negateBuiltinAtom : Formula → Formula
  | .atom (.cmp c) [a, b] => .atom (.cmp c.complement) [a, b]
  | f => f

/-- Models `NegatedBuiltinAbsorption._convert` (neg_builtin.py:22-42). Only the first two subformulas
of a conjunction or disjunction are converted and kept (line 35-36). A conjunction with fewer than two
subformulas cannot be constructed (IndexError in the code; returned unchanged here). -/
def absorb : Formula → Formula
  | .comp k .not fs =>
    match fs with
    | .atom (.cmp c) ts :: _ => negateBuiltinAtom (.atom (.cmp c) ts)
    | _ => .comp k .not fs
  | .comp k .and fs =>
    match fs with
    | a :: b :: _ => .comp .tuple .and [absorb a, absorb b]
    | _ => .comp k .and fs
  | .comp k .or fs =>
    match fs with
    | a :: b :: _ => .comp .tuple .or [absorb a, absorb b]
    | _ => .comp k .or fs
  | .quant q vs f => .quant q vs (absorb f)
  | f => f

/-! ### Specification side -/

/-- A strict linear order. -/
structure IsLinear {D : Type} (lt : D → D → Prop) : Prop where
  irrefl : ∀ a, ¬ lt a a
  trans : ∀ a b c, lt a b → lt b c → lt a c
  total : ∀ a b, lt a b ∨ a = b ∨ lt b a

/-- Standard meaning of the comparison symbols w.r.t. a strict order. -/
def cmpRel {D : Type} (lt : D → D → Prop) : Cmp → D → D → Prop
  | .eq, a, b => a = b
  | .ne, a, b => a ≠ b
  | .lt, a, b => lt a b
  | .le, a, b => lt a b ∨ a = b
  | .gt, a, b => lt b a
  | .ge, a, b => lt b a ∨ a = b

/-- Interpretations in which the comparison symbols have their standard meaning. -/
def StdCmp {D : Type} (I : Interp D) (lt : D → D → Prop) : Prop :=
  ∀ c a b, I.pred (.cmp c) [a, b] ↔ cmpRel lt c a b

/-- Builtin atoms below negations have two arguments, as the arity check of `Atom`
(formulas.py:319-320) guarantees. -/
inductive CmpArity : Formula → Prop where
  | top : CmpArity .top
  | bot : CmpArity .bot
  | user n ts : CmpArity (.atom (.user n) ts)
  | cmp c a b : CmpArity (.atom (.cmp c) [a, b])
  | comp k c fs : (∀ f ∈ fs, CmpArity f) → CmpArity (.comp k c fs)
  | quant q vs f : CmpArity f → CmpArity (.quant q vs f)

/-- All conjunctions and disjunctions outside negations have exactly two subformulas. -/
inductive BinOutsideNot : Formula → Prop where
  | top : BinOutsideNot .top
  | bot : BinOutsideNot .bot
  | atom p ts : BinOutsideNot (.atom p ts)
  | not k f : BinOutsideNot (.comp k .not [f])
  | andor k c a b : c ≠ .not → BinOutsideNot a → BinOutsideNot b → BinOutsideNot (.comp k c [a, b])
  | quant q vs f : BinOutsideNot f → BinOutsideNot (.quant q vs f)

end Tarski

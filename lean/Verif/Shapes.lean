import Verif.Induct
/-! Specification: shape predicates on formulas, independent of the transformations. -/
namespace Tarski

/-- Negation normal form: negation is applied to atoms only. -/
inductive IsNNF : Formula → Prop where
  | top : IsNNF .top
  | bot : IsNNF .bot
  | atom p ts : IsNNF (.atom p ts)
  | negAtom k p ts : IsNNF (.comp k .not [.atom p ts])
  | andor k c fs : c ≠ .not → (∀ f ∈ fs, IsNNF f) → IsNNF (.comp k c fs)
  | quant q vs f : IsNNF f → IsNNF (.quant q vs f)

/-- `ConstAt b f`: a truth constant occurs in `f` below a number of negations with parity `b`
(`true` = odd). -/
inductive ConstAt : Bool → Formula → Prop where
  | top : ConstAt false .top
  | bot : ConstAt false .bot
  | not b b' k f : b' = !b → ConstAt b f → ConstAt b' (.comp k .not [f])
  | andor b k c fs f : c ≠ .not → f ∈ fs → ConstAt b f → ConstAt b (.comp k c fs)
  | quant b q vs f : ConstAt b f → ConstAt b (.quant q vs f)

/-- No quantifier occurs in the formula skeleton (terms are not inspected). -/
inductive QFree : Formula → Prop where
  | top : QFree .top
  | bot : QFree .bot
  | atom p ts : QFree (.atom p ts)
  | comp k c fs : (∀ f ∈ fs, QFree f) → QFree (.comp k c fs)

mutual
/-- Number of atom occurrences in the skeleton. -/
def atomCount : Formula → Nat
  | .top => 0
  | .bot => 0
  | .atom _ _ => 1
  | .comp _ _ fs => atomCounts fs
  | .quant _ _ f => atomCount f
def atomCounts : List Formula → Nat
  | [] => 0
  | f :: fs => atomCount f + atomCounts fs
end

/-- A literal: an atom, a negated atom, or a truth constant. -/
inductive IsLiteral : Formula → Prop where
  | top : IsLiteral .top
  | bot : IsLiteral .bot
  | atom p ts : IsLiteral (.atom p ts)
  | negAtom k p ts : IsLiteral (.comp k .not [.atom p ts])

/-- Built from literals with `or` only. -/
inductive IsClause : Formula → Prop where
  | lit f : IsLiteral f → IsClause f
  | or k fs : (∀ f ∈ fs, IsClause f) → IsClause (.comp k .or fs)

/-- Built from clauses with `and` only. -/
inductive IsCNF : Formula → Prop where
  | clause f : IsClause f → IsCNF f
  | and k fs : (∀ f ∈ fs, IsCNF f) → IsCNF (.comp k .and fs)

end Tarski

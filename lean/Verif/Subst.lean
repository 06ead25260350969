import Verif.Equality
/-! Model of syntactic substitution: /repo/src/tarski/syntax/walker.py:60-89 and
/repo/src/tarski/syntax/transform/substitutions.py. -/
namespace Tarski

/-- A substitution dictionary from (references to) terms to terms, as a list of items in insertion
order; later items overwrite earlier ones. Dictionaries with formulas as keys or values are not modelled. -/
abbrev Subst := List (Term × Term)

/-- Dictionary lookup: the last item with an equal key. -/
def Subst.get? (s : Subst) (t : Term) : Option Term :=
  (s.reverse.find? (fun kv => kv.1 == t)).map (·.2)

/-- Models `ExpressionSubstitutionWalker.visit` (substitutions.py:17-20) on a term node. -/
def Subst.visit (s : Subst) (t : Term) : Term := (s.get? t).getD t

mutual
/-- Models `FOLWalker.visit_expression` (walker.py:60-86) of the substitution walker on terms: children
first, then the rebuilt node is looked up. Works on a deep copy (`inplace=False`). -/
def subT (s : Subst) : Term → Term
  | .var v => s.visit (.var v)
  | .const n so => s.visit (.const n so)
  | .app f ts => s.visit (.app f (subTs s ts))
  | .ite c t e => s.visit (.ite (subF s c) (subT s t) (subT s e))
def subTs (s : Subst) : List Term → List Term
  | [] => []
  | t :: ts => subT s t :: subTs s ts
/-- The same on formulas; `accept` (walker.py:88-89) rebuilds the containers as python lists, and the
list of quantified variables is substituted as well (walker.py:80-82). -/
def subF (s : Subst) : Formula → Formula
  | .top => .top
  | .bot => .bot
  | .atom p ts => .atom p (subTs s ts)
  | .comp _ c fs => .comp .list c (subFs s fs)
  | .quant q vs f => .quant q (subTs s vs) (subF s f)
def subFs (s : Subst) : List Formula → List Formula
  | [] => []
  | f :: fs => subF s f :: subFs s fs
end

/-- Models `create_substitution` (substitutions.py:34-35): pairs up symbols and values (the value list
is never longer than the symbol list in the callers). -/
def createSubst (symbols values : List Term) : Subst := symbols.zip values

/-! ### Specification side: free and bound variables, occurrences -/

mutual
/-- `v` occurs free in a term. -/
def FreeT (v : Var) : Term → Prop
  | .var w => w = v
  | .const _ _ => False
  | .app _ ts => FreeTs v ts
  | .ite c t e => FreeF v c ∨ FreeT v t ∨ FreeT v e
def FreeTs (v : Var) : List Term → Prop
  | [] => False
  | t :: ts => FreeT v t ∨ FreeTs v ts
/-- `v` occurs free in a formula. -/
def FreeF (v : Var) : Formula → Prop
  | .top => False
  | .bot => False
  | .atom _ ts => FreeTs v ts
  | .comp _ _ fs => FreeFs v fs
  | .quant _ vs f => FreeF v f ∧ Term.var v ∉ vs
def FreeFs (v : Var) : List Formula → Prop
  | [] => False
  | f :: fs => FreeF v f ∨ FreeFs v fs
end

mutual
/-- `v` is bound by some quantifier inside a term (in the condition of an if-then-else). -/
def BoundT (v : Var) : Term → Prop
  | .var _ => False
  | .const _ _ => False
  | .app _ ts => BoundTs v ts
  | .ite c t e => BoundF v c ∨ BoundT v t ∨ BoundT v e
def BoundTs (v : Var) : List Term → Prop
  | [] => False
  | t :: ts => BoundT v t ∨ BoundTs v ts
/-- `v` is bound by some quantifier inside a formula. -/
def BoundF (v : Var) : Formula → Prop
  | .top => False
  | .bot => False
  | .atom _ ts => BoundTs v ts
  | .comp _ _ fs => BoundFs v fs
  | .quant _ vs f => Term.var v ∈ vs ∨ BoundF v f
def BoundFs (v : Var) : List Formula → Prop
  | [] => False
  | f :: fs => BoundF v f ∨ BoundFs v fs
end

mutual
/-- Every quantifier in the expression binds a list of variables only. -/
def VarBindersT : Term → Prop
  | .var _ => True
  | .const _ _ => True
  | .app _ ts => VarBindersTs ts
  | .ite c t e => VarBindersF c ∧ VarBindersT t ∧ VarBindersT e
def VarBindersTs : List Term → Prop
  | [] => True
  | t :: ts => VarBindersT t ∧ VarBindersTs ts
def VarBindersF : Formula → Prop
  | .top => True
  | .bot => True
  | .atom _ ts => VarBindersTs ts
  | .comp _ _ fs => VarBindersFs fs
  | .quant _ vs f => (∀ t ∈ vs, ∃ v, t = Term.var v) ∧ VarBindersF f
def VarBindersFs : List Formula → Prop
  | [] => True
  | f :: fs => VarBindersF f ∧ VarBindersFs fs
end

end Tarski

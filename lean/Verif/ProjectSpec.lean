import Verif.PddlEffSpec
import Verif.Subst
import Verif.FreeVars
/-! Specification for C56: the transitions of an action schema. -/
namespace Tarski

mutual
/-- The variable occurs free in the effect. -/
def FreeE (v : Var) : Effect → Prop
  | .add c _ ts => FreeF v c ∨ FreeTs v ts
  | .del c _ ts => FreeF v c ∨ FreeTs v ts
  | .lit c l => FreeF v c ∨ FreeF v l
  | .assign c _ ts r => FreeF v c ∨ FreeTs v ts ∨ FreeT v r
  | .univ c vs es => FreeF v c ∨ (FreeEs v es ∧ v ∉ vs)
def FreeEs (v : Var) : List Effect → Prop
  | [] => False
  | e :: es => FreeE v e ∨ FreeEs v es
end

/-- The variable occurs free in the cost. -/
def FreeCost (v : Var) : Option Term → Prop
  | none => False
  | some t => FreeT v t

/-- All variables of the action are its parameters. -/
def PAction.Closed (a : PAction) : Prop := ∀ v, FreeF v a.pre ∨ FreeEs v a.effs ∨ FreeCost v a.cost → v ∈ a.params

/-- In the state `I`, some instance of the action is applicable, demands exactly the changes `C`, and has the cost `k`. -/
def Transition {D : Type} (I : Interp D) (a : PAction) (C : EChange D → Prop) (k : Option D) : Prop :=
  ∃ σ : Asg D, (∀ v ∈ a.params, I.sort v.sort (σ v)) ∧ Sat I a.pre σ ∧ (∀ ch, C ch ↔ DemandsAny I a.effs σ ch) ∧
    k = a.cost.map (fun t => evalT I t σ)

/-- Two action schemas with the same transitions in every state. -/
def SameTransitions (a b : PAction) : Prop :=
  ∀ (D : Type) (I : Interp D) (C : EChange D → Prop) (k : Option D), Transition I a C k ↔ Transition I b C k

mutual
/-- The variable occurs free in the effect, outside of the conditions. -/
def ArgE (v : Var) : Effect → Prop
  | .add _ _ ts => FreeTs v ts
  | .del _ _ ts => FreeTs v ts
  | .lit _ l => FreeF v l
  | .assign _ _ ts r => FreeTs v ts ∨ FreeT v r
  | .univ _ vs es => ArgEs v es ∧ v ∉ vs
def ArgEs (v : Var) : List Effect → Prop
  | [] => False
  | e :: es => ArgE v e ∨ ArgEs v es
end

mutual
/-- No if-then-else terms outside of the conditions, and no quantifiers there. -/
def PlainE : Effect → Prop
  | .add _ _ ts => NoIteTs ts
  | .del _ _ ts => NoIteTs ts
  | .lit _ l => NoIteF l ∧ NoRebind l ∧ VarBindersF l
  | .assign _ _ ts r => NoIteTs ts ∧ NoIteT r
  | .univ _ _ es => PlainEs es
def PlainEs : List Effect → Prop
  | [] => True
  | e :: es => PlainE e ∧ PlainEs es
end

end Tarski

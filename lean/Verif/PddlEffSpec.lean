import Verif.PddlEff
import Verif.PddlSpec
import Verif.Semantics
/-! Specification side of the round trip of actions through PDDL text: the meaning of effects, independent of the code,
and which effects and actions PDDL can express. -/
namespace Tarski

/-- A change of the state: an atom becomes true or false, a function gets a value at a point. -/
inductive EChange (D : Type) where
  | add (p : PSym) (ds : List D)
  | del (p : PSym) (ds : List D)
  | set (f : String) (ds : List D) (d : D)

mutual
/-- The changes that an effect demands under an assignment: none if its condition is false; a universal effect demands
those of its effects for all values of its variables. -/
noncomputable def Demands {D : Type} (I : Interp D) : Effect → Asg D → EChange D → Prop
  | .add c p ts, σ, ch => Sat I c σ ∧ ch = .add p (evalTs I ts σ)
  | .del c p ts, σ, ch => Sat I c σ ∧ ch = .del p (evalTs I ts σ)
  | .lit _ _, _, _ => False
  | .assign c f ts r, σ, ch => Sat I c σ ∧ ch = .set f (evalTs I ts σ) (evalT I r σ)
  | .univ c vs es, σ, ch => Sat I c σ ∧ quantBlock I .exists (vs.map Term.var) (fun τ => DemandsAny I es τ ch) σ
noncomputable def DemandsAny {D : Type} (I : Interp D) : List Effect → Asg D → EChange D → Prop
  | [], _, _ => False
  | e :: es, σ, ch => Demands I e σ ch ∨ DemandsAny I es σ ch
end

/-- The right-hand side of an assignment to a function with the given codomain: a term, or an integer of that sort. -/
def OkRhs (L : RLang) (real : String → Bool) (sc : List Var) (s : String) (t : Term) : Prop :=
  OkT L real sc t ∨ NumIn L real s t

mutual
/-- The effect is written over the language, in the scope of `sc`, in a way that PDDL can express: it adds or deletes an
atom of a user predicate, or assigns to a user function, possibly with a condition; or it is a universal effect without
condition. -/
def OkE (L : RLang) (real : String → Bool) (sc : List Var) : Effect → Prop
  | .add c p ts => OkF L real sc c ∧ match p with
    | .user p => PName p ∧ ∃ ss, L.preds p = some ss ∧ OkAtom L real sc ts ss
    | .cmp _ => False
  | .del c p ts => OkF L real sc c ∧ match p with
    | .user p => PName p ∧ ∃ ss, L.preds p = some ss ∧ OkAtom L real sc ts ss
    | .cmp _ => False
  | .lit _ _ => False
  | .assign c f ts r => OkF L real sc c ∧
      PName f ∧ ∃ ss s, L.funs f = some (ss, s) ∧ OkArgs L real sc ts ss ∧ OkRhs L real sc s r
  | .univ c vs es => c = .top ∧ OkDecl L sc vs ∧ OkEs L real (sc ++ vs) es
def OkEs (L : RLang) (real : String → Bool) (sc : List Var) : List Effect → Prop
  | [] => True
  | e :: es => OkE L real sc e ∧ OkEs L real sc es
end

/-- The effect does not assign the total cost. -/
def NotCost : Effect → Prop
  | .assign _ f _ _ => f ≠ "total-cost"
  | _ => True

/-- The cost of an action can be expressed: the language has the numeric function `total-cost`, and the cost is a
numeric term, or an integer of the codomain of `total-cost`. -/
def OkCost (L : RLang) (real : String → Bool) (sc : List Var) : Option Term → Prop
  | none => True
  | some t => L.arithmetic = true ∧ ∃ s, L.funs "total-cost" = some ([], s) ∧ L.isSub s "Real" = true ∧
      ((OkT L real sc t ∧ L.isSub (L.sortOf t) "Real" = true) ∨ NumIn L real s t)

/-- The name of an action: an identifier in any case that is not a reserved word. -/
def AName (s : String) : Prop :=
  reserved s = none ∧ ∃ c cs, s.toList = c :: cs ∧ isLetter c = true ∧ ∀ d ∈ cs, isWordChar d = true

/-- The action is written over the language in a way that PDDL can express. -/
structure OkAction (L : RLang) (real : String → Bool) (a : PAction) : Prop where
  name : AName a.name
  params : OkDecl L [] a.params
  pre : OkF L real a.params a.pre
  effs : OkEs L real a.params a.effs
  plain : ∀ e ∈ a.effs, NotCost e
  cost : OkCost L real a.params a.cost

end Tarski

import Verif.Syntax
/-
Specification: first-order (Tarskian) semantics of terms and formulas over an arbitrary,
possibly infinite, interpretation. Independent of any transformation code.
-/
namespace Tarski
open Classical

/-- A many-sorted interpretation over domain `D`. -/
structure Interp (D : Type) where
  const : Name → String → D
  fn : String → List D → D
  pred : PSym → List D → Prop
  /-- extension of each sort -/
  sort : String → D → Prop

/-- Variable assignments. -/
abbrev Asg (D : Type) := Var → D

/-- `σ[v ↦ d]` -/
def Asg.set {D} (σ : Asg D) (v : Var) (d : D) : Asg D := fun w => if w = v then d else σ w

/-- `σ` modified at the variables of a block, each to some element of its sort:
one quantifier after another, the later one being the inner one. Entries that are not variables
(these only arise by replacing a quantified variable with a constant) bind nothing. -/
def quantBlock {D} (I : Interp D) (q : Quant) : List Term → (Asg D → Prop) → Asg D → Prop
  | [], P, σ => P σ
  | .var v :: vs, P, σ =>
    match q with
    | .exists => ∃ d, I.sort v.sort d ∧ quantBlock I q vs P (σ.set v d)
    | .forall => ∀ d, I.sort v.sort d → quantBlock I q vs P (σ.set v d)
  | _ :: vs, P, σ => quantBlock I q vs P σ

mutual
/-- Value of a term. -/
noncomputable def evalT {D} (I : Interp D) : Term → Asg D → D
  | .var v, σ => σ v
  | .const n s, _ => I.const n s
  | .app f ts, σ => I.fn f (evalTs I ts σ)
  | .ite c t e, σ => if Sat I c σ then evalT I t σ else evalT I e σ
noncomputable def evalTs {D} (I : Interp D) : List Term → Asg D → List D
  | [], _ => []
  | t :: ts, σ => evalT I t σ :: evalTs I ts σ
/-- Truth of a formula. -/
noncomputable def Sat {D} (I : Interp D) : Formula → Asg D → Prop
  | .top, _ => True
  | .bot, _ => False
  | .atom p ts, σ => I.pred p (evalTs I ts σ)
  | .comp _ .and fs, σ => SatAll I fs σ
  | .comp _ .or fs, σ => SatAny I fs σ
  | .comp _ .not fs, σ => ¬ SatAll I fs σ
  | .quant q vs f, σ => quantBlock I q vs (Sat I f) σ
noncomputable def SatAll {D} (I : Interp D) : List Formula → Asg D → Prop
  | [], _ => True
  | f :: fs, σ => Sat I f σ ∧ SatAll I fs σ
noncomputable def SatAny {D} (I : Interp D) : List Formula → Asg D → Prop
  | [], _ => False
  | f :: fs, σ => Sat I f σ ∨ SatAny I fs σ
end

/-- Logical equivalence: same truth value in every interpretation under every assignment. -/
def Equiv (f g : Formula) : Prop :=
  ∀ (D : Type) (I : Interp D) (σ : Asg D), Sat I f σ ↔ Sat I g σ

theorem satAll_iff {D} (I : Interp D) (fs : List Formula) (σ : Asg D) :
    SatAll I fs σ ↔ ∀ f ∈ fs, Sat I f σ := by
  induction fs with
  | nil => simp [SatAll]
  | cons f fs ih => simp [SatAll, ih]

theorem satAny_iff {D} (I : Interp D) (fs : List Formula) (σ : Asg D) :
    SatAny I fs σ ↔ ∃ f ∈ fs, Sat I f σ := by
  induction fs with
  | nil => simp [SatAny]
  | cons f fs ih => simp [SatAny, ih]

theorem evalTs_eq_map {D} (I : Interp D) (ts : List Term) (σ : Asg D) :
    evalTs I ts σ = ts.map (fun t => evalT I t σ) := by
  induction ts with
  | nil => simp [evalTs]
  | cons f fs ih => simp [evalTs, ih]

end Tarski

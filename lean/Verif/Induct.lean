import Verif.Semantics
/-! Induction principles and general helper lemmas about the syntax. -/
namespace Tarski

mutual
theorem Formula.induct {P : Formula → Prop} (htop : P .top) (hbot : P .bot)
    (hatom : ∀ p ts, P (.atom p ts))
    (hcomp : ∀ k c fs, (∀ f ∈ fs, P f) → P (.comp k c fs))
    (hquant : ∀ q vs f, P f → P (.quant q vs f)) : ∀ f, P f
  | .top => htop
  | .bot => hbot
  | .atom p ts => hatom p ts
  | .comp k c fs => hcomp k c fs (Formula.inducts htop hbot hatom hcomp hquant fs)
  | .quant q vs f => hquant q vs f (Formula.induct htop hbot hatom hcomp hquant f)
theorem Formula.inducts {P : Formula → Prop} (htop : P .top) (hbot : P .bot)
    (hatom : ∀ p ts, P (.atom p ts))
    (hcomp : ∀ k c fs, (∀ f ∈ fs, P f) → P (.comp k c fs))
    (hquant : ∀ q vs f, P f → P (.quant q vs f)) : ∀ fs : List Formula, ∀ f ∈ fs, P f
  | [] => by simp
  | g :: gs => by
    intro f hf
    rcases List.mem_cons.mp hf with h | h
    · rw [h]; exact Formula.induct htop hbot hatom hcomp hquant g
    · exact Formula.inducts htop hbot hatom hcomp hquant gs f h
end

theorem quantBlock_congr {D} (I : Interp D) (q : Quant) (vs : List Term) {P Q : Asg D → Prop}
    (h : ∀ σ, P σ ↔ Q σ) : ∀ σ, quantBlock I q vs P σ ↔ quantBlock I q vs Q σ := by
  induction vs with
  | nil => simpa [quantBlock]
  | cons v vs ih =>
    intro σ
    cases v <;> cases q <;> simp only [quantBlock, ih]

theorem quantBlock_neg {D} (I : Interp D) (q : Quant) (vs : List Term) (P : Asg D → Prop) :
    ∀ σ, (¬ quantBlock I q vs P σ) ↔ quantBlock I (negateQuantifier q) vs (fun τ => ¬ P τ) σ := by
  induction vs with
  | nil => simp [quantBlock]
  | cons v vs ih =>
    intro σ
    cases v with
    | var v =>
      cases q <;> simp only [negateQuantifier] at ih <;>
        simp [quantBlock, negateQuantifier, ih]
    | const _ _ => cases q <;> simp only [quantBlock, ih]
    | app _ _ => cases q <;> simp only [quantBlock, ih]
    | ite _ _ _ => cases q <;> simp only [quantBlock, ih]

/-- Well-formedness of formulas as enforced by the constructors of formulas.py:104-112, 148-150, 251-255:
negation has one subformula, and/or at least two, quantifiers bind a non-empty list of variables. -/
inductive WF : Formula → Prop where
  | top : WF .top
  | bot : WF .bot
  | atom p ts : WF (.atom p ts)
  | not k f : WF f → WF (.comp k .not [f])
  | andor k c fs : c ≠ .not → 2 ≤ fs.length → (∀ f ∈ fs, WF f) → WF (.comp k c fs)
  | quant q vs f : vs ≠ [] → (∀ t ∈ vs, ∃ v, t = .var v) → WF f → WF (.quant q vs f)

end Tarski

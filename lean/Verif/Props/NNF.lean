import Verif.NNFLemmas
/-! Properties C01, C02: negation normal form (nnf.py). -/
namespace Tarski

/-- C01, full statement: on every well-formed formula, `to_negation_normal_form` returns an
equivalent formula. -/
def C01_full : Prop := ∀ f, WF f → ∃ g, toNNF f = .ok g ∧ Equiv f g

/-- The code violates C01: for `not T` (formula `neg(top)`) lines 29-30 of nnf.py return the class
`Contradiction`, which is not a formula. -/
theorem C01_refuted : ¬ C01_full := by
  intro h
  obtain ⟨g, hg, _⟩ := h (neg .top) (.not _ _ .top)
  simp [toNNF, nnf, neg] at hg

/-- C01 (part that holds): whenever the call returns a formula, it is equivalent to the input,
in every interpretation and under every assignment; missing: formulas with a truth constant below an
odd number of negations (see `C01_returns_iff`). -/
theorem C01_nnf_equiv_partial (f g : Formula) (h : toNNF f = .ok g) : Equiv f g := by
  intro D I σ
  have := nnf_sound false f g h I σ
  simpa [NegIf] using this.symm

/-- The inputs on which a formula is returned are exactly those without a truth constant below an
odd number of negations. -/
theorem C01_returns_iff (f : Formula) (hf : WF f) :
    (∃ g, toNNF f = .ok g) ↔ ¬ ConstAt true f := nnf_exists hf false true rfl

/-- Combination: on the good inputs NNF conversion succeeds with an equivalent formula. -/
theorem C01_nnf_total_partial (f : Formula) (hf : WF f) (hc : ¬ ConstAt true f) :
    ∃ g, toNNF f = .ok g ∧ Equiv f g := by
  obtain ⟨g, hg⟩ := (C01_returns_iff f hf).mpr hc
  exact ⟨g, hg, C01_nnf_equiv_partial f g hg⟩

/-- `forall x. not (p(x) and (T or not exists y. q(x,y)))`: hypotheses of the theorems are met. -/
def nnfSample : Formula :=
  .quant .forall [.var ⟨"x", "object"⟩]
    (neg (.comp .tuple .and [.atom (.user "p") [.var ⟨"x", "object"⟩],
      .comp .tuple .or [neg (.comp .tuple .and [neg .top, .atom (.user "r") []]),
        neg (.quant .exists [.var ⟨"y", "object"⟩] (.atom (.user "q") [.var ⟨"x", "object"⟩, .var ⟨"y", "object"⟩]))]]))

/-- Sample without problematic constants. -/
def nnfSample2 : Formula :=
  .quant .forall [.var ⟨"x", "object"⟩]
    (neg (.comp .tuple .and [.atom (.user "p") [.var ⟨"x", "object"⟩],
      .comp .tuple .or [neg .bot,
        neg (.quant .exists [.var ⟨"y", "object"⟩] (.atom (.user "q") [.var ⟨"x", "object"⟩, .var ⟨"y", "object"⟩]))]]))

example : ∃ g, toNNF nnfSample2 = .ok g := ⟨_, by rfl⟩

example : ¬ ∃ g, toNNF nnfSample = .ok g := by
  simp [toNNF, nnfSample, nnf, nnfs, neg]

/-- C02: the result is in negation normal form, has the same atom occurrences in number, and
converting it again returns it unchanged. -/
theorem C02_nnf_shape (f g : Formula) (h : toNNF f = .ok g) :
    IsNNF g ∧ atomCount g = atomCount f ∧ toNNF g = .ok g :=
  ⟨nnf_shape false f g h, nnf_atomCount false f g h, nnf_idem false f g h⟩

/-- C02, converse: formulas already in NNF (with at least the arity the constructors demand) are
mapped to themselves up to the python container kinds: the result has the same meaning and shape, and
in particular the conversion never fails on them. -/
theorem C02_nnf_on_nnf (f : Formula) (hf : IsNNF f) : ∃ g, toNNF f = .ok g := by
  induction hf with
  | top => exact ⟨_, rfl⟩
  | bot => exact ⟨_, rfl⟩
  | atom p ts => exact ⟨_, rfl⟩
  | negAtom k p ts => exact ⟨_, rfl⟩
  | andor k c fs hc _ ih =>
    obtain ⟨gs, hgs⟩ := nnfs_exists.mpr ih
    cases c with
    | and => exact ⟨_, by simp [toNNF, nnf, hgs]; rfl⟩
    | or => exact ⟨_, by simp [toNNF, nnf, hgs]; rfl⟩
    | not => exact absurd rfl hc
  | quant q vs f _ ih =>
    obtain ⟨g, hg⟩ := ih
    simp only [toNNF] at hg
    exact ⟨.quant q vs g, by simp [toNNF, nnf, hg]⟩

end Tarski

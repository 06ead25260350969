import Verif.PrenexLemmas
import Verif.NNFLemmas
/-! Property C08 (prenex transformation preserves meaning) and C43 (its output is prenex). -/
namespace Tarski

/-- C08, full statement: on every well-formed formula the transformation returns a formula equivalent to
the input in all interpretations with non-empty sorts. -/
def C08_full : Prop := ∀ f, WF f → ∃ g, toPrenex f = .ok g ∧
  ∀ (D : Type) (I : Interp D), NonemptySorts I → ∀ σ, Sat I g σ ↔ Sat I f σ

/-- A weaker statement: whenever a formula is returned it is equivalent. -/
def C08_sound : Prop := ∀ f g, WF f → toPrenex f = .ok g →
  ∀ (D : Type) (I : Interp D), NonemptySorts I → ∀ σ, Sat I g σ ↔ Sat I f σ

def pxX : Term := .var ⟨"x", "o"⟩
def pxY : Term := .var ⟨"y", "o"⟩
def pxP (t : Term) : Formula := .atom (.user "p") [t]
def pxR (t u : Term) : Formula := .atom (.user "r") [t, u]

/-- First defect: `(exists x. p(x)) and (exists y. q(y))` becomes `exists x, y. (p(x) or q(y))`
(prenex.py:36 ignores the connective). -/
theorem C08_refuted_connective : toPrenex (land [.quant .exists [pxX] (pxP pxX), .quant .exists [pxY] (.atom (.user "q") [pxY])])
      = .ok (.quant .exists [pxX, pxY] (lor [pxP pxX, .atom (.user "q") [pxY]])) := by
  simp [toPrenex, toNNF, nnf, nnfs, land, createCompound, toBinaryTree, psize, psizes, pxFuel, pxP, pxX, pxY,
    combine, mergeQuantified, mergeVars, dictKeys, absorbQ]

theorem C08_sound_refuted : ¬ C08_sound := by
  intro h
  have := h _ _ (by
    simp only [land, createCompound, toBinaryTree]
    refine .andor _ _ _ (by simp) (by simp) ?_
    intro f hf
    simp at hf
    rcases hf with rfl | rfl
    · exact .quant _ _ _ (by simp) (by simp [pxX]) (.atom _ _)
    · exact .quant _ _ _ (by simp) (by simp [pxY]) (.atom _ _)) C08_refuted_connective Unit
    ⟨fun _ _ => (), fun _ _ => (), fun p _ => p = .user "p", fun _ _ => True⟩ (fun _ => ⟨(), trivial⟩) (fun _ => ())
  simp [Sat, SatAll, SatAny, quantBlock, land, lor, createCompound, toBinaryTree, pxP, pxX, pxY] at this

/-- Second defect: `forall x. exists y. r(x, y)` becomes `exists y. forall x. r(x, y)`
(prenex.py:147-152). -/
theorem C08_refuted_swap : toPrenex (.quant .forall [pxX] (.quant .exists [pxY] (pxR pxX pxY)))
      = .ok (.quant .exists [pxY] (.quant .forall [pxX] (pxR pxX pxY))) ∧
    ∃ (I : Interp Bool) (σ : Asg Bool), NonemptySorts I ∧
      Sat I (.quant .forall [pxX] (.quant .exists [pxY] (pxR pxX pxY))) σ ∧
      ¬ Sat I (.quant .exists [pxY] (.quant .forall [pxX] (pxR pxX pxY))) σ := by
  constructor
  · simp [toPrenex, toNNF, nnf, psize, pxFuel, pxX, pxY, pxR, absorbQ]
  · refine ⟨⟨fun _ _ => true, fun _ _ => true, fun _ ds => ds = [true, true] ∨ ds = [false, false], fun _ _ => True⟩,
      fun _ => true, fun _ => ⟨true, trivial⟩, ?_, ?_⟩ <;>
    simp [Sat, quantBlock, pxX, pxY, pxR, evalTs, evalT, Asg.set]

/-- Third defect: a shared variable name raises `TypeError` (unhashable key, prenex.py:32):
`(exists x. p(x)) or (exists x. p(x))`. -/
theorem C08_refuted_clash :
    toPrenex (lor [.quant .exists [pxX] (pxP pxX), .quant .exists [pxX] (pxP pxX)]) = .error .typeError := by
  simp [toPrenex, toNNF, nnf, nnfs, lor, createCompound, toBinaryTree, psize, psizes, pxFuel, pxP, pxX,
    combine, mergeQuantified, mergeVars, dictKeys, absorbQ]

theorem C08_refuted : ¬ C08_full := by
  intro h
  obtain ⟨g, hg, _⟩ := h (lor [.quant .exists [pxX] (pxP pxX), .quant .exists [pxX] (pxP pxX)]) (by
    simp only [lor, createCompound, toBinaryTree]
    refine .andor _ _ _ (by simp) (by simp) ?_
    intro f hf
    simp at hf
    subst hf
    exact .quant _ _ _ (by simp) (by simp [pxX]) (.atom _ _))
  rw [C08_refuted_clash] at hg
  simp at hg

/-- Fourth defect: only the first two subformulas of a flat conjunction are looked at
(prenex.py:86): the third one is dropped. -/
theorem C08_refuted_dropped :
    toPrenex (land [.quant .exists [pxX] (pxP pxX), pxP pxY, .atom (.user "q") []] true) =
      .ok (.quant .exists [pxX] (.comp .tuple .and [pxP pxX, pxP pxY])) := by
  simp [toPrenex, toNNF, nnf, nnfs, land, createCompound, psize, psizes, pxFuel, pxP, pxX, pxY,
    combine, absorbQ]

/-- C08 (part that holds): on formulas whose NNF `f'` is in the fragment `PrenexSafe` (binary connectives,
rectified, no conjunction of two sides with the same leading quantifier, no universal quantifier above a
leading existential) the call returns an equivalent formula. Missing: everything outside of the
fragment, where the theorems above exhibit failures. -/
theorem C08_prenex_partial (f f' : Formula) (hn : toNNF f = .ok f') (hs : PrenexSafe f') :
    ∃ g, toPrenex f = .ok g ∧
      ∀ (D : Type) (I : Interp D), NonemptySorts I → ∀ σ, Sat I g σ ↔ Sat I f σ := by
  obtain ⟨g, h1, h2, _⟩ := px_safe hs (psize f') (Nat.le_refl _)
  refine ⟨g, by simp [toPrenex, hn, h1], ?_⟩
  intro D I hI σ
  rw [h2.equiv D I hI σ]
  have := nnf_sound false f f' hn I σ
  simpa [NegIf] using this

/-- Non-vacuity: `(exists x. p(x)) and not (exists y. p(y))` meets the hypotheses. -/
example : ∃ f', toNNF (land [.quant .exists [pxX] (pxP pxX), neg (.quant .exists [pxY] (pxP pxY))]) = .ok f' ∧
    PrenexSafe f' := by
  refine ⟨.comp .tuple .and [.quant .exists [pxX] (pxP pxX), .quant .forall [pxY] (neg (pxP pxY))], ?_, ?_⟩
  · simp [toNNF, nnf, nnfs, land, createCompound, toBinaryTree, neg, pxP, negateQuantifier]
  · refine .binary _ _ _ _ (by simp) (.quant _ _ _ (.atom _ _) (by simp) (by simp [pxX]) ?_ (by simp))
      (.quant _ _ _ (.negAtom _ _ _) (by simp) (by simp [pxY]) ?_ ?_) ?_ ?_ ?_ <;>
    simp [BoundF, BoundFs, BoundTs, BoundT, pxP, pxX, pxY, FreeF, FreeFs, FreeTs, FreeT, neg, prefixOf]

/-! ### C43: shape of the output -/

/-- C43, full statement: the output is in prenex form. -/
def C43_full : Prop := ∀ f g, WF f → toPrenex f = .ok g → IsPrenex g

/-- The code violates it: `p(x) and exists x. forall y. r(x,y)`: the universal quantifier stays inside
the conjunction. -/
theorem C43_refuted : ¬ C43_full := by
  intro h
  let f : Formula := land [.atom (.user "q") [], .quant .exists [pxX] (.quant .forall [pxY] (pxR pxX pxY))]
  have hp : toPrenex f = .ok (.quant .exists [pxX] (.comp .tuple .and [.atom (.user "q") [],
      .quant .forall [pxY] (pxR pxX pxY)])) := by
    simp [f, toPrenex, toNNF, nnf, nnfs, land, createCompound, toBinaryTree, psize, psizes, pxFuel, pxR, pxX, pxY,
      combine, absorbQ]
  have := h f _ (by
    simp only [f, land, createCompound, toBinaryTree]
    refine .andor _ _ _ (by simp) (by simp) ?_
    intro f hf
    simp at hf
    rcases hf with rfl | rfl
    · exact .atom _ _
    · exact .quant _ _ _ (by simp) (by simp [pxX]) (.quant _ _ _ (by simp) (by simp [pxY]) (.atom _ _))) hp
  cases this with
  | matrix _ h => cases h
  | quant _ _ _ h =>
    cases h with
    | matrix _ h =>
      cases h with
      | comp _ _ _ h => have := h (.quant .forall [pxY] (pxR pxX pxY)) (by simp); cases this

theorem px_binary {k c a b n g} (hc : c ≠ .not) (h : pxFuel (n + 1) (.comp k c [a, b]) = .ok g) :
    ∃ lhs rhs, pxFuel n a = .ok lhs ∧ pxFuel n b = .ok rhs ∧ combine (.comp k c [a, b]) c lhs rhs = .ok g := by
  cases c
  · simp only [pxFuel] at h
    split at h
    · cases h
    · split at h
      · cases h
      · exact ⟨_, _, by assumption, by assumption, h⟩
  · simp only [pxFuel] at h
    split at h
    · cases h
    · split at h
      · cases h
      · exact ⟨_, _, by assumption, by assumption, h⟩
  · exact absurd rfl hc

theorem px_oneKind {q : Quant} {f : Formula} (hf : OneKind q f) : ∀ n g, pxFuel n f = .ok g →
    QFree g ∨ ∃ vs h, g = .quant q vs h ∧ QFree h := by
  induction hf with
  | top => intro n g h; cases n <;> simp [pxFuel] at h; subst h; exact Or.inl .top
  | bot => intro n g h; cases n <;> simp [pxFuel] at h; subst h; exact Or.inl .bot
  | atom p ts => intro n g h; cases n <;> simp [pxFuel] at h; subst h; exact Or.inl (.atom _ _)
  | negAtom k p ts =>
    intro n g h; cases n <;> simp [pxFuel] at h; subst h
    exact Or.inl (.comp _ _ _ (by simp; exact .atom _ _))
  | quant vs f _ ih =>
    intro n g h
    cases n with
    | zero => simp [pxFuel] at h
    | succ n =>
      simp only [pxFuel] at h
      cases e : pxFuel n f with
      | error e' => rw [e] at h; simp at h
      | ok g' =>
        rw [e] at h
        simp only at h
        rcases ih n g' e with hq | ⟨ws, h', rfl, hq⟩
        · cases hq with
          | top => simp [absorbQ] at h; subst h; exact Or.inr ⟨_, _, rfl, .top⟩
          | bot => simp [absorbQ] at h; subst h; exact Or.inr ⟨_, _, rfl, .bot⟩
          | atom p ts => simp [absorbQ] at h; subst h; exact Or.inr ⟨_, _, rfl, .atom _ _⟩
          | comp k c fs hfs => simp [absorbQ] at h; subst h; exact Or.inr ⟨_, _, rfl, .comp _ _ _ hfs⟩
        · simp [absorbQ] at h; subst h; exact Or.inr ⟨_, _, rfl, hq⟩
  | binary k c a b hc ha hb iha ihb =>
    intro n g h
    cases n with
    | zero => simp [pxFuel] at h
    | succ n =>
      obtain ⟨lhs, rhs, e1, e2, h'⟩ := px_binary hc h
      have q2 : ∀ k c x y, QFree x → QFree y → QFree (.comp k c [x, y]) := by
        intro k c x y hx hy
        refine .comp _ _ _ ?_
        intro f hf; simp at hf; rcases hf with rfl | rfl <;> assumption
      have hlq := iha n lhs e1
      have hrq := ihb n rhs e2
      have hraw : ∀ x y, OneKind q x → pxFuel n x = .ok y → QFree y → y = x := by
        intro x y hx
        clear h' e1 e2 hlq hrq iha ihb ha hb q2
        induction hx generalizing n y with
        | top => intro e _; cases n <;> simp [pxFuel] at e; exact e.symm
        | bot => intro e _; cases n <;> simp [pxFuel] at e; exact e.symm
        | atom p ts => intro e _; cases n <;> simp [pxFuel] at e; exact e.symm
        | negAtom k p ts => intro e _; cases n <;> simp [pxFuel] at e; exact e.symm
        | quant vs f hf ih =>
          intro e hq
          cases n with
          | zero => simp [pxFuel] at e
          | succ n =>
            simp only [pxFuel] at e
            cases e1 : pxFuel n f with
            | error e' => rw [e1] at e; simp at e
            | ok g' =>
              rw [e1] at e
              simp only [absorbQ] at e
              split at e
              · split at e
                · cases e; cases hq
                · split at e
                  · split at e
                    · cases e
                    · cases e; cases hq
                  · cases e; cases hq
              · cases e; cases hq
        | binary k c a b hc ha hb iha ihb =>
          intro e hq
          cases n with
          | zero => simp [pxFuel] at e
          | succ n =>
            obtain ⟨lhs, rhs, e1, e2, e'⟩ := px_binary hc e
            simp only [combine] at e'
            split at e'
            · split at e'
              · simp only [mergeQuantified] at e'
                split at e'
                · cases e'
                · cases e'; cases hq
              · split at e'
                · cases e'; cases hq
                · cases e'; cases hq
            · cases e'; cases hq
            · cases e'; cases hq
            · cases e'; rfl
      rcases hlq with hl | ⟨lvs, lf, rfl, hl⟩
      · rcases hrq with hr | ⟨rvs, rf, rfl, hr⟩
        · left
          have := hraw a lhs ha e1 hl
          have := hraw b rhs hb e2 hr
          subst_vars
          simp only [combine] at h'
          split at h'
          · cases hl
          · cases hr
          · cases hl
          · cases h'; exact q2 _ _ _ _ hl hr
        · right
          cases hl <;> (simp [combine] at h'; subst h'; exact ⟨_, _, rfl, q2 _ _ _ _ (by constructor <;> assumption) hr⟩)
      · rcases hrq with hr | ⟨rvs, rf, rfl, hr⟩
        · right
          cases hr <;> (simp [combine] at h'; subst h'; exact ⟨_, _, rfl, q2 _ _ _ _ hl (by constructor <;> assumption)⟩)
        · right
          simp only [combine, if_true, mergeQuantified] at h'
          split at h'
          · cases h'
          · cases h'
            exact ⟨_, _, rfl, by simp [lor, createCompound, toBinaryTree]; exact q2 _ _ _ _ hl hr⟩

/-- C43 (part that holds): if the NNF of the input has binary connectives and only one kind of
quantifier, a returned formula is prenex (a single block over a quantifier-free matrix). Missing: mixed
quantifiers. -/
theorem C43_prenex_shape_partial (f f' g : Formula) (hn : toNNF f = .ok f') (q : Quant) (hk : OneKind q f')
    (h : toPrenex f = .ok g) : IsPrenex g := by
  simp only [toPrenex, hn] at h
  rcases px_oneKind hk _ _ h with hq | ⟨vs, h', rfl, hq⟩
  · exact .matrix _ hq
  · exact .quant _ _ _ (.matrix _ hq)

example : OneKind .exists (.comp .tuple .and [.quant .exists [pxX] (pxP pxX), neg (pxP pxY)]) :=
  .binary _ _ _ _ (by simp) (.quant _ _ (.atom _ _)) (.negAtom _ _ _)

end Tarski

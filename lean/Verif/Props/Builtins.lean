import Verif.Builtins
/-! Properties C06, C07: builtin comparisons (builtins.py, neg_builtin.py). -/
namespace Tarski

/-- C07: the complement of a comparison holds on two values iff the comparison does not, over every
strict linear order; complementing twice gives the symbol back. -/
theorem C07_complement {D : Type} (lt : D → D → Prop) (hl : IsLinear lt) (c : Cmp) (a b : D) :
    (cmpRel lt c.complement a b ↔ ¬ cmpRel lt c a b) ∧ c.complement.complement = c := by
  have h1 := hl.irrefl
  have h2 := hl.trans
  have h3 := hl.total a b
  refine ⟨?_, by cases c <;> rfl⟩
  cases c <;> simp only [Cmp.complement, cmpRel] <;> grind

/-- C07: negating a builtin atom gives an atom equivalent to its negation, in every interpretation
with standard comparisons over a linear order; all other formulas are returned unchanged. -/
theorem C07_negate_builtin_atom {D : Type} (I : Interp D) (lt : D → D → Prop) (hl : IsLinear lt)
    (hI : StdCmp I lt) (σ : Asg D) :
    (∀ c s t, Sat I (negateBuiltinAtom (.atom (.cmp c) [s, t])) σ ↔ Sat I (neg (.atom (.cmp c) [s, t])) σ) ∧
    (∀ n ts, negateBuiltinAtom (.atom (.user n) ts) = .atom (.user n) ts) ∧
    (∀ f, isAtom f = false → negateBuiltinAtom f = f) := by
  refine ⟨fun c s t => ?_, fun n ts => rfl, fun f hf => ?_⟩
  · simp only [negateBuiltinAtom, neg, Sat, SatAll, and_true, evalTs, hI c, hI c.complement]
    exact (C07_complement lt hl c _ _).1
  · cases f <;> simp_all [negateBuiltinAtom, isAtom]

/-- The integers with `<` satisfy the hypotheses. -/
def intInterp : Interp Int where
  const := fun n _ => match n with | .int k => k | _ => 0
  fn := fun f ds => match f, ds with | "succ", [a] => a + 1 | _, _ => 0
  pred := fun p ds => match p, ds with | .cmp c, [a, b] => cmpRel (· < ·) c a b | _, _ => False
  sort := fun _ _ => True

example : IsLinear (fun a b : Int => a < b) ∧ StdCmp intInterp (fun a b : Int => a < b) :=
  ⟨⟨fun a => by simp, fun a b c => by omega, fun a b => by omega⟩, fun c a b => by simp [intInterp]⟩

/-- C06, full statement. -/
def C06_full : Prop := ∀ f, WF f → CmpArity f →
  ∀ (D : Type) (I : Interp D) (lt : D → D → Prop), IsLinear lt → StdCmp I lt →
    ∀ σ, Sat I (absorb f) σ ↔ Sat I f σ

/-- The code violates C06: the third subformula of a flat conjunction `land(T, T, F, flat=True)` is
dropped (neg_builtin.py:35-36), turning a false formula into a true one. -/
theorem C06_refuted : ¬ C06_full := by
  intro h
  have := h (land [.top, .top, .bot] true)
    (.andor _ _ _ (by simp) (by simp) (by
      intro f hf; simp at hf; rcases hf with rfl | rfl
      · exact .top
      · exact .bot))
    (.comp _ _ _ (by
      intro f hf; simp at hf; rcases hf with rfl | rfl
      · exact .top
      · exact .bot))
    Int intInterp (· < ·)
    ⟨fun a => by simp, fun a b c => by omega, fun a b => by omega⟩ (fun c a b => by simp [intInterp])
    (fun _ => 0)
  simp [land, createCompound, absorb, Sat, SatAll] at this

theorem absorb_sat {f} (hb : BinOutsideNot f) (ha : CmpArity f) {D : Type} (I : Interp D)
    (lt : D → D → Prop) (hl : IsLinear lt) (hI : StdCmp I lt) :
    ∀ σ, Sat I (absorb f) σ ↔ Sat I f σ := by
  induction hb with
  | top => intro σ; simp [absorb]
  | bot => intro σ; simp [absorb]
  | atom p ts => intro σ; simp [absorb]
  | not k f =>
    intro σ
    cases ha with
    | comp _ _ _ ha =>
      simp only [List.mem_singleton, forall_eq] at ha
      cases f with
      | atom p ts =>
        cases p with
        | user n => simp [absorb]
        | cmp c =>
          cases ha with
          | cmp _ a b =>
            simp only [absorb]
            rw [(C07_negate_builtin_atom I lt hl hI σ).1 c a b]
            simp [neg, Sat]
      | _ => simp [absorb]
  | andor k c a b hc _ _ iha ihb =>
    intro σ
    cases ha with
    | comp _ _ _ ha =>
      simp only [List.mem_cons, List.not_mem_nil, or_false, forall_eq_or_imp, forall_eq] at ha
      cases c with
      | and => simp [absorb, Sat, SatAll, iha ha.1, ihb ha.2]
      | or => simp [absorb, Sat, SatAny, iha ha.1, ihb ha.2]
      | not => exact absurd rfl hc
  | quant q vs f _ ih =>
    intro σ
    cases ha with
    | quant _ _ _ ha =>
      simp only [absorb, Sat]
      exact quantBlock_congr I q vs (ih ha) σ

/-- C06 (part that holds): the transformation preserves meaning on formulas whose conjunctions and
disjunctions (outside negations) are binary, which is what `land`/`lor` build by default; missing:
flat and/or nodes with more than two subformulas, where it is false. -/
theorem C06_absorb_partial (f : Formula) (hb : BinOutsideNot f) (ha : CmpArity f)
    (D : Type) (I : Interp D) (lt : D → D → Prop) (hl : IsLinear lt) (hI : StdCmp I lt) (σ : Asg D) :
    Sat I (absorb f) σ ↔ Sat I f σ := absorb_sat hb ha I lt hl hI σ

/-- `forall x. (not x < 1) or (p and not p)`, meets the hypotheses. -/
def absorbSample : Formula :=
  .quant .forall [.var ⟨"x", "Integer"⟩] (.comp .tuple .or
    [neg (.atom (.cmp .lt) [.var ⟨"x", "Integer"⟩, .const (.int 1) "Integer"]),
     .comp .tuple .and [.atom (.user "p") [], neg (.atom (.user "p") [])]])

example : BinOutsideNot absorbSample ∧ CmpArity absorbSample := by
  constructor
  · exact .quant _ _ _ (.andor _ _ _ _ (by simp) (.not _ _) (.andor _ _ _ _ (by simp) (.atom _ _) (.not _ _)))
  · refine .quant _ _ _ (.comp _ _ _ ?_)
    intro f hf
    simp only [List.mem_cons, List.not_mem_nil, or_false] at hf
    rcases hf with rfl | rfl
    · exact .comp _ _ _ (by simp; exact .cmp _ _ _)
    · refine .comp _ _ _ ?_
      intro f hf
      simp only [List.mem_cons, List.not_mem_nil, or_false] at hf
      rcases hf with rfl | rfl
      · exact .user _ _
      · exact .comp _ _ _ (by simp; exact .user _ _)

/-- No negated builtin atom is left at any place reached by the rewriting (outside other negations). -/
inductive NoNegBuiltin : Formula → Prop where
  | top : NoNegBuiltin .top
  | bot : NoNegBuiltin .bot
  | atom p ts : NoNegBuiltin (.atom p ts)
  | not k f : (∀ c ts, f ≠ .atom (.cmp c) ts) → NoNegBuiltin (.comp k .not [f])
  | andor k c fs : c ≠ .not → (∀ f ∈ fs, NoNegBuiltin f) → NoNegBuiltin (.comp k c fs)
  | quant q vs f : NoNegBuiltin f → NoNegBuiltin (.quant q vs f)

/-- C06, purpose: on formulas with binary connectives, after the rewriting no negation is applied
directly to a builtin atom outside other negations. -/
theorem C06_absorbs (f : Formula) (hb : BinOutsideNot f) (ha : CmpArity f) : NoNegBuiltin (absorb f) := by
  induction hb with
  | top => exact .top
  | bot => exact .bot
  | atom p ts => exact .atom _ _
  | not k f =>
    cases ha with
    | comp _ _ _ ha =>
      simp only [List.mem_singleton, forall_eq] at ha
      cases f with
      | atom p ts =>
        cases p with
        | user n => exact .not _ _ (by simp)
        | cmp c => cases ha with | cmp _ a b => exact .atom _ _
      | _ => exact .not _ _ (by simp)
  | andor k c a b hc _ _ iha ihb =>
    cases ha with
    | comp _ _ _ ha =>
      simp only [List.mem_cons, List.not_mem_nil, or_false, forall_eq_or_imp, forall_eq] at ha
      cases c with
      | and => exact .andor _ _ _ (by simp) (by simpa using ⟨iha ha.1, ihb ha.2⟩)
      | or => exact .andor _ _ _ (by simp) (by simpa using ⟨iha ha.1, ihb ha.2⟩)
      | not => exact absurd rfl hc
  | quant q vs f _ ih => cases ha with | quant _ _ _ ha => exact .quant _ _ _ (ih ha)

end Tarski

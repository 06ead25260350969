import Verif.QELemmas
/-! Properties C09 and C10: quantifier elimination. -/
namespace Tarski

/-- C09, full statement: whenever `remove_quantifiers` returns a formula, it is equivalent to the input
in every interpretation whose sorts consist of the denotations of the listed constants. -/
def C09_full : Prop := ∀ (dom : Domains) (mode : QEMode) (f g : Formula), VarBindersF f →
  removeQuantifiers dom mode f = .ok g →
  ∀ (D : Type) (I : Interp D), DomOK I dom → ∀ σ, Sat I g σ ↔ Sat I f σ

/-- The code violates C09: `forall x. exists x. p(x)` over `{a, b}` becomes `p(a) and p(b)`, because the
substitution for the outer `x` also rewrites the inner quantifier. -/
theorem C09_refuted : ¬ C09_full := by
  intro H
  let x : Var := ⟨"x", "o"⟩
  let a : Term := .const (.str "a") "o"
  let b : Term := .const (.str "b") "o"
  let dom : Domains := fun s => if s = "o" then .ok [a, b] else .ok []
  let f : Formula := .quant .forall [.var x] (.quant .exists [.var x] (.atom (.user "p") [.var x]))
  have hr : removeQuantifiers dom .all f =
      .ok (.comp .tuple .and [.atom (.user "p") [a], .atom (.user "p") [b]]) := by
    simp [removeQuantifiers, f, qdepth, qeFuel, qeWith, qesWith, QEMode.elim, expand, enumerateGroundings,
      enumLoop, dom, x, cart, createSubst, subF, subTs, subT, Subst.visit, Subst.get?, creatorOf, land,
      lor, createCompound, toBinaryTree, a, b]
  have := H dom .all f _ (by simp [f, VarBindersF, VarBindersTs, VarBindersT]) hr Bool
    ⟨fun n _ => n = .str "a", fun _ _ => false, fun _ ds => ds = [true], fun s _ => s = "o"⟩
    (by
      intro s cs hcs
      by_cases hs : s = "o"
      · subst hs
        simp [dom] at hcs; subst hcs
        refine ⟨by intro c hc; simp at hc; rcases hc with rfl | rfl <;> exact ⟨_, _, rfl⟩, ?_⟩
        intro d
        cases d
        · simp; exact ⟨.str "b", ⟨"o", by simp [b]⟩, by simp⟩
        · simp; exact ⟨"o", by simp [a]⟩
      · simp [dom, hs] at hcs; subst hcs; simp [hs])
    (fun _ => false)
  simp [Sat, SatAll, quantBlock, f, x, evalTs, evalT, Asg.set, a, b] at this

/-- C09 (part that holds): it is an equivalence for every formula in which no variable is bound again
inside the scope of its own quantifier (and no quantifier lists a variable twice). Missing: re-bound
variables, where the code is wrong. -/
theorem C09_qe_equiv_partial (dom : Domains) (mode : QEMode) (f g : Formula) (hb : VarBindersF f)
    (hr : NoRebind f) (h : removeQuantifiers dom mode f = .ok g)
    (D : Type) (I : Interp D) (hI : DomOK I dom) (σ : Asg D) : Sat I g σ ↔ Sat I f σ := by
  have hc : ConstDoms dom := fun s cs hs => (hI s cs hs).1
  have := qe_main dom mode hc (qdepth f) f (Nat.le_refl _) hb hr
  rw [removeQuantifiers] at h
  rw [h] at this
  exact this.1 D I hI σ

/-- C10: whatever the input, a returned formula contains no quantifier of the requested kinds. -/
theorem C10_qe_removes (dom : Domains) (mode : QEMode) (f g : Formula)
    (h : removeQuantifiers dom mode f = .ok g) : NoQuant mode.elim g :=
  qe_noQuant dom mode _ f g h

/-- C10: in mode All, a returned formula has no quantifier at all. -/
theorem C10_qe_all (dom : Domains) (f g : Formula) (h : removeQuantifiers dom .all f = .ok g) :
    NoQuant (fun _ => true) g := by
  have := C10_qe_removes dom .all f g h
  have he : QEMode.elim .all = fun _ => true := by funext q; cases q <;> rfl
  rwa [he] at this

/-- C10: mode Forall removes the universal quantifiers and mode Exists the existential ones. -/
theorem C10_qe_modes (dom : Domains) (f g : Formula) :
    (removeQuantifiers dom .forall f = .ok g → NoQuant (fun q => q = .forall) g) ∧
    (removeQuantifiers dom .exists f = .ok g → NoQuant (fun q => q = .exists) g) := by
  constructor <;> intro h
  · have := C10_qe_removes dom .forall f g h
    have he : QEMode.elim .forall = fun q => decide (q = .forall) := by funext q; cases q <;> rfl
    rwa [he] at this
  · have := C10_qe_removes dom .exists f g h
    have he : QEMode.elim .exists = fun q => decide (q = .exists) := by funext q; cases q <;> rfl
    rwa [he] at this

/-- C10, failure: whatever the formula (re-bound variables included), the call raises exactly when a
quantifier to be eliminated binds a variable of an empty or non-enumerable sort. -/
theorem C10_qe_fails_iff (dom : Domains) (hc : ConstDoms dom) (mode : QEMode) (f : Formula)
    (hb : VarBindersF f) :
    (∃ e, removeQuantifiers dom mode f = .error e) ↔ BadQuant dom mode.elim f :=
  qe_fail dom mode hc (qdepth f) f (Nat.le_refl _) (bvc_of_varBinders f hb)

/-- Non-vacuity: `forall x. exists y. q(x, y) and p(y)` over a two-element sort meets the hypotheses of all
theorems above, and the elimination returns a formula for it. -/
def qeSample : Formula := .quant .forall [.var ⟨"x", "o"⟩] (.quant .exists [.var ⟨"y", "o"⟩]
  (.comp .tuple .and [.atom (.user "q") [.var ⟨"x", "o"⟩, .var ⟨"y", "o"⟩], .atom (.user "p") [.var ⟨"y", "o"⟩]]))
def qeDom : Domains := fun s =>
  if s = "o" then .ok [.const (.str "a") "o", .const (.str "b") "o"] else .error .language

example : VarBindersF qeSample ∧ NoRebind qeSample ∧ ConstDoms qeDom ∧ ¬ BadQuant qeDom (QEMode.elim .all) qeSample := by
  have hc : ConstDoms qeDom := by
    intro s cs hs c hcm
    by_cases h : s = "o"
    · simp [qeDom, h] at hs; subst hs; simp at hcm
      rcases hcm with rfl | rfl <;> exact ⟨_, _, rfl⟩
    · simp [qeDom, h] at hs
  have hb : VarBindersF qeSample := by simp [qeSample, VarBindersF, VarBindersFs, VarBindersTs, VarBindersT]
  refine ⟨hb, by simp [qeSample, NoRebind, NoRebinds, BoundF, BoundFs, BoundTs, BoundT], hc, ?_⟩
  rw [← C10_qe_fails_iff qeDom hc .all qeSample hb]
  simp [removeQuantifiers, qeSample, qdepth, qdepths, qeFuel, qeWith, qesWith, QEMode.elim, expand, enumerateGroundings,
      enumLoop, qeDom, cart, createSubst, subF, subFs, subTs, subT, Subst.visit, Subst.get?, creatorOf, land,
      lor, createCompound, toBinaryTree]

/-- An interpretation meeting `DomOK` for the sample domain. -/
example : DomOK (D := Bool) ⟨fun n _ => n = .str "a", fun _ _ => false, fun _ ds => ds = [true], fun s _ => s = "o"⟩ qeDom := by
  intro s cs hs
  by_cases h : s = "o"
  · simp [qeDom, h] at hs; subst hs
    refine ⟨by intro c hc; simp at hc; rcases hc with rfl | rfl <;> exact ⟨_, _, rfl⟩, ?_⟩
    intro d
    cases d
    · simp [h]; exact ⟨.str "b", ⟨"o", by simp⟩, by simp⟩
    · simp [h]
  · simp [qeDom, h] at hs

end Tarski

import Verif.ExSimpLemmas
import Verif.Props.Constructors
/-! C32: simplification of existential quantification. -/
namespace Tarski

/-- The iteration order of a python set: any permutation. -/
def TermSetOrder (ord : List Term → List Term) : Prop := ∀ l, (ord l).Perm l

/-- `σ` gives the free variables of `f` values of their sorts. -/
def SortedFor {D} (I : Interp D) (f : Formula) (σ : Asg D) : Prop := ∀ v, FreeF v f → I.sort v.sort (σ v)

/-- C32: full statement. -/
def C32_full : Prop := ∀ (ord : List Term → List Term), TermSetOrder ord → ∀ (f g : Formula), VarBindersF f →
  exSimpF ord f = .ok g → ∀ (D : Type) (I : Interp D), EqInterp I → ∀ σ, SortedFor I f σ → (Sat I g σ ↔ Sat I f σ)

/-! ### Conditions under which the rewriting is correct -/

mutual
/-- All quantifiers in the term bind variables, and at each existential quantifier the side conditions hold. -/
def ExOKT {D} (I : Interp D) (ord : List Term → List Term) : Term → Prop
  | .var _ => True
  | .const _ _ => True
  | .app _ ts => ExOKTs I ord ts
  | .ite c t e => ExOKF I ord c ∧ ExOKT I ord t ∧ ExOKT I ord e
def ExOKTs {D} (I : Interp D) (ord : List Term → List Term) : List Term → Prop
  | [] => True
  | t :: ts => ExOKT I ord t ∧ ExOKTs I ord ts
/-- The same for formulas: the (simplified) body of an existential quantifier is an atom or a conjunction, and each
replacement made by the loop meets `ExStepOK`. -/
def ExOKF {D} (I : Interp D) (ord : List Term → List Term) : Formula → Prop
  | .top => True
  | .bot => True
  | .atom _ ts => ExOKTs I ord ts
  | .comp _ _ fs => ExOKFs I ord fs
  | .quant .forall vs f => (∀ t ∈ vs, ∃ v, t = Term.var v) ∧ ExOKF I ord f
  | .quant .exists vs f => (∀ t ∈ vs, ∃ v, t = Term.var v) ∧ ExOKF I ord f ∧
      ∀ f', exSimpF ord f = .ok f' → (isAtom f' = true ∨ isAnd f' = true) ∧
        ExRunOK I (addAll [] vs) (unwrapConjunctionOrAtom (flatten f'))
def ExOKFs {D} (I : Interp D) (ord : List Term → List Term) : List Formula → Prop
  | [] => True
  | f :: fs => ExOKF I ord f ∧ ExOKFs I ord fs
end

theorem quantBlock_sorted {D} (I : Interp D) (q : Quant) (vs : List Term) {P Q : Asg D → Prop} (σ : Asg D)
    (h : ∀ τ : Asg D, (∀ v, Term.var v ∈ vs → I.sort v.sort (τ v)) → (∀ v, Term.var v ∉ vs → τ v = σ v) → (P τ ↔ Q τ)) :
    quantBlock I q vs P σ ↔ quantBlock I q vs Q σ := by
  cases q with
  | «exists» =>
    rw [quantBlock_exists', quantBlock_exists']
    constructor
    · rintro ⟨τ, h1, h2, h3⟩; exact ⟨τ, h1, h2, (h τ h1 h2).1 h3⟩
    · rintro ⟨τ, h1, h2, h3⟩; exact ⟨τ, h1, h2, (h τ h1 h2).2 h3⟩
  | «forall» =>
    rw [← not_iff_not, quantBlock_neg, quantBlock_neg]
    simp only [negateQuantifier]
    rw [quantBlock_exists', quantBlock_exists']
    constructor
    · rintro ⟨τ, h1, h2, h3⟩; exact ⟨τ, h1, h2, fun hq => h3 ((h τ h1 h2).2 hq)⟩
    · rintro ⟨τ, h1, h2, h3⟩; exact ⟨τ, h1, h2, fun hq => h3 ((h τ h1 h2).1 hq)⟩

mutual
theorem flattenAux_free (c : Conn) (v : Var) (f : Formula) : ∀ g ∈ flattenAux c f, FreeF v g → FreeF v f := by
  intro g hg hv
  match f with
  | .top => simp only [flattenAux, List.mem_singleton] at hg; rwa [hg] at hv
  | .bot => simp only [flattenAux, List.mem_singleton] at hg; rwa [hg] at hv
  | .atom p ts => simp only [flattenAux, List.mem_singleton] at hg; rwa [hg] at hv
  | .quant q vs f => simp only [flattenAux, List.mem_singleton] at hg; rwa [hg] at hv
  | .comp k d fs =>
    simp only [flattenAux] at hg
    split at hg
    · exact flattenAuxs_free c v fs g hg hv
    · simp only [List.mem_singleton] at hg; rwa [hg] at hv
theorem flattenAuxs_free (c : Conn) (v : Var) (fs : List Formula) : ∀ g ∈ flattenAuxs c fs, FreeF v g → FreeFs v fs := by
  intro g hg hv
  match fs with
  | [] => simp [flattenAuxs] at hg
  | f :: fs =>
    simp only [flattenAuxs, List.mem_append] at hg
    rcases hg with hg | hg
    · exact .inl (flattenAux_free c v f g hg hv)
    · exact .inr (flattenAuxs_free c v fs g hg hv)
end

theorem unwrap_sat {D} (I : Interp D) (σ : Asg D) {f : Formula} (h : isAtom f = true ∨ isAnd f = true) :
    (∀ c ∈ unwrapConjunctionOrAtom (flatten f), Sat I c σ) ↔ Sat I f σ := by
  cases f with
  | atom p ts => simp [flatten, unwrapConjunctionOrAtom]
  | comp k c fs =>
    cases c with
    | and =>
      simp only [flatten, unwrapConjunctionOrAtom]
      exact flattenAux_and I σ _
    | or => simp [isAtom, isAnd] at h
    | not => simp [isAtom, isAnd] at h
  | top => simp [isAtom, isAnd] at h
  | bot => simp [isAtom, isAnd] at h
  | quant q vs f => simp [isAtom, isAnd] at h

theorem unwrap_free {v : Var} {f : Formula} : ∀ c ∈ unwrapConjunctionOrAtom (flatten f), FreeF v c → FreeF v f := by
  intro c hc hv
  cases f with
  | atom p ts => simp only [flatten, unwrapConjunctionOrAtom, List.mem_singleton] at hc; rwa [hc] at hv
  | comp k d fs =>
    cases d with
    | and =>
      simp only [flatten, unwrapConjunctionOrAtom] at hc
      exact flattenAux_free _ v _ c hc hv
    | or => simp [flatten, unwrapConjunctionOrAtom] at hc
    | not => simp [flatten, unwrapConjunctionOrAtom] at hc
  | top => simp [flatten, unwrapConjunctionOrAtom] at hc
  | bot => simp [flatten, unwrapConjunctionOrAtom] at hc
  | quant q vs f => simp [flatten, unwrapConjunctionOrAtom] at hc

theorem land_free {v : Var} {cs : List Formula} (h : FreeF v (land cs true)) : ∃ c ∈ cs, FreeF v c := by
  match cs with
  | [] => simp [land, FreeF] at h
  | [a] => exact ⟨a, by simp, by simpa [land, createCompound] using h⟩
  | a :: b :: rest =>
    have : FreeFs v (a :: b :: rest) := by simpa [land, createCompound, FreeF] using h
    exact freeFs_iff.1 this

theorem quantified_ok {q : Quant} {vs : List Term} {f g : Formula} (h : quantified q vs f = .ok g) : g = .quant q vs f := by
  simp only [quantified] at h
  split at h
  · simp at h
  · split at h
    · exact (Except.ok.inj h).symm
    · simp at h

theorem exNode_sound {D} {I : Interp D} (hI : EqInterp I) {ord : List Term → List Term} (hord : TermSetOrder ord)
    {vs : List Term} (hvs : ∀ t ∈ vs, ∃ v, t = Term.var v) {f g : Formula} (hshape : isAtom f = true ∨ isAnd f = true)
    (hrun : ExRunOK I (addAll [] vs) (unwrapConjunctionOrAtom (flatten f))) (h : exNode ord vs f = .ok g) (σ : Asg D)
    (hσ : SortedFor I (.quant .exists vs f) σ) :
    (Sat I g σ ↔ Sat I (.quant .exists vs f) σ) ∧ ∀ v, FreeF v g → FreeF v (.quant .exists vs f) := by
  have hmem : ∀ x, x ∈ addAll [] vs ↔ x ∈ vs := fun x => by rw [mem_addAll]; simp
  obtain ⟨h1, h2, h3⟩ := exLoop_sound hI (S := fun v => FreeF v (.quant .exists vs f)) hσ
    ((addAll [] vs).length + 1) (addAll [] vs) (unwrapConjunctionOrAtom (flatten f))
    (fun x hx => hvs x ((hmem x).1 hx)) hrun (fun c hc v hv => by
      rw [hmem]
      have := unwrap_free c hc hv
      simp only [FreeF]; tauto)
  simp only [exNode] at h
  generalize exLoop ((addAll [] vs).length + 1) (addAll [] vs) (unwrapConjunctionOrAtom (flatten f)) = r at *
  obtain ⟨xs, cs⟩ := r
  simp only at h1 h2 h3 h
  have hsrc : ExHolds I (addAll [] vs) (unwrapConjunctionOrAtom (flatten f)) σ ↔ Sat I (.quant .exists vs f) σ := by
    simp only [Sat, quantBlock_exists', ExHolds, hmem]
    constructor <;> rintro ⟨τ, a, b, c⟩
    · exact ⟨τ, a, b, (unwrap_sat I τ hshape).1 c⟩
    · exact ⟨τ, a, b, (unwrap_sat I τ hshape).2 c⟩
  rw [← hsrc, ← h1]
  split at h
  · rename_i hemp
    simp only [List.isEmpty_iff] at hemp
    subst hemp
    simp only [Except.ok.injEq] at h
    subst h
    refine ⟨?_, fun v hv => ?_⟩
    · rw [C11_land]
      simp only [ExHolds, List.not_mem_nil, false_imp_iff, implies_true, not_false_eq_true, true_imp_iff, true_and]
      constructor
      · intro h; exact ⟨σ, fun _ => rfl, h⟩
      · rintro ⟨τ, a, b⟩; rwa [show τ = σ from funext a] at b
    · obtain ⟨c, hc, hv⟩ := land_free hv
      have := h3 c hc v hv
      simpa using this
  · rw [quantified_ok h]
    refine ⟨?_, fun v hv => ?_⟩
    · simp only [Sat, quantBlock_exists', ExHolds, (hord xs).mem_iff, C11_land]
    · simp only [FreeF, (hord xs).mem_iff] at hv
      obtain ⟨c, hc, hv'⟩ := land_free hv.1
      have := h3 c hc v hv'
      tauto

/-- A one-element interpretation in which everything is true. -/
def unitInterp : Interp Unit := ⟨fun _ _ => (), fun _ _ => (), fun _ _ => True, fun _ _ => True⟩

theorem exRunOK_unit {D} {I : Interp D} {xs : List Term} {cs : List Formula} (h : ExRunOK I xs cs) :
    ExRunOK unitInterp xs cs := fun ys ds hr r v t hs =>
  let ⟨a, b, _, d⟩ := h ys ds hr r v t hs
  ⟨a, b, fun _ _ => trivial, d⟩

theorem exNode_free {D} {I : Interp D} {ord : List Term → List Term} (hord : TermSetOrder ord)
    {vs : List Term} (hvs : ∀ t ∈ vs, ∃ v, t = Term.var v) {f g : Formula} (hshape : isAtom f = true ∨ isAnd f = true)
    (hrun : ExRunOK I (addAll [] vs) (unwrapConjunctionOrAtom (flatten f))) (h : exNode ord vs f = .ok g) :
    ∀ v, FreeF v g → FreeF v (.quant .exists vs f) :=
  (exNode_sound (I := unitInterp) (by intro a b; simp [unitInterp]) hord hvs hshape (exRunOK_unit hrun) h (fun _ => ())
    (fun _ _ => trivial)).2

theorem exSimpTs_vars (ord : List Term → List Term) : ∀ (vs : List Term), (∀ t ∈ vs, ∃ v, t = Term.var v) → exSimpTs ord vs = .ok vs
  | [], _ => rfl
  | t :: vs, h => by
    obtain ⟨v, rfl⟩ := h t (by simp)
    simp only [exSimpTs, exSimpT, exSimpTs_vars ord vs (fun t ht => h t (by simp [ht]))]

mutual
theorem exSimpT_sound {D} {I : Interp D} (hI : EqInterp I) {ord : List Term → List Term} (hord : TermSetOrder ord) (t t' : Term)
    (hok : ExOKT I ord t) (h : exSimpT ord t = .ok t') :
    (∀ v, FreeT v t' → FreeT v t) ∧ ∀ σ : Asg D, (∀ v, FreeT v t → I.sort v.sort (σ v)) → evalT I t' σ = evalT I t σ := by
  match t with
  | .var v => simp only [exSimpT, Except.ok.injEq] at h; subst h; exact ⟨fun _ h => h, fun _ _ => rfl⟩
  | .const n so => simp only [exSimpT, Except.ok.injEq] at h; subst h; exact ⟨fun _ h => h, fun _ _ => rfl⟩
  | .app f ts =>
    simp only [exSimpT] at h
    cases h1 : exSimpTs ord ts with
    | error e => simp [h1] at h
    | ok ts' =>
      simp only [h1, Except.ok.injEq] at h; subst h
      obtain ⟨a, b⟩ := exSimpTs_sound hI hord ts ts' hok h1
      exact ⟨a, fun σ hσ => by simp only [evalT]; rw [b σ hσ]⟩
  | .ite c x y =>
    simp only [exSimpT] at h
    cases h1 : exSimpF ord c with
    | error e => simp [h1] at h
    | ok c' =>
      simp only [h1] at h
      cases h2 : exSimpT ord x with
      | error e => simp [h2] at h
      | ok x' =>
        simp only [h2] at h
        cases h3 : exSimpT ord y with
        | error e => simp [h3] at h
        | ok y' =>
          simp only [h3, Except.ok.injEq] at h; subst h
          obtain ⟨a1, b1⟩ := exSimpF_sound hI hord c c' hok.1 h1
          obtain ⟨a2, b2⟩ := exSimpT_sound hI hord x x' hok.2.1 h2
          obtain ⟨a3, b3⟩ := exSimpT_sound hI hord y y' hok.2.2 h3
          refine ⟨fun v hv => ?_, fun σ hσ => ?_⟩
          · simp only [FreeT] at hv ⊢
            rcases hv with hv | hv | hv
            · exact .inl (a1 v hv)
            · exact .inr (.inl (a2 v hv))
            · exact .inr (.inr (a3 v hv))
          · simp only [evalT]
            rw [b2 σ (fun v hv => hσ v (.inr (.inl hv))), b3 σ (fun v hv => hσ v (.inr (.inr hv)))]
            classical
            exact ite_congr (propext (b1 σ (fun v hv => hσ v (.inl hv)))) (fun _ => rfl) (fun _ => rfl)
theorem exSimpTs_sound {D} {I : Interp D} (hI : EqInterp I) {ord : List Term → List Term} (hord : TermSetOrder ord) (ts ts' : List Term)
    (hok : ExOKTs I ord ts) (h : exSimpTs ord ts = .ok ts') :
    (∀ v, FreeTs v ts' → FreeTs v ts) ∧
      ∀ σ : Asg D, (∀ v, FreeTs v ts → I.sort v.sort (σ v)) → evalTs I ts' σ = evalTs I ts σ := by
  match ts with
  | [] => simp only [exSimpTs, Except.ok.injEq] at h; subst h; exact ⟨fun _ h => h, fun _ _ => rfl⟩
  | t :: ts =>
    simp only [exSimpTs] at h
    cases h1 : exSimpT ord t with
    | error e => simp [h1] at h
    | ok t' =>
      simp only [h1] at h
      cases h2 : exSimpTs ord ts with
      | error e => simp [h2] at h
      | ok ts1 =>
        simp only [h2, Except.ok.injEq] at h; subst h
        obtain ⟨a1, b1⟩ := exSimpT_sound hI hord t t' hok.1 h1
        obtain ⟨a2, b2⟩ := exSimpTs_sound hI hord ts ts1 hok.2 h2
        refine ⟨fun v hv => ?_, fun σ hσ => ?_⟩
        · simp only [FreeTs] at hv ⊢
          exact hv.imp (a1 v) (a2 v)
        · simp only [evalTs]
          rw [b1 σ (fun v hv => hσ v (.inl hv)), b2 σ (fun v hv => hσ v (.inr hv))]
theorem exSimpF_sound {D} {I : Interp D} (hI : EqInterp I) {ord : List Term → List Term} (hord : TermSetOrder ord) (f g : Formula)
    (hok : ExOKF I ord f) (h : exSimpF ord f = .ok g) :
    (∀ v, FreeF v g → FreeF v f) ∧ ∀ σ : Asg D, SortedFor I f σ → (Sat I g σ ↔ Sat I f σ) := by
  match f with
  | .top => simp only [exSimpF, Except.ok.injEq] at h; subst h; exact ⟨fun _ h => h, fun _ _ => Iff.rfl⟩
  | .bot => simp only [exSimpF, Except.ok.injEq] at h; subst h; exact ⟨fun _ h => h, fun _ _ => Iff.rfl⟩
  | .atom p ts =>
    simp only [exSimpF] at h
    cases h1 : exSimpTs ord ts with
    | error e => simp [h1] at h
    | ok ts' =>
      simp only [h1, Except.ok.injEq] at h; subst h
      obtain ⟨a, b⟩ := exSimpTs_sound hI hord ts ts' hok h1
      exact ⟨a, fun σ hσ => by simp only [Sat]; rw [b σ hσ]⟩
  | .comp k c fs =>
    simp only [exSimpF] at h
    cases h1 : exSimpFs ord fs with
    | error e => simp [h1] at h
    | ok fs' =>
      simp only [h1, Except.ok.injEq] at h; subst h
      obtain ⟨a, b⟩ := exSimpFs_sound hI hord fs fs' hok h1
      refine ⟨a, fun σ hσ => ?_⟩
      cases c
      · simp only [Sat]; exact (b σ hσ).1
      · simp only [Sat]; exact (b σ hσ).2
      · simp only [Sat]; rw [(b σ hσ).1]
  | .quant .forall vs f =>
    simp only [exSimpF] at h
    cases h1 : exSimpF ord f with
    | error e => simp [h1] at h
    | ok f' =>
      simp only [h1] at h
      cases h2 : exSimpTs ord vs with
      | error e => simp [h2] at h
      | ok vs' =>
        simp only [h2, Except.ok.injEq] at h; subst h
        have hvs := exSimpTs_vars ord vs hok.1
        rw [h2] at hvs
        simp only [Except.ok.injEq] at hvs
        subst hvs
        obtain ⟨a, b⟩ := exSimpF_sound hI hord f f' hok.2 h1
        refine ⟨fun v hv => ⟨a v hv.1, hv.2⟩, fun σ hσ => ?_⟩
        simp only [Sat]
        refine quantBlock_sorted I _ _ σ (fun τ t1 t2 => b τ (fun v hv => ?_))
        by_cases hm : Term.var v ∈ vs'
        · exact t1 v hm
        · rw [t2 v hm]; exact hσ v ⟨hv, hm⟩
  | .quant .exists vs f =>
    simp only [exSimpF] at h
    cases h1 : exSimpF ord f with
    | error e => simp [h1] at h
    | ok f' =>
      simp only [h1] at h
      cases h2 : exSimpTs ord vs with
      | error e => simp [h2] at h
      | ok vs' =>
        simp only [h2] at h
        have hvs := exSimpTs_vars ord vs hok.1
        rw [h2] at hvs
        simp only [Except.ok.injEq] at hvs
        subst hvs
        obtain ⟨a, b⟩ := exSimpF_sound hI hord f f' hok.2.1 h1
        have hsub : ∀ v, FreeF v (.quant .exists vs' f') → FreeF v (.quant .exists vs' f) := fun v hv => ⟨a v hv.1, hv.2⟩
        obtain ⟨hshape, hrun⟩ := hok.2.2 f' h1
        refine ⟨fun v hv => ?_, fun σ hσ => ?_⟩
        · exact hsub v (exNode_free hord hok.1 hshape hrun h v hv)
        · rw [(exNode_sound hI hord hok.1 hshape hrun h σ (fun v hv => hσ v (hsub v hv))).1]
          simp only [Sat]
          refine quantBlock_sorted I _ _ σ (fun τ t1 t2 => b τ (fun v hv => ?_))
          by_cases hm : Term.var v ∈ vs'
          · exact t1 v hm
          · rw [t2 v hm]; exact hσ v ⟨hv, hm⟩
theorem exSimpFs_sound {D} {I : Interp D} (hI : EqInterp I) {ord : List Term → List Term} (hord : TermSetOrder ord) (fs gs : List Formula)
    (hok : ExOKFs I ord fs) (h : exSimpFs ord fs = .ok gs) :
    (∀ v, FreeFs v gs → FreeFs v fs) ∧ ∀ σ : Asg D, (∀ v, FreeFs v fs → I.sort v.sort (σ v)) →
      (SatAll I gs σ ↔ SatAll I fs σ) ∧ (SatAny I gs σ ↔ SatAny I fs σ) := by
  match fs with
  | [] => simp only [exSimpFs, Except.ok.injEq] at h; subst h; exact ⟨fun _ h => h, fun _ _ => ⟨Iff.rfl, Iff.rfl⟩⟩
  | f :: fs =>
    simp only [exSimpFs] at h
    cases h1 : exSimpF ord f with
    | error e => simp [h1] at h
    | ok f' =>
      simp only [h1] at h
      cases h2 : exSimpFs ord fs with
      | error e => simp [h2] at h
      | ok fs1 =>
        simp only [h2, Except.ok.injEq] at h; subst h
        obtain ⟨a1, b1⟩ := exSimpF_sound hI hord f f' hok.1 h1
        obtain ⟨a2, b2⟩ := exSimpFs_sound hI hord fs fs1 hok.2 h2
        refine ⟨fun v hv => hv.imp (a1 v) (a2 v), fun σ hσ => ?_⟩
        have e1 := b1 σ (fun v hv => hσ v (.inl hv))
        have e2 := b2 σ (fun v hv => hσ v (.inr hv))
        simp only [SatAll, SatAny, e1, e2.1, e2.2, and_self]
end

/-- C32, whenever at each existential quantifier the (simplified) body is an atom or a conjunction and every replacement
`x := t` made there is preceded by no `z = z` atom, has no occurrence of `x` in `t`, a `t` of the sort of `x`, and
meets no interfering quantifier (missing: all other cases, which the code gets wrong, see the refutations below). -/
theorem C32_equiv_partial (ord : List Term → List Term) (hord : TermSetOrder ord) (f g : Formula) (D : Type) (I : Interp D)
    (hI : EqInterp I) (hok : ExOKF I ord f) (h : exSimpF ord f = .ok g) (σ : Asg D) (hσ : SortedFor I f σ) :
    Sat I g σ ↔ Sat I f σ :=
  (exSimpF_sound hI hord f g hok h).2 σ hσ

/-! ### Conditions on the input only -/

mutual
theorem subT_noOcc {v : Var} {u : Term} (t : Term) (hi : NoIteT t) (h : ¬ FreeT v t) : subT [(.var v, u)] t = t := by
  have hk : KeysVar [(Term.var v, u)] := by simp [KeysVar]
  match t with
  | .var w =>
    have hw : ¬ v = w := fun he => h he.symm
    simp [subT, Subst.visit, Subst.get?, hw]
  | .const n so => rw [subT, visit_nonvar hk (by simp)]
  | .app f ts => rw [subT, visit_nonvar hk (by simp), subTs_noOcc ts hi h]
  | .ite c a b => exact absurd hi (by simp [NoIteT])
theorem subTs_noOcc {v : Var} {u : Term} (ts : List Term) (hi : NoIteTs ts) (h : ¬ FreeTs v ts) : subTs [(.var v, u)] ts = ts := by
  match ts with
  | [] => rfl
  | t :: ts =>
    simp only [FreeTs, not_or] at h
    rw [subTs, subT_noOcc t hi.1 h.1, subTs_noOcc ts hi.2 h.2]
end

/-- The sides of the equations that mention a quantified variable: the other side mentions none, has no if-then-else,
and has the sort of the variable. -/
def EqSides {D} (I : Interp D) (xs : List Term) (a b : Term) : Prop :=
  (∀ v, a = Term.var v → Term.var v ∈ xs → NoIteT b ∧ (∀ w, FreeT w b → Term.var w ∉ xs) ∧ Typed I v b) ∧
  (∀ v, b = Term.var v → Term.var v ∈ xs → NoIteT a ∧ (∀ w, FreeT w a → Term.var w ∉ xs) ∧ Typed I v a)

/-- The conjuncts are quantifier-free and the equations among them are as in `EqSides`. -/
def PlainConjuncts {D} (I : Interp D) (xs : List Term) (cs : List Formula) : Prop :=
  ∀ c ∈ cs, VarBindersF c ∧ (∀ w, ¬ BoundF w c) ∧ ∀ a b, c = .atom (.cmp .eq) [a, b] → EqSides I xs a b

mutual
theorem noIteT_bound (w : Var) (t : Term) (h : NoIteT t) : ¬ BoundT w t ∧ VarBindersT t := by
  match t with
  | .var _ => exact ⟨by simp [BoundT], by simp [VarBindersT]⟩
  | .const _ _ => exact ⟨by simp [BoundT], by simp [VarBindersT]⟩
  | .app _ ts => exact noIteTs_bound w ts h
  | .ite c a b => exact absurd h (by simp [NoIteT])
theorem noIteTs_bound (w : Var) (ts : List Term) (h : NoIteTs ts) : ¬ BoundTs w ts ∧ VarBindersTs ts := by
  match ts with
  | [] => exact ⟨by simp [BoundTs], by simp [VarBindersTs]⟩
  | t :: ts =>
    have h1 := noIteT_bound w t h.1
    have h2 := noIteTs_bound w ts h.2
    simp only [BoundTs, VarBindersTs]; tauto
end

mutual
theorem subT_plain {s : Subst} (hk : KeysVar s) (hv : ∀ kv ∈ s, NoIteT kv.2) (t : Term) (hb : VarBindersT t)
    (h : ∀ w, ¬ BoundT w t) : VarBindersT (subT s t) ∧ ∀ w, ¬ BoundT w (subT s t) := by
  match t with
  | .var w =>
    simp only [subT, Subst.visit]
    cases hg : s.get? (.var w) with
    | none => exact ⟨hb, h⟩
    | some u =>
      have := hv _ (get?_eq_some hg)
      exact ⟨(noIteT_bound w u this).2, fun w => (noIteT_bound w u this).1⟩
  | .const n so => rw [subT, visit_nonvar hk (by simp)]; exact ⟨hb, h⟩
  | .app f ts =>
    rw [subT, visit_nonvar hk (by simp)]
    exact subTs_plain hk hv ts hb h
  | .ite c a b =>
    rw [subT, visit_nonvar hk (by simp)]
    simp only [BoundT, not_or, forall_and] at h
    have h1 := subF_plain hk hv c hb.1 h.1
    have h2 := subT_plain hk hv a hb.2.1 h.2.1
    have h3 := subT_plain hk hv b hb.2.2 h.2.2
    simp only [VarBindersT, BoundT, not_or, forall_and]; tauto
theorem subTs_plain {s : Subst} (hk : KeysVar s) (hv : ∀ kv ∈ s, NoIteT kv.2) (ts : List Term) (hb : VarBindersTs ts)
    (h : ∀ w, ¬ BoundTs w ts) : VarBindersTs (subTs s ts) ∧ ∀ w, ¬ BoundTs w (subTs s ts) := by
  match ts with
  | [] => exact ⟨hb, h⟩
  | t :: ts =>
    simp only [BoundTs, not_or, forall_and] at h
    have h1 := subT_plain hk hv t hb.1 h.1
    have h2 := subTs_plain hk hv ts hb.2 h.2
    simp only [subTs, VarBindersTs, BoundTs, not_or, forall_and]; tauto
theorem subF_plain {s : Subst} (hk : KeysVar s) (hv : ∀ kv ∈ s, NoIteT kv.2) (f : Formula) (hb : VarBindersF f)
    (h : ∀ w, ¬ BoundF w f) : VarBindersF (subF s f) ∧ ∀ w, ¬ BoundF w (subF s f) := by
  match f with
  | .top => exact ⟨hb, h⟩
  | .bot => exact ⟨hb, h⟩
  | .atom p ts => exact subTs_plain hk hv ts hb h
  | .comp k c fs => exact subFs_plain hk hv fs hb h
  | .quant q vs f =>
    have hvs : vs = [] := by
      rcases vs with _ | ⟨t, vs⟩
      · rfl
      · obtain ⟨v, rfl⟩ := hb.1 t (by simp)
        exact absurd (Or.inl (by simp)) (h v)
    subst hvs
    have := subF_plain hk hv f hb.2 (fun w hw => h w (.inr hw))
    simp only [subF, subTs, VarBindersF, BoundF]
    simpa using this
theorem subFs_plain {s : Subst} (hk : KeysVar s) (hv : ∀ kv ∈ s, NoIteT kv.2) (fs : List Formula) (hb : VarBindersFs fs)
    (h : ∀ w, ¬ BoundFs w fs) : VarBindersFs (subFs s fs) ∧ ∀ w, ¬ BoundFs w (subFs s fs) := by
  match fs with
  | [] => exact ⟨hb, h⟩
  | f :: fs =>
    simp only [BoundFs, not_or, forall_and] at h
    have h1 := subF_plain hk hv f hb.1 h.1
    have h2 := subFs_plain hk hv fs hb.2 h.2
    simp only [subFs, VarBindersFs, BoundFs, not_or, forall_and]; tauto
end

theorem subF_eqAtom {s : Subst} {c : Formula} {a' b' : Term} (h : subF s c = .atom (.cmp .eq) [a', b']) :
    ∃ a b, c = .atom (.cmp .eq) [a, b] ∧ a' = subT s a ∧ b' = subT s b := by
  cases c with
  | atom p ts =>
    simp only [subF, Formula.atom.injEq] at h
    obtain ⟨rfl, h⟩ := h
    match ts, h with
    | [a, b], h =>
      simp only [subTs, List.cons.injEq, and_true] at h
      exact ⟨a, b, rfl, h.1.symm, h.2.symm⟩
    | [], h => simp [subTs] at h
    | [_], h => simp [subTs] at h
    | _ :: _ :: _ :: _, h => simp [subTs] at h
  | top => simp [subF] at h
  | bot => simp [subF] at h
  | comp k c fs => simp [subF] at h
  | quant q vs f => simp [subF] at h

/-- One side of `EqSides` is stable under a replacement. -/
theorem eqSide_sub {D} {I : Interp D} {xs : List Term} {v : Var} {u : Term} (hu : ∀ w, FreeT w u → Term.var w ∉ xs)
    {a b : Term}
    (h : ∀ y, a = Term.var y → Term.var y ∈ xs → NoIteT b ∧ (∀ w, FreeT w b → Term.var w ∉ xs) ∧ Typed I y b)
    (hv : Term.var v ∈ xs) {y : Var} (hy : subT [(.var v, u)] a = Term.var y) (hyx : Term.var y ∈ xs) :
    NoIteT (subT [(.var v, u)] b) ∧ (∀ w, FreeT w (subT [(.var v, u)] b) → Term.var w ∉ xs) ∧ Typed I y (subT [(.var v, u)] b) := by
  have hk : KeysVar [(Term.var v, u)] := by simp [KeysVar]
  have ha : a = Term.var y := by
    cases a with
    | var w =>
      simp only [subT, Subst.visit] at hy
      cases hg : Subst.get? [(Term.var v, u)] (.var w) with
      | none => simpa [hg] using hy
      | some t =>
        have := get?_eq_some hg
        simp only [List.mem_singleton, Prod.mk.injEq, Term.var.injEq] at this
        obtain ⟨rfl, rfl⟩ := this
        simp only [hg, Option.getD_some] at hy
        exact absurd hyx (hu y (by simp [hy, FreeT]))
    | const n so => rw [subT, visit_nonvar hk (by simp)] at hy; simp at hy
    | app f ts => rw [subT, visit_nonvar hk (by simp)] at hy; simp at hy
    | ite c p q => rw [subT, visit_nonvar hk (by simp)] at hy; simp at hy
  obtain ⟨h1, h2, h3⟩ := h y ha hyx
  have hnv : ¬ FreeT v b := fun hf => h2 v hf hv
  rw [subT_noOcc b h1 hnv]
  exact ⟨h1, h2, h3⟩

theorem plain_step {D} {I : Interp D} {xs : List Term} {cs : List Formula} (hx : ∀ x ∈ xs, ∃ v, x = Term.var v)
    (h : PlainConjuncts I xs cs) : ExStepOK I xs cs ∧
      PlainConjuncts I (exAttempt xs cs).2.1 (exAttempt xs cs).2.2 ∧ ∀ x ∈ (exAttempt xs cs).2.1, x ∈ xs := by
  obtain ⟨hrem, hrep, _⟩ := exScan_spec xs 0 cs
  have hnil : (exScan xs 0 cs).1 = [] := by
    rw [List.eq_nil_iff_forall_not_mem]
    intro j hj
    obtain ⟨z, _, hz, hc⟩ := hrem j hj
    obtain ⟨v, rfl⟩ := hx z hz
    obtain ⟨_, h2, _⟩ := ((h _ (List.mem_of_getElem? hc)).2.2 _ _ rfl).1 v rfl hz
    exact h2 v rfl hz
  -- the equation that is used
  have hside : ∀ r v t, (exScan xs 0 cs).2 = some (r, Term.var v, t) →
      Term.var v ∈ xs ∧ NoIteT t ∧ (∀ w, FreeT w t → Term.var w ∉ xs) ∧ Typed I v t := by
    intro r v t hs
    obtain ⟨_, hv, _, hc⟩ := hrep r _ t hs
    refine ⟨hv, ?_⟩
    rcases hc with hc | hc
    · exact ((h _ (List.mem_of_getElem? hc)).2.2 _ _ rfl).1 v rfl hv
    · exact ((h _ (List.mem_of_getElem? hc)).2.2 _ _ rfl).2 v rfl hv
  refine ⟨fun r v t hs => ?_, ?_⟩
  · obtain ⟨h1, h2, h3, h4⟩ := hside r v t hs
    exact ⟨hnil, fun hf => h3 v hf h1, h4, fun c hc => ⟨(h c hc).1, fun w hw => absurd hw ((h c hc).2.1 w)⟩⟩
  · have hcs1 : enumFilter (fun i => !(exScan xs 0 cs).1.contains i) 0 cs = cs := enumFilter_true _ _ (by simp [hnil])
    cases hsc : (exScan xs 0 cs).2 with
    | none => simp only [exAttempt, hsc, hcs1]; exact ⟨h, fun x h => h⟩
    | some rxt =>
      obtain ⟨r, x, t⟩ := rxt
      obtain ⟨v, rfl⟩ := hx x (hrep r x t hsc).2.1
      obtain ⟨h1, h2, h3, h4⟩ := hside r v t hsc
      simp only [exAttempt, hsc, hcs1]
      refine ⟨fun c' hc' => ?_, fun x hx => (List.mem_filter.1 hx).1⟩
      obtain ⟨c, hc, rfl⟩ := List.mem_map.1 hc'
      have hcm : c ∈ cs := by
        obtain ⟨j, hj, _⟩ := (mem_enumFilter ..).1 hc
        exact List.mem_of_getElem? hj
      have hk : KeysVar [(Term.var v, t)] := by simp [KeysVar]
      obtain ⟨p1, p2⟩ := subF_plain hk (by simpa using h2) c (h c hcm).1 (h c hcm).2.1
      refine ⟨p1, p2, fun a' b' he => ?_⟩
      obtain ⟨a, b, rfl, rfl, rfl⟩ := subF_eqAtom he
      obtain ⟨s1, s2⟩ := (h _ hcm).2.2 a b rfl
      constructor
      · intro y hy hyx
        obtain ⟨q1, q2, q3⟩ := eqSide_sub h3 s1 h1 hy (List.mem_filter.1 hyx).1
        exact ⟨q1, fun w hw hm => q2 w hw (List.mem_filter.1 hm).1, q3⟩
      · intro y hy hyx
        obtain ⟨q1, q2, q3⟩ := eqSide_sub h3 s2 h1 hy (List.mem_filter.1 hyx).1
        exact ⟨q1, fun w hw hm => q2 w hw (List.mem_filter.1 hm).1, q3⟩

theorem plain_run {D} {I : Interp D} {xs ys : List Term} {cs ds : List Formula} (hr : ExReach xs cs ys ds) :
    (∀ x ∈ xs, ∃ v, x = Term.var v) → PlainConjuncts I xs cs → ExStepOK I ys ds := by
  induction hr with
  | refl xs cs => intro hx h; exact (plain_step hx h).1
  | step _ _ ih =>
    intro hx h
    obtain ⟨_, h2, h3⟩ := plain_step hx h
    exact ih (fun x hx' => hx x (h3 x hx')) h2

/-- C32 with conditions on the input only: one existential quantifier over a quantifier-free conjunction in which the
equations `x = t` for a quantified `x` have a `t` of the sort of `x` without quantified variables (missing: equations
between quantified variables, nested quantifiers, bodies of another shape). -/
theorem C32_conjunctive_partial (ord : List Term → List Term) (hord : TermSetOrder ord) (vs : List Term)
    (hvs : ∀ t ∈ vs, ∃ v, t = Term.var v) (f g : Formula) (hshape : isAtom f = true ∨ isAnd f = true) (D : Type) (I : Interp D)
    (hI : EqInterp I) (hpl : PlainConjuncts I (addAll [] vs) (unwrapConjunctionOrAtom (flatten f)))
    (h : exNode ord vs f = .ok g) (σ : Asg D) (hσ : SortedFor I (.quant .exists vs f) σ) :
    Sat I g σ ↔ Sat I (.quant .exists vs f) σ := by
  have hmem : ∀ x ∈ addAll [] vs, ∃ v, x = Term.var v := fun x hx => hvs x (by simpa [mem_addAll] using hx)
  exact (exNode_sound hI hord hvs hshape (fun ys ds hr => plain_run hr hmem hpl) h σ hσ).1

/-! ### Results of the rewriting -/

theorem exLoop_subset : ∀ (n : Nat) (xs : List Term) (cs : List Formula), (exLoop n xs cs).1.Sublist xs
  | 0, xs, cs => by simp [exLoop]
  | n + 1, xs, cs => by
    have h1 : (exAttempt xs cs).2.1.Sublist xs := by
      cases hsc : (exScan xs 0 cs).2 with
      | none => simp [exAttempt, hsc]
      | some rxt => simp only [exAttempt, hsc]; exact List.filter_sublist
    simp only [exLoop]
    split
    · exact (exLoop_subset n _ _).trans h1
    · exact h1

theorem exNode_shape (ord : List Term → List Term) (hord : TermSetOrder ord) (vs : List Term) (f g : Formula)
    (h : exNode ord vs f = .ok g) :
    ∃ ws cs, (ws = [] ∧ g = land cs true ∨ ws ≠ [] ∧ g = .quant .exists ws (land cs true)) ∧ ws.Nodup ∧ (∀ w ∈ ws, w ∈ vs) ∧
      ∀ a b, .atom (.cmp .eq) [a, b] ∈ cs → a ∉ ws ∧ b ∉ ws := by
  have hsub := exLoop_subset ((addAll [] vs).length + 1) (addAll [] vs) (unwrapConjunctionOrAtom (flatten f))
  obtain ⟨ys, ds, _, hstop, hr⟩ := exLoop_stops ((addAll [] vs).length + 1) (addAll [] vs) (unwrapConjunctionOrAtom (flatten f))
    (Nat.lt_succ_self _)
  simp only [exNode] at h
  generalize exLoop ((addAll [] vs).length + 1) (addAll [] vs) (unwrapConjunctionOrAtom (flatten f)) = r at *
  obtain ⟨xs, cs⟩ := r
  have hnd : xs.Nodup := hsub.nodup (nodup_addAll List.nodup_nil)
  have hmem : ∀ x ∈ xs, x ∈ vs := fun x hx => by have := hsub.subset hx; simpa [mem_addAll] using this
  have heq : ∀ a b, Formula.atom (.cmp .eq) [a, b] ∈ cs → a ∉ xs ∧ b ∉ xs := by
    obtain ⟨_, _, hnone⟩ := exScan_spec ys 0 ds
    cases hsc : (exScan ys 0 ds).2 with
    | some rxt => simp [exAttempt, hsc] at hstop
    | none =>
      simp only [exAttempt, hsc, Prod.mk.injEq] at hr
      obtain ⟨rfl, rfl⟩ := hr
      intro a b hab
      obtain ⟨j, hj, hp⟩ := (mem_enumFilter ..).1 hab
      rw [← not_or]
      intro hor
      have := (hnone hsc j a b hj hor).2
      simp only [Nat.zero_add] at this hp
      simp [this] at hp
  split at h
  · rename_i hemp
    simp only [List.isEmpty_iff] at hemp
    subst hemp
    exact ⟨[], cs, .inl ⟨rfl, (Except.ok.inj h).symm⟩, by simp, by simp, by simp⟩
  · rename_i hemp
    refine ⟨ord xs, cs, .inr ⟨?_, quantified_ok h⟩, (hord xs).nodup_iff.2 hnd, fun w hw => hmem w ((hord xs).mem_iff.1 hw), ?_⟩
    · intro he
      have := (hord xs).length_eq
      rw [he] at this
      simp only [List.length_nil] at this
      exact hemp (by simp [List.length_eq_zero_iff.1 this.symm])
    · intro a b hab
      rw [(hord xs).mem_iff, (hord xs).mem_iff]
      exact heq a b hab

theorem exNode_returns (ord : List Term → List Term) (hord : TermSetOrder ord) (vs : List Term) (hvs : ∀ t ∈ vs, ∃ v, t = Term.var v)
    (f : Formula) : ∃ g, exNode ord vs f = .ok g := by
  have hsub := exLoop_subset ((addAll [] vs).length + 1) (addAll [] vs) (unwrapConjunctionOrAtom (flatten f))
  simp only [exNode]
  generalize exLoop ((addAll [] vs).length + 1) (addAll [] vs) (unwrapConjunctionOrAtom (flatten f)) = r at *
  obtain ⟨xs, cs⟩ := r
  split
  · exact ⟨_, rfl⟩
  · rename_i hemp
    have hmem : ∀ x ∈ ord xs, ∃ v, x = Term.var v := fun x hx => by
      have := hsub.subset ((hord xs).mem_iff.1 hx)
      exact hvs x (by simpa [mem_addAll] using this)
    refine ⟨.quant .exists (ord xs) (land cs true), ?_⟩
    simp only [quantified]
    have hne : (ord xs).isEmpty = false := by
      rw [Bool.eq_false_iff]
      intro he
      have := (hord xs).length_eq
      rw [List.isEmpty_iff.1 he] at this
      exact hemp (by simp [List.length_eq_zero_iff.1 this.symm])
    have hall : (ord xs).all (fun t => match t with | .var _ => true | _ => false) = true := by
      rw [List.all_eq_true]
      intro x hx
      obtain ⟨v, rfl⟩ := hmem x hx
      rfl
    rw [if_neg (by simp [hne])]
    exact if_pos hall

mutual
theorem exSimpT_returns (ord : List Term → List Term) (hord : TermSetOrder ord) (t : Term) (h : VarBindersT t) :
    ∃ t', exSimpT ord t = .ok t' := by
  match t with
  | .var v => exact ⟨_, rfl⟩
  | .const n so => exact ⟨_, rfl⟩
  | .app f ts =>
    obtain ⟨ts', h1⟩ := exSimpTs_returns ord hord ts h
    exact ⟨.app f ts', by simp only [exSimpT, h1]⟩
  | .ite c a b =>
    obtain ⟨c', h1⟩ := exSimpF_returns ord hord c h.1
    obtain ⟨a', h2⟩ := exSimpT_returns ord hord a h.2.1
    obtain ⟨b', h3⟩ := exSimpT_returns ord hord b h.2.2
    exact ⟨.ite c' a' b', by simp only [exSimpT, h1, h2, h3]⟩
theorem exSimpTs_returns (ord : List Term → List Term) (hord : TermSetOrder ord) (ts : List Term) (h : VarBindersTs ts) :
    ∃ ts', exSimpTs ord ts = .ok ts' := by
  match ts with
  | [] => exact ⟨_, rfl⟩
  | t :: ts =>
    obtain ⟨t', h1⟩ := exSimpT_returns ord hord t h.1
    obtain ⟨ts', h2⟩ := exSimpTs_returns ord hord ts h.2
    exact ⟨t' :: ts', by simp only [exSimpTs, h1, h2]⟩
theorem exSimpF_returns (ord : List Term → List Term) (hord : TermSetOrder ord) (f : Formula) (h : VarBindersF f) :
    ∃ g, exSimpF ord f = .ok g := by
  match f with
  | .top => exact ⟨_, rfl⟩
  | .bot => exact ⟨_, rfl⟩
  | .atom p ts =>
    obtain ⟨ts', h1⟩ := exSimpTs_returns ord hord ts h
    exact ⟨.atom p ts', by simp only [exSimpF, h1]⟩
  | .comp k c fs =>
    obtain ⟨fs', h1⟩ := exSimpFs_returns ord hord fs h
    exact ⟨.comp .list c fs', by simp only [exSimpF, h1]⟩
  | .quant q vs f =>
    obtain ⟨f', h1⟩ := exSimpF_returns ord hord f h.2
    have h2 := exSimpTs_vars ord vs h.1
    cases q with
    | «forall» => exact ⟨.quant .forall vs f', by simp only [exSimpF, h1, h2]⟩
    | «exists» =>
      simp only [exSimpF, h1, h2]
      exact exNode_returns ord hord vs h.1 f'
theorem exSimpFs_returns (ord : List Term → List Term) (hord : TermSetOrder ord) (fs : List Formula) (h : VarBindersFs fs) :
    ∃ gs, exSimpFs ord fs = .ok gs := by
  match fs with
  | [] => exact ⟨_, rfl⟩
  | f :: fs =>
    obtain ⟨f', h1⟩ := exSimpF_returns ord hord f h.1
    obtain ⟨fs', h2⟩ := exSimpFs_returns ord hord fs h.2
    exact ⟨f' :: fs', by simp only [exSimpFs, h1, h2]⟩
end

/-- C32: the simplification always returns. -/
theorem C32_returns (ord : List Term → List Term) (hord : TermSetOrder ord) (f : Formula) (h : VarBindersF f) :
    ∃ g, exSimpF ord f = .ok g :=
  exSimpF_returns ord hord f h

/-- C32: in the simplified form of an existential formula, no equation with a quantified variable as a side is left among
the conjuncts; no variable is added to the quantifier, and a universal formula keeps its quantifier. -/
theorem C32_eliminates (ord : List Term → List Term) (hord : TermSetOrder ord) (q : Quant) (vs : List Term)
    (hvs : ∀ t ∈ vs, ∃ v, t = Term.var v) (f g : Formula) (h : exSimpF ord (.quant q vs f) = .ok g) :
    match q with
    | .forall => ∃ f', exSimpF ord f = .ok f' ∧ g = .quant .forall vs f'
    | .exists => ∃ ws cs, (ws = [] ∧ g = land cs true ∨ ws ≠ [] ∧ g = .quant .exists ws (land cs true)) ∧ ws.Nodup ∧ (∀ w ∈ ws, w ∈ vs) ∧
        ∀ a b, .atom (.cmp .eq) [a, b] ∈ cs → a ∉ ws ∧ b ∉ ws := by
  simp only [exSimpF] at h
  cases h1 : exSimpF ord f with
  | error e => simp [h1] at h
  | ok f' =>
    simp only [h1, exSimpTs_vars ord vs hvs] at h
    cases q with
    | «forall» => simp only [Except.ok.injEq] at h; exact ⟨f', rfl, h.symm⟩
    | «exists» => exact exNode_shape ord hord vs f' g h

/-! ### Refutations -/

/-- The simplifier, with any set order, returns a formula that is not equivalent to its input. -/
def ExChangesMeaning (f : Formula) : Prop :=
  VarBindersF f ∧ ∃ I : Interp Bool, EqInterp I ∧ ∀ ord, TermSetOrder ord →
    ∃ g σ, exSimpF ord f = .ok g ∧ SortedFor I f σ ∧ ¬ (Sat I g σ ↔ Sat I f σ)

theorem exChanges_full {f : Formula} (h : ExChangesMeaning f) : ¬ C32_full := by
  obtain ⟨hv, I, hI, h⟩ := h
  intro hf
  obtain ⟨g, σ, hg, hσ, hn⟩ := h id (fun l => .refl l)
  exact hn (hf id (fun l => .refl l) f g hv hg Bool I hI σ hσ)

/-- Interpretation over the booleans with a given extension for the predicates and sorts; `f` is negation and the
constant `c` is `false`. -/
def boolInterp (P : String → List Bool → Prop) (S : String → Bool → Prop) : Interp Bool where
  const _ _ := false
  fn _ l := !(l.headD false)
  pred p l := match p with
    | .cmp .eq => l.getD 0 false = l.getD 1 false
    | .cmp _ => False
    | .user n => P n l
  sort := S

theorem boolInterp_eq (P S) : EqInterp (boolInterp P S) := by intro a b; simp [boolInterp]

/-- The variables `x`, `y`, `z` of sort `s`. -/
def exVX : Var := ⟨"x", "s"⟩
def exVY : Var := ⟨"y", "s"⟩
def exVZ : Var := ⟨"z", "s"⟩

theorem setOrder_singleton {ord} (h : TermSetOrder ord) (x : Term) : ord [x] = [x] := List.perm_singleton.1 (h [x])

/-- The code turns `exists x. p(x) | q(x)` into `exists x. T` (`unwrap_conjunction_or_atom` returns no conjunct for a
disjunction, nor for a negation or a quantified formula; formulas.py:290-296). -/
theorem C32_shape_refuted : ExChangesMeaning
    (.quant .exists [.var exVX] (.comp .tuple .or [.atom (.user "p") [.var exVX], .atom (.user "q") [.var exVX]])) := by
  refine ⟨by simp [VarBindersF, VarBindersFs, VarBindersTs, VarBindersT], boolInterp (fun _ _ => False) (fun _ _ => True), boolInterp_eq _ _, fun ord hord => ?_⟩
  refine ⟨.quant .exists [.var exVX] .top, fun _ => false, ?_, fun v _ => trivial, ?_⟩
  · simp [exSimpF, exSimpFs, exSimpTs, exSimpT, exNode, addAll, setAdd, flatten, flattenAux, flattenAuxs, unwrapConjunctionOrAtom,
      exLoop, exAttempt, exScan, enumFilter, land, quantified, setOrder_singleton hord]
  · simp [Sat, SatAny, quantBlock, boolInterp]

/-- The code turns `exists z, x. z = z & x = c & p(x)` into `exists z. c = c`: removing the `z = z` atom shifts the
indices, and the wrong conjunct is dropped (simplify.py:273, 280). -/
theorem C32_index_refuted : ExChangesMeaning
    (.quant .exists [.var exVZ, .var exVX] (.comp .tuple .and [.atom (.cmp .eq) [.var exVZ, .var exVZ],
      .atom (.cmp .eq) [.var exVX, .const (.str "c") "s"], .atom (.user "p") [.var exVX]])) := by
  refine ⟨by simp [VarBindersF, VarBindersFs, VarBindersTs, VarBindersT], boolInterp (fun _ _ => False) (fun _ _ => True), boolInterp_eq _ _, fun ord hord => ?_⟩
  refine ⟨.quant .exists [.var exVZ] (.atom (.cmp .eq) [.const (.str "c") "s", .const (.str "c") "s"]), fun _ => false, ?_,
    fun v _ => trivial, ?_⟩
  · simp [exSimpF, exSimpFs, exSimpTs, exSimpT, exNode, addAll, setAdd, flatten, flattenAux, flattenAuxs, unwrapConjunctionOrAtom,
      exLoop, exAttempt, exScan, enumFilter, land, createCompound, quantified, setOrder_singleton hord, exVX, exVZ, subF, subTs, subT,
      Subst.visit, Subst.get?]
  · simp [Sat, SatAll, quantBlock, boolInterp, evalTs, evalT]

/-- The code turns `exists x. x = f(x) & p(x)` into `p(f(x))`, with `x` free: there is no occurs check. -/
theorem C32_occurs_refuted : ExChangesMeaning
    (.quant .exists [.var exVX] (.comp .tuple .and [.atom (.cmp .eq) [.var exVX, .app "f" [.var exVX]], .atom (.user "p") [.var exVX]])) := by
  refine ⟨by simp [VarBindersF, VarBindersFs, VarBindersTs, VarBindersT], boolInterp (fun _ _ => True) (fun _ _ => True), boolInterp_eq _ _, fun ord hord => ?_⟩
  refine ⟨.atom (.user "p") [.app "f" [.var exVX]], fun _ => false, ?_, fun v _ => trivial, ?_⟩
  · simp [exSimpF, exSimpFs, exSimpTs, exSimpT, exNode, addAll, setAdd, flatten, flattenAux, flattenAuxs, unwrapConjunctionOrAtom,
      exLoop, exAttempt, exScan, enumFilter, land, createCompound, exVX, subF, subTs, subT, Subst.visit, Subst.get?]
  · simp [Sat, SatAll, quantBlock, boolInterp, evalTs, evalT, Asg.set]

/-- The code turns `exists x. x = c & p(x)` into `p(c)` also when `c` does not belong to the sort of `x`. -/
theorem C32_sort_refuted : ExChangesMeaning
    (.quant .exists [.var exVX] (.comp .tuple .and [.atom (.cmp .eq) [.var exVX, .const (.str "c") "t"], .atom (.user "p") [.var exVX]])) := by
  refine ⟨by simp [VarBindersF, VarBindersFs, VarBindersTs, VarBindersT], boolInterp (fun _ _ => True) (fun s b => s = "s" → b = true), boolInterp_eq _ _, fun ord hord => ?_⟩
  refine ⟨.atom (.user "p") [.const (.str "c") "t"], fun _ => true, ?_, fun v _ => by simp [boolInterp], ?_⟩
  · simp [exSimpF, exSimpFs, exSimpTs, exSimpT, exNode, addAll, setAdd, flatten, flattenAux, flattenAuxs, unwrapConjunctionOrAtom,
      exLoop, exAttempt, exScan, enumFilter, land, createCompound, exVX, subF, subTs, subT, Subst.visit, Subst.get?]
  · simp [Sat, SatAll, quantBlock, boolInterp, evalTs, evalT, Asg.set, exVX]

/-- The code turns `exists x. x = y & forall y. p(x, y)` into `forall y. p(y, y)`: `y` is captured. -/
theorem C32_capture_refuted : ExChangesMeaning
    (.quant .exists [.var exVX] (.comp .tuple .and [.atom (.cmp .eq) [.var exVX, .var exVY],
      .quant .forall [.var exVY] (.atom (.user "p") [.var exVX, .var exVY])])) := by
  refine ⟨by simp [VarBindersF, VarBindersFs, VarBindersTs, VarBindersT], boolInterp (fun _ l => l.getD 0 false = l.getD 1 false) (fun _ _ => True), boolInterp_eq _ _, fun ord hord => ?_⟩
  refine ⟨.quant .forall [.var exVY] (.atom (.user "p") [.var exVY, .var exVY]), fun _ => true, ?_, fun v _ => trivial, ?_⟩
  · simp [exSimpF, exSimpFs, exSimpTs, exSimpT, exNode, addAll, setAdd, flatten, flattenAux, flattenAuxs, unwrapConjunctionOrAtom,
      exLoop, exAttempt, exScan, enumFilter, land, createCompound, exVX, exVY, subF, subTs, subT, Subst.visit, Subst.get?]
  · simp [Sat, SatAll, quantBlock, boolInterp, evalTs, evalT, Asg.set, exVX, exVY]

/-- The code violates C32. -/
theorem C32_refuted : ¬ C32_full := exChanges_full C32_shape_refuted

/-! ### Non-vacuity -/

/-- `exists x, z. x = f(c) & z = y & p(x, z)` becomes `p(f(c), y)`, and meets the hypotheses of `C32_conjunctive_partial`
(in an interpretation where `p` is inequality, both sides are true or false depending on `y`). -/
def exPlainVs : List Term := [.var exVX, .var exVZ]
def exPlainBody : Formula := .comp .tuple .and [.atom (.cmp .eq) [.var exVX, .app "f" [.const (.str "c") "s"]],
  .comp .tuple .and [.atom (.cmp .eq) [.var exVY, .var exVZ], .atom (.user "p") [.var exVX, .var exVZ]]]

example : exNode id exPlainVs exPlainBody = .ok (.atom (.user "p") [.app "f" [.const (.str "c") "s"], .var exVY]) ∧
    TermSetOrder id ∧ (∀ t ∈ exPlainVs, ∃ v, t = Term.var v) ∧ isAnd exPlainBody = true ∧
    ∀ P, PlainConjuncts (boolInterp P (fun _ _ => True)) (addAll [] exPlainVs) (unwrapConjunctionOrAtom (flatten exPlainBody)) ∧
      ∀ σ, SortedFor (boolInterp P (fun _ _ => True)) (.quant .exists exPlainVs exPlainBody) σ := by
  refine ⟨?_, fun l => .refl l, by simp [exPlainVs], rfl, fun P => ⟨?_, fun σ v _ => trivial⟩⟩
  · simp [exPlainVs, exPlainBody, exNode, addAll, setAdd, flatten, flattenAux, flattenAuxs, unwrapConjunctionOrAtom,
      exLoop, exAttempt, exScan, enumFilter, land, createCompound, exVX, exVY, exVZ, subF, subTs, subT, Subst.visit, Subst.get?]
  · intro c hc
    simp only [exPlainBody, flatten, flattenAux, flattenAuxs, unwrapConjunctionOrAtom, if_true, List.append_nil, List.cons_append, List.nil_append, List.mem_cons,
      List.not_mem_nil, or_false] at hc
    rcases hc with rfl | rfl | rfl
    · refine ⟨by simp [VarBindersF, VarBindersTs, VarBindersT], by simp [BoundF, BoundTs, BoundT], fun a b he => ?_⟩
      simp only [Formula.atom.injEq, List.cons.injEq, and_true, true_and] at he
      obtain ⟨rfl, rfl⟩ := he
      refine ⟨fun v hv hm => ⟨by simp [NoIteT, NoIteTs], by simp [FreeT, FreeTs], fun _ _ => trivial⟩, fun v hv => by simp at hv⟩
    · refine ⟨by simp [VarBindersF, VarBindersTs, VarBindersT], by simp [BoundF, BoundTs, BoundT], fun a b he => ?_⟩
      simp only [Formula.atom.injEq, List.cons.injEq, and_true, true_and] at he
      obtain ⟨rfl, rfl⟩ := he
      refine ⟨fun v hv hm => ?_, fun v hv hm => ⟨by simp [NoIteT], by simp [FreeT, addAll, setAdd, exPlainVs, exVX, exVY, exVZ], fun _ _ => trivial⟩⟩
      simp only [Term.var.injEq] at hv; subst hv
      simp [exPlainVs, addAll, setAdd, exVX, exVY, exVZ] at hm
    · exact ⟨by simp [VarBindersF, VarBindersTs, VarBindersT], by simp [BoundF, BoundTs, BoundT], fun a b he => by simp at he⟩

/-- `forall y. exists x, z. x = z & p(x, z, y)`, with an equation between quantified variables, becomes
`forall y. exists x. p(x, x, y)` and meets the hypotheses of `C32_equiv_partial`. -/
def exNestBody : Formula := .comp .tuple .and [.atom (.cmp .eq) [.var exVX, .var exVZ], .atom (.user "p") [.var exVX, .var exVZ, .var exVY]]

theorem exNest_run (P) : ExRunOK (boolInterp P (fun _ _ => True)) (addAll [] exPlainVs)
    (unwrapConjunctionOrAtom (flatten (.comp .list .and [.atom (.cmp .eq) [.var exVX, .var exVZ], .atom (.user "p") [.var exVX, .var exVZ, .var exVY]]))) := by
  intro ys ds hr
  cases hr with
  | refl =>
    intro r v t h
    simp [exPlainVs, addAll, setAdd, flatten, flattenAux, flattenAuxs, unwrapConjunctionOrAtom, exScan, exVX, exVZ, exVY] at h
    obtain ⟨rfl, rfl, rfl⟩ := h
    refine ⟨by simp [exPlainVs, addAll, setAdd, flatten, flattenAux, flattenAuxs, unwrapConjunctionOrAtom, exScan, exVX, exVZ, exVY],
      by simp [FreeT], fun _ _ => trivial, ?_⟩
    simp [flatten, flattenAux, flattenAuxs, unwrapConjunctionOrAtom, VarBindersF, VarBindersTs, VarBindersT, BoundF, BoundTs, BoundT]
  | step hgo hr =>
    simp [exPlainVs, addAll, setAdd, flatten, flattenAux, flattenAuxs, unwrapConjunctionOrAtom, exAttempt, exScan, exVX, exVZ, exVY, enumFilter,
      subF, subTs, subT, Subst.visit, Subst.get?] at hr
    cases hr with
    | refl => intro r v t h; simp [exScan] at h
    | step hgo hr => simp [exAttempt, exScan] at hgo

example : exSimpF id (.quant .forall [.var exVY] (.quant .exists exPlainVs exNestBody)) =
      .ok (.quant .forall [.var exVY] (.quant .exists [.var exVX] (.atom (.user "p") [.var exVX, .var exVX, .var exVY]))) ∧
    ∀ P, ExOKF (boolInterp P (fun _ _ => True)) id (.quant .forall [.var exVY] (.quant .exists exPlainVs exNestBody)) := by
  have hb : exSimpF id exNestBody = .ok (.comp .list .and [.atom (.cmp .eq) [.var exVX, .var exVZ],
      .atom (.user "p") [.var exVX, .var exVZ, .var exVY]]) := by
    simp [exNestBody, exSimpF, exSimpFs, exSimpTs, exSimpT]
  refine ⟨?_, fun P => ?_⟩
  · simp [exSimpF, hb, exPlainVs, exSimpTs, exSimpT, exNode, addAll, setAdd, flatten, flattenAux, flattenAuxs, unwrapConjunctionOrAtom,
      exLoop, exAttempt, exScan, enumFilter, land, createCompound, exVX, exVY, exVZ, subF, subTs, subT, Subst.visit, Subst.get?, quantified]
  · refine ⟨by simp, by simp [exPlainVs], by simp [exNestBody, ExOKF, ExOKFs, ExOKTs, ExOKT], fun f' hf' => ?_⟩
    rw [hb] at hf'
    simp only [Except.ok.injEq] at hf'
    subst hf'
    exact ⟨.inr rfl, exNest_run P⟩

end Tarski

import Verif.SimplifyEffects
/-! C31: static simplification preserves truth, applicability and successor states. -/
namespace Tarski

/-- `Simplify(problem, problem.init)` (simplify.py:53-58) for a problem over a language whose non-builtin symbols are
`syms`, with initial state `m0` and the given actions. -/
def simplifierOf (L : MLang) (m0 : MState) (syms : List Sym) (acts : List Schema) : Except Err Simplifier :=
  match staticSymbols syms (acts.flatMap (·.effs)) with
  | .error e => .error e
  | .ok st => .ok ⟨L, some m0, some st⟩

theorem simplifierOf_static {L m0 syms acts C} (h : simplifierOf L m0 syms acts = .ok C) :
    C.L = L ∧ C.model = some m0 ∧ ∀ x, C.isStatic x = true → ∀ a ∈ acts, ∀ e ∈ a.effs, ¬ e.Writes x := by
  simp only [simplifierOf] at h
  cases hst : staticSymbols syms (acts.flatMap (·.effs)) with
  | error e => simp [hst] at h
  | ok st =>
    simp only [hst, Except.ok.injEq] at h
    subst h
    refine ⟨rfl, rfl, fun x hx a ha e he hw => ?_⟩
    simp only [staticSymbols] at hst
    split at hst
    · simp at hst
    · rename_i ps fs haff
      have hsp := affectedEs_spec _ _ _ haff
      simp only [Except.ok.injEq] at hst
      subst hst
      simp only [Simplifier.isStatic, List.contains_eq_mem, decide_eq_true_eq, List.mem_filter] at hx
      have hwa : WritesAny x (acts.flatMap (·.effs)) := writesAny_iff.2 ⟨e, List.mem_flatMap.2 ⟨a, ha, he⟩, hw⟩
      cases x with
      | pred p => simp [(hsp.1 p).2 hwa] at hx
      | fn f => simp [(hsp.2 f).2 hwa] at hx

/-! ### Truth -/

/-- C31: full statement, for Tarskian truth in any state that agrees with the model of the simplifier on the static
symbols. -/
def C31_full : Prop := ∀ (C : Simplifier) (m : MState), C.Agrees m → ∀ (I : Interp Const), Describes C.L m I →
  ∀ (f : Formula) (r : Simp), FormulaOK (fun _ => True) f → C.formula f = .ok r → ∀ σ, SimpSat I σ r ↔ Sat I f σ

/-- C31, when the sorts of all quantified variables are non-empty (missing: quantification over empty sorts). -/
theorem C31_truth_partial (C : Simplifier) (m : MState) (ha : C.Agrees m) (I : Interp Const) (hI : Describes C.L m I)
    (f : Formula) (r : Simp) (hf : FormulaOK (fun _ => True) f) (hne : ∀ v, BoundF v f → ∃ d, I.sort v.sort d)
    (h : C.formula f = .ok r) (σ : Asg Const) : SimpSat I σ r ↔ Sat I f σ :=
  simpF_sem ha hI f r hf hne h σ

/-- The code violates C31: `exists x. T` becomes True and `forall x. F` becomes False also when the sort of `x` is
empty (simplify.py:165-168). -/
theorem C31_refuted : ¬ C31_full := by
  intro h
  let C : Simplifier := ⟨exLang, some .empty, some []⟩
  let I : Interp Const := { interpOf exLang .empty with sort := fun _ _ => False }
  have hI : Describes exLang .empty I := by
    have := interpOf_describes exLang .empty
    exact ⟨this.const, this.pred, this.fn, this.cmp, this.add, this.sub, this.mul, this.mod⟩
  have := (h C .empty (fun m0 hm x hx => by simp [Simplifier.isStatic, C] at hx) I hI
    (.quant .exists [.var ⟨"x", "block"⟩] .top) (.bool true) (by simp [FormulaOK])
    (by simp [Simplifier.formula]) (fun _ => default)).1 rfl
  simp only [Sat, quantBlock] at this
  obtain ⟨d, hd, _⟩ := this
  exact hd

/-- C31: a term simplifies to a term with the same value. -/
theorem C31_term (C : Simplifier) (m : MState) (ha : C.Agrees m) (I : Interp Const) (hI : Describes C.L m I)
    (t t' : Term) (h : C.term t = .ok t') (σ : Asg Const) : evalT I t' σ = evalT I t σ :=
  simpT_sem ha hI σ t t' h

/-- C31 for `evaluate`: whenever evaluating (an instance of) the formula returns a value, the simplified formula is that
bool, or (the same instance of) it evaluates to that value. -/
theorem C31_evaluate (C : Simplifier) (m : MState) (ha : C.Agrees m) (s : Subst) (hk : KeysVar s) (hv : ValsConst s)
    (f : Formula) (r : Simp) (h : C.formula f = .ok r) (b : Bool) (he : evFormula C.L m noSigma (subF s f) = .ok b) :
    r = .bool b ∨ ∃ g, r = .form g ∧ evFormula C.L m noSigma (subF s g) = .ok b := by
  have := simpF_ev ha (ss := [s]) (by simp [GoodS, hk, hv]) f r h b he
  cases r with
  | bool b0 => simp only [SimpEv] at this; exact .inl (by rw [this])
  | form g => exact .inr ⟨g, rfl, this⟩

/-! ### Shape -/

/-- C31: the result is a bool or a formula without truth constants, double negations, unary connectives, and with no
atom or term left that could be evaluated statically. -/
theorem C31_shape (C : Simplifier) (f g : Formula) (h : C.formula f = .ok (.form g)) : SimplifiedF C g :=
  formula_simplified f _ h

/-- C31: simplifying twice is simplifying once. -/
theorem C31_idempotent (C : Simplifier) (f g : Formula) (h : C.formula f = .ok (.form g)) : C.formula g = .ok (.form g) :=
  simplified_formula g (formula_simplified f _ h)

mutual
/-- Negations have a subformula; all terms are variables or constants; comparisons are `=` or `!=` with two arguments. -/
def PlainF : Formula → Prop
  | .top => True
  | .bot => True
  | .atom (.cmp c) ts => (c = .eq ∨ c = .ne) ∧ ts.length = 2 ∧ ∀ t ∈ ts, (∃ v, t = Term.var v) ∨ ∃ n s, t = Term.const n s
  | .atom (.user _) ts => ∀ t ∈ ts, (∃ v, t = Term.var v) ∨ ∃ n s, t = Term.const n s
  | .comp _ .not fs => fs.length = 1 ∧ PlainFs fs
  | .comp _ _ fs => PlainFs fs
  | .quant _ _ f => PlainF f
def PlainFs : List Formula → Prop
  | [] => True
  | f :: fs => PlainF f ∧ PlainFs fs
end

theorem plain_terms {C : Simplifier} : ∀ {ts : List Term}, (∀ t ∈ ts, (∃ v, t = Term.var v) ∨ ∃ n s, t = Term.const n s) →
    C.terms ts = .ok ts
  | [], _ => by simp [Simplifier.terms]
  | t :: ts, hf => by
    have ht : C.term t = .ok t := by
      rcases hf t (by simp) with ⟨v, rfl⟩ | ⟨n, s, rfl⟩ <;> simp [Simplifier.term]
    have ih := plain_terms (C := C) (ts := ts) (fun t h => hf t (by simp [h]))
    simp [Simplifier.terms, ht, ih]

mutual
theorem plain_returns (C : Simplifier) : ∀ (f : Formula), PlainF f → ∃ r, C.formula f = .ok r
  | .top, _ => ⟨.bool true, by simp [Simplifier.formula]⟩
  | .bot, _ => ⟨.bool false, by simp [Simplifier.formula]⟩
  | .atom p ts, h => by
    have hts : ∀ t ∈ ts, (∃ v, t = Term.var v) ∨ ∃ n s, t = Term.const n s := by
      cases p with
      | cmp c => simp only [PlainF] at h; exact h.2.2
      | user p => simpa only [PlainF] using h
    simp only [Simplifier.formula, plain_terms hts, Simplifier.finishA]
    cases C.model with
    | none => exact ⟨_, rfl⟩
    | some m =>
      simp only
      split
      · rename_i hc
        simp only [Bool.and_eq_true] at hc
        obtain ⟨cs, hcs⟩ := allConst_ev C.L hc.2
        cases p with
        | user p => exact ⟨_, by simp [evFormula, hcs]; rfl⟩
        | cmp c =>
          simp only [PlainF] at h
          have hl : cs.length = 2 := by
            have := evTerms_len (hcs m noSigma .eval)
            rw [this, h.2.1]
          match cs, hl with
          | [a, b], _ =>
            rcases h.1 with rfl | rfl <;> exact ⟨_, by simp [evFormula, hcs, cmpNames]; rfl⟩
      · exact ⟨_, rfl⟩
  | .comp _ .not [], h => by simp [PlainF] at h
  | .comp _ .not (f :: fs), h => by
    simp only [PlainF, PlainFs] at h
    obtain ⟨r, hr⟩ := plain_returns C f h.2.1
    simp only [Simplifier.formula, hr]
    have hn := formula_simplified f r hr
    cases r with
    | bool b => exact ⟨_, rfl⟩
    | form g =>
      cases g with
      | comp k c gs =>
        cases c with
        | not =>
          simp only [SimpNormal, SimplifiedF] at hn
          obtain ⟨g, rfl, _⟩ := hn.2.1 trivial
          exact ⟨_, rfl⟩
        | and => exact ⟨_, rfl⟩
        | or => exact ⟨_, rfl⟩
      | _ => exact ⟨_, rfl⟩
  | .comp _ .and fs, h => by
    simp only [PlainF] at h
    obtain ⟨r, hr⟩ := plain_loop C true fs h
    simp only [Simplifier.formula, hr]; exact ⟨_, rfl⟩
  | .comp _ .or fs, h => by
    simp only [PlainF] at h
    obtain ⟨r, hr⟩ := plain_loop C false fs h
    simp only [Simplifier.formula, hr]; exact ⟨_, rfl⟩
  | .quant q vs f, h => by
    simp only [PlainF] at h
    obtain ⟨r, hr⟩ := plain_returns C f h
    simp only [Simplifier.formula, hr]
    cases r <;> exact ⟨_, rfl⟩
theorem plain_loop (C : Simplifier) (isand : Bool) : ∀ (fs : List Formula), PlainFs fs → ∃ r, C.loop isand fs = .ok r
  | [], _ => ⟨some [], by simp [Simplifier.loop]⟩
  | f :: fs, h => by
    simp only [PlainFs] at h
    obtain ⟨r, hr⟩ := plain_returns C f h.1
    obtain ⟨o, ho⟩ := plain_loop C isand fs h.2
    simp only [Simplifier.loop, hr]
    cases r with
    | bool b => simp only; split; exact ⟨o, ho⟩; exact ⟨_, rfl⟩
    | form g => simp only [ho]; cases o <;> exact ⟨_, rfl⟩
theorem evTerms_len {L m σ md} : ∀ {ts : List Term} {cs}, evTerms L m σ md ts = .ok cs → cs.length = ts.length
  | [], cs, h => by simp only [evTerms, Except.ok.injEq] at h; subst h; rfl
  | t :: ts, cs, h => by
    simp only [evTerms] at h
    split at h
    · simp at h
    · split at h
      · simp at h
      · rename_i cs' hcs
        simp only [Except.ok.injEq] at h; subst h
        simp [evTerms_len hcs]
end

/-- C31: function-free formulas with `=` and `!=` can always be simplified. -/
theorem C31_returns (C : Simplifier) (f : Formula) (h : PlainF f) : ∃ r, C.formula f = .ok r := plain_returns C f h

/-! ### Actions and plans -/

/-- What `simplify_action` does to an action, in the states that agree with the initial state on the static symbols.
If the action is dropped, executing it never changes the state; otherwise the simplified action has the same
applicability and the same successor states. -/
theorem simp_step {C : Simplifier} {dom : Domains} (hd : ConstDoms dom) {a : Schema} (hflat : FlatAtomss a.effs)
    (hw : ∀ x, C.isStatic x = true → ∀ e ∈ a.effs, ¬ e.Writes x) {s : Subst} (hk : KeysVar s) (hv : ValsConst s)
    {o : Operator} (ho : groundSchema a s = .ok o) {m : MState} (ha : C.Agrees m) {oa} (h : C.action a = .ok oa) :
    (∀ m', progress C.L dom m o.effs = .ok m' → C.Agrees m') ∧
    match oa with
    | none => isApplicable C.L m o = .ok true → ∀ m', progress C.L dom m o.effs = .ok m' → m' = m
    | some a' => (∀ b, isApplicable C.L m o = .ok b → a'.pre = .bool b ∨ ∃ g, a'.pre = .form g) ∧
        ∀ g, a'.pre = .form g → ∃ o', groundSSchema a' s = .ok o' ∧
        (∀ b, isApplicable C.L m o = .ok b → isApplicable C.L m o' = .ok b) ∧
        (∀ m', progress C.L dom m o.effs = .ok m' → progress C.L dom m o'.effs = .ok m') := by
  simp only [groundSchema] at ho
  cases hcb : checkBinding s a.params with
  | error e => simp [hcb] at ho
  | ok u =>
    cases hcn : checkNames s a.params with
    | error e => simp [hcb, hcn] at ho
    | ok u' =>
      simp only [hcb, hcn, Except.ok.injEq] at ho
      subst ho
      have hgood : ∀ t ∈ [s], GoodS t := by simp [GoodS, hk, hv]
      have hpre : ∀ {r b}, C.formula a.pre = .ok r → isApplicable C.L m ⟨flatten (subF s a.pre), subEs s a.effs⟩ = .ok b →
          SimpEv C.L m [s] b r := by
        intro r b hr hb
        simp only [isApplicable, evFormula_flatten] at hb
        exact simpF_ev ha hgood a.pre r hr b hb
      have hws : ∀ x, C.isStatic x = true → ¬ WritesAny x (delsFirst a.effs) := by
        intro x hx hh
        obtain ⟨e, he, hwe⟩ := writesAny_iff.1 hh
        exact hw x hx e (mem_delsFirst.1 he) hwe
      have hfl : FlatAtomss (delsFirst a.effs) :=
        flatAtomss_iff.2 (fun e he => flatAtomss_iff.1 hflat e (mem_delsFirst.1 he))
      have hprog : ∀ es', C.effects a.effs = .ok es' → ∀ m', progress C.L dom m (subEs s a.effs) = .ok m' →
          progress C.L dom m (subEs s es') = .ok m' := by
        intro es' hes m' hm'
        simp only [progress, subEs_eq_map, delsFirst_map_subE, seqApply_map] at hm' ⊢
        exact (simpEs_apply hd _ _ (effects_delsFirst hes) hfl hws [s] hgood m m' ha hm').1
      refine ⟨?_, ?_⟩
      · intro m' hm' m0 hm0 x hx
        refine SameOn.trans (SameOn.symm ?_) (ha m0 hm0 x hx)
        refine seqApply_rel (fun a b => SameOn C.L a b x) (fun m => SameOn.refl ..) (fun a b c => SameOn.trans)
            (fun e he' => apply_frame C.L dom x e ?_) m m' hm'
        rw [mem_delsFirst, subEs_eq_map, List.mem_map] at he'
        obtain ⟨e0, he0, rfl⟩ := he'
        rw [writes_subE]
        exact hw x hx e0 he0
      · simp only [Simplifier.action] at h
        cases hr : C.formula a.pre with
        | error e => simp [hr] at h
        | ok r =>
          by_cases hrf : r = .bool false
          · subst hrf
            simp only [hr, Except.ok.injEq] at h
            subst h
            intro happ
            have := hpre hr happ
            simp [SimpEv] at this
          · have h' : (match C.effects a.effs with
                | .error e => (.error e : Except Err (Option SSchema))
                | .ok [] => .ok none
                | .ok es => .ok (some ⟨a.params, r, es⟩)) = .ok oa := by
              rw [hr] at h
              cases r with
              | form f => exact h
              | bool b => cases b <;> first | exact h | exact absurd rfl hrf
            cases hes : C.effects a.effs with
            | error e => simp [hes] at h'
            | ok es =>
              cases es with
              | nil =>
                simp only [hes, Except.ok.injEq] at h'
                subst h'
                intro _ m' hm'
                have := hprog _ hes m' hm'
                simp only [subEs, progress, delsFirst, List.filter_nil, List.append_nil, seqApply, Except.ok.injEq] at this
                exact this.symm
              | cons e es =>
                simp only [hes, Except.ok.injEq] at h'
                subst h'
                refine ⟨?_, ?_⟩
                · intro b hb
                  have := hpre hr hb
                  cases r with
                  | bool b0 => simp only [SimpEv] at this; exact .inl (by rw [this])
                  | form g => exact .inr ⟨g, rfl⟩
                · rintro g hg
                  simp only at hg
                  subst hg
                  refine ⟨⟨flatten (subF s g), subEs s (e :: es)⟩, ?_, ?_, ?_⟩
                  · simp [groundSSchema, groundSchema, hcb, hcn]
                  · intro b hb
                    have := hpre hr hb
                    simp only [SimpEv] at this
                    simp only [isApplicable, evFormula_flatten]
                    exact this
                  · exact hprog _ hes

/-- The operators of a plan (a list of actions and bindings) after simplification: the steps of dropped actions are
left out. -/
def simpOps (C : Simplifier) : List (Schema × Subst) → Except Err (List Operator)
  | [] => .ok []
  | (a, s) :: rest => match C.action a with
    | .error e => .error e
    | .ok none => simpOps C rest
    | .ok (some a') => match groundSSchema a' s with
      | .error e => .error e
      | .ok o => match simpOps C rest with
        | .error e => .error e
        | .ok os => .ok (o :: os)

/-- The operators of a plan of the original problem. -/
def planOps : List (Schema × Subst) → Except Err (List Operator)
  | [] => .ok []
  | (a, s) :: rest => match groundSchema a s with
    | .error e => .error e
    | .ok o => match planOps rest with
      | .error e => .error e
      | .ok os => .ok (o :: os)

theorem action_shape {C : Simplifier} {a a'} (h : C.action a = .ok (some a')) :
    a'.params = a.params ∧ (a'.pre ≠ .bool true → ∃ g, a'.pre = .form g) := by
  simp only [Simplifier.action] at h
  split at h
  · simp at h
  · simp at h
  · rename_i r hr1 hr2
    split at h
    · simp at h
    · simp at h
    · simp only [Except.ok.injEq, Option.some.injEq] at h
      subst h
      refine ⟨rfl, fun hne => ?_⟩
      cases r with
      | form g => exact ⟨g, rfl⟩
      | bool b => cases b <;> simp_all

theorem simpOps_returns {C : Simplifier} {plan : List (Schema × Subst)}
    (h : ∀ st ∈ plan, ∃ oa, C.action st.1 = .ok oa ∧ ∀ a', oa = some a' → a'.pre ≠ .bool true) {ops}
    (hops : planOps plan = .ok ops) : ∃ os', simpOps C plan = .ok os' := by
  induction plan generalizing ops with
  | nil => exact ⟨[], rfl⟩
  | cons st plan ih =>
    obtain ⟨a, s⟩ := st
    simp only [planOps] at hops
    cases ho : groundSchema a s with
    | error e => simp [ho] at hops
    | ok o =>
      cases hos : planOps plan with
      | error e => simp [ho, hos] at hops
      | ok os =>
        obtain ⟨os', hos'⟩ := ih (fun st hst => h st (by simp [hst])) hos
        obtain ⟨oa, hoa, hnb⟩ := h (a, s) (by simp)
        simp only at hoa
        cases oa with
        | none => exact ⟨os', by simp [simpOps, hoa, hos']⟩
        | some a' =>
          obtain ⟨hp, hg⟩ := action_shape hoa
          obtain ⟨g, hg⟩ := hg (hnb a' rfl)
          have : ∃ o', groundSSchema a' s = .ok o' := by
            simp only [groundSchema] at ho
            cases hcb : checkBinding s a.params with
            | error e => simp [hcb] at ho
            | ok u =>
              cases hcn : checkNames s a.params with
              | error e => simp [hcb, hcn] at ho
              | ok u' => simp [groundSSchema, hg, groundSchema, hp, hcb, hcn]
          obtain ⟨o', ho'⟩ := this
          exact ⟨o' :: os', by simp [simpOps, hoa, ho', hos']⟩

/-- C31 for plans, full statement: executing a plan of the original problem and the corresponding plan of the simplified
problem leads to the same state; if no step has been dropped, the outcome (the final state, or a step that is not
applicable) is the same. The goal has the same value in the final state. -/
def C31_plan_full (noBools : Bool) : Prop :=
  ∀ (L : MLang) (dom : Domains) (m0 : MState) (syms : List Sym) (acts : List Schema) (C : Simplifier),
    ConstDoms dom → simplifierOf L m0 syms acts = .ok C → (∀ a ∈ acts, FlatAtomss a.effs) →
    ∀ (plan : List (Schema × Subst)), (∀ st ∈ plan, st.1 ∈ acts ∧ KeysVar st.2 ∧ ValsConst st.2) →
    (∀ a ∈ acts, ∃ oa, C.action a = .ok oa ∧ (noBools = true → ∀ a', oa = some a' → a'.pre ≠ .bool true)) →
    ∀ ops, planOps plan = .ok ops → ∀ out, execPlan L dom m0 ops = .ok out →
    (out ≠ none ∨ ∀ st ∈ plan, C.action st.1 ≠ .ok none) →
    ∃ ops', simpOps C plan = .ok ops' ∧ execPlan L dom m0 ops' = .ok out ∧
      ∀ m', out = some m' → ∀ goal r b, C.formula goal = .ok r → evFormula L m' noSigma goal = .ok b →
        r = .bool b ∨ evSimp L m' r = .ok b

/-- C31 for plans, when no precondition simplifies to True (missing: that case, on which the code fails). -/
theorem C31_plan_partial : C31_plan_full true := by
  intro L dom m0 syms acts C hd hC hflat plan hplan hacts ops hops out hexec hdrop
  obtain ⟨rfl, hm0, hst⟩ := simplifierOf_static hC
  have ha0 : C.Agrees m0 := by
    intro m hm x _
    rw [hm0, Option.some.injEq] at hm; subst hm; exact SameOn.refl ..
  clear hC hm0
  suffices hmain : ∀ m, C.Agrees m → ∀ ops, planOps plan = .ok ops → ∀ out, execPlan C.L dom m ops = .ok out →
      (out ≠ none ∨ ∀ st ∈ plan, C.action st.1 ≠ .ok none) →
      ∃ ops', simpOps C plan = .ok ops' ∧ execPlan C.L dom m ops' = .ok out ∧ ∀ m', out = some m' → C.Agrees m' by
    obtain ⟨ops', h1, h2, h3⟩ := hmain m0 ha0 ops hops out hexec hdrop
    refine ⟨ops', h1, h2, fun m' hm' goal r b hr hb => ?_⟩
    have := simpF_ev (h3 m' hm') (ss := []) (by simp) goal r hr b hb
    cases r with
    | bool b0 => simp only [SimpEv] at this; exact .inl (by rw [this])
    | form g => exact .inr this
  clear hops hexec hdrop ha0
  induction plan with
  | nil =>
    intro m ha ops hops out hexec _
    simp only [planOps, Except.ok.injEq] at hops
    subst hops
    refine ⟨[], rfl, hexec, ?_⟩
    intro m' hm'
    simp only [execPlan, Except.ok.injEq] at hexec
    rw [hm', Option.some.injEq] at hexec
    rw [← hexec]; exact ha
  | cons st plan ih =>
    intro m ha ops hops out hexec hdrop
    obtain ⟨a, s⟩ := st
    obtain ⟨hmem, hk, hv⟩ := hplan (a, s) (by simp)
    have ih := ih (fun st h => hplan st (by simp [h]))
    simp only [planOps] at hops
    cases ho : groundSchema a s with
    | error e => simp [ho] at hops
    | ok o =>
      cases hos : planOps plan with
      | error e => simp [ho, hos] at hops
      | ok os =>
        simp only [ho, hos, Except.ok.injEq] at hops
        subst hops
        obtain ⟨oa, hoa, hnb⟩ := hacts a hmem
        obtain ⟨hagr, hstep⟩ := simp_step hd (hflat a hmem) (fun x hx => hst x hx a hmem) hk hv ho ha hoa
        have hdrop' : out ≠ none ∨ ∀ st ∈ plan, C.action st.1 ≠ .ok none :=
          hdrop.imp id (fun h st hst => h st (by simp [hst]))
        simp only [execPlan] at hexec
        cases happ : isApplicable C.L m o with
        | error e => simp [happ] at hexec
        | ok b =>
          simp only [happ] at hexec
          cases oa with
          | none =>
            simp only [simpOps, hoa]
            have hout : out ≠ none := hdrop.resolve_right (fun h => h (a, s) (by simp) hoa)
            cases b with
            | false => simp only [Except.ok.injEq] at hexec; exact absurd hexec.symm hout
            | true =>
              simp only at hexec
              cases hp : progress C.L dom m o.effs with
              | error e => simp [hp] at hexec
              | ok m1 =>
                simp only [hp] at hexec
                have := hstep happ m1 hp
                subst this
                exact ih m1 ha os hos out hexec hdrop'
          | some a' =>
            have hpre : ∃ g, a'.pre = .form g := (action_shape hoa).2 (hnb rfl a' rfl)
            obtain ⟨g, hg⟩ := hpre
            obtain ⟨o', ho', hsame, hprog⟩ := hstep.2 g hg
            have ho'2 := hsame b happ
            cases b with
            | false =>
              simp only [Except.ok.injEq] at hexec
              subst hexec
              have hall : ∀ st ∈ plan, C.action st.1 ≠ .ok none := hdrop'.resolve_left (by simp)
              obtain ⟨os', hos'⟩ := simpOps_returns (fun st h => by
                obtain ⟨oa, h1, h2⟩ := hacts st.1 (hplan st (by simp [h])).1
                exact ⟨oa, h1, h2 rfl⟩) hos
              refine ⟨o' :: os', by simp [simpOps, hoa, ho', hos'], by simp [execPlan, ho'2], by simp⟩
            | true =>
              simp only at hexec
              cases hp : progress C.L dom m o.effs with
              | error e => simp [hp] at hexec
              | ok m1 =>
                simp only [hp] at hexec
                obtain ⟨os', h1, h2, h3⟩ := ih m1 (hagr m1 hp) os hos out hexec hdrop'
                refine ⟨o' :: os', by simp [simpOps, hoa, ho', h1], ?_, h3⟩
                simp [execPlan, ho'2, hprog m1 hp, h2]


/-! ### Whole problems -/

theorem foldl_mul_start : ∀ (ds : List (List Term)) (k : Nat),
    (ds.map List.length).foldl (· * ·) k = k * (ds.map List.length).prod
  | [], k => by simp
  | d :: ds, k => by simp [foldl_mul_start ds, Nat.mul_assoc]

/-- The number of potential groundings is the number of substitutions for the parameters. -/
theorem numGroundings_spec {dom : Domains} {vs : List Var} {n : Nat} (h : numGroundings dom vs = .ok n) :
    ∃ ss, enumSubsts dom vs = .ok ss ∧ ss.length = n := by
  simp only [numGroundings] at h
  cases hd : domainsOf dom vs with
  | error e => simp [hd] at h
  | ok ds =>
    simp only [hd, Except.ok.injEq] at h
    refine ⟨(cart ds).map (createSubst (vs.map Term.var)), by simp only [enumSubsts, hd], ?_⟩
    rw [List.length_map, cart_length, ← h, foldl_mul_start, Nat.one_mul]

/-- C31, actions of the simplified problem: an action is kept (simplified), or dropped because it has no ground
instance or by `simplify_action`; the order is kept. -/
theorem C31_actions (C : Simplifier) (dom : Domains) : ∀ (acts : List (String × Schema)) (as : List (String × SSchema)),
    C.actions dom acts = .ok as →
    (∀ n a', (n, a') ∈ as → ∃ a, (n, a) ∈ acts ∧ C.action a = .ok (some a')) ∧
    (∀ n a, (n, a) ∈ acts → enumSubsts dom a.params = .ok [] ∨ C.action a = .ok none ∨
      ∃ a', C.action a = .ok (some a') ∧ (n, a') ∈ as) ∧
    (as.map Prod.fst).Sublist (acts.map Prod.fst)
  | [], as, h => by simp only [Simplifier.actions, Except.ok.injEq] at h; subst h; simp
  | (n, a) :: acts, as, h => by
    simp only [Simplifier.actions] at h
    cases hn : numGroundings dom a.params with
    | error e => simp [hn] at h
    | ok k =>
      obtain ⟨ss, hss, hlen⟩ := numGroundings_spec hn
      cases k with
      | zero =>
        simp only [hn] at h
        obtain ⟨h1, h2, h3⟩ := C31_actions C dom acts as h
        refine ⟨fun n' a' hm => ?_, fun n' a' hm => ?_, ?_⟩
        · obtain ⟨b, hb, hb'⟩ := h1 n' a' hm; exact ⟨b, by simp [hb], hb'⟩
        · rcases List.mem_cons.1 hm with he | hm
          · obtain ⟨rfl, rfl⟩ := Prod.mk.inj he
            left; rw [hss, List.length_eq_zero_iff.1 hlen]
          · exact h2 n' a' hm
        · simpa using h3.cons n
      | succ k =>
        simp only [hn] at h
        cases hc : C.action a with
        | error e => simp [hc] at h
        | ok oa =>
          simp only [hc] at h
          cases oa with
          | none =>
            simp only at h
            obtain ⟨h1, h2, h3⟩ := C31_actions C dom acts as h
            refine ⟨fun n' a' hm => ?_, fun n' a' hm => ?_, ?_⟩
            · obtain ⟨b, hb, hb'⟩ := h1 n' a' hm; exact ⟨b, by simp [hb], hb'⟩
            · rcases List.mem_cons.1 hm with he | hm
              · obtain ⟨rfl, rfl⟩ := Prod.mk.inj he
                right; left; exact hc
              · exact h2 n' a' hm
            · simpa using h3.cons n
          | some a1 =>
            simp only at h
            cases hr : C.actions dom acts with
            | error e => simp [hr] at h
            | ok as1 =>
              simp only [hr, Except.ok.injEq] at h
              subst h
              obtain ⟨h1, h2, h3⟩ := C31_actions C dom acts as1 hr
              refine ⟨fun n' a' hm => ?_, fun n' a' hm => ?_, ?_⟩
              · rcases List.mem_cons.1 hm with he | hm
                · obtain ⟨rfl, rfl⟩ := Prod.mk.inj he
                  exact ⟨a, by simp, hc⟩
                · obtain ⟨b, hb, hb'⟩ := h1 n' a' hm; exact ⟨b, by simp [hb], hb'⟩
              · rcases List.mem_cons.1 hm with he | hm
                · obtain ⟨rfl, rfl⟩ := Prod.mk.inj he
                  exact .inr (.inr ⟨a1, hc, by simp⟩)
                · rcases h2 n' a' hm with h | h | ⟨b, hb, hb'⟩
                  · exact .inl h
                  · exact .inr (.inl h)
                  · exact .inr (.inr ⟨b, hb, by simp [hb']⟩)
              · simpa using h3.cons_cons n

/-- The name of a symbol. -/
def Sym.name : Sym → String
  | .pred p => p
  | .fn f => f

theorem dlookup_ddelete_ne {α β} [DecidableEq α] (d : List (α × β)) {k k' : α} (h : k ≠ k') :
    dlookup (ddelete d k) k' = dlookup d k' := by
  induction d with
  | nil => rfl
  | cons kv d ih =>
    obtain ⟨k0, v⟩ := kv
    unfold ddelete at ih ⊢
    by_cases hk : k0 = k
    · subst hk
      rw [List.filter_cons_of_neg (by simp), ih]
      simp [dlookup, h]
    · rw [List.filter_cons_of_pos (by simpa using hk)]
      simp only [dlookup, ih]

theorem removeSymbol_same {L : MLang} {m : MState} {x y : Sym} (h : x.name ≠ y.name) :
    SameOn L (m.removeSymbol (x.sig L)) m y := by
  have hsig : ∀ ss, x.sig L ≠ y.name :: ss := by
    intro ss he
    cases x <;> simp [Sym.sig, MLang.psig, MLang.fsig] at he <;> exact h he.1
  cases y with
  | pred p =>
    intro pt
    simp only [MState.removeSymbol]
    split
    · rfl
    · split
      · simp only [MState.holds, MLang.psig]
        rw [dlookup_ddelete_ne _ (k' := p :: L.psorts p) (hsig _)]
      · rfl
  | fn f =>
    intro pt
    simp only [MState.removeSymbol]
    split
    · simp only [MState.value, MLang.fsig]
      rw [dlookup_ddelete_ne _ (k' := f :: L.fsorts f) (hsig _)]
    · split <;> rfl

/-- C31, `simplify` on problems: the language and the initial state only lose symbols that `collect_all_symbols` does not
find in the simplified problem; the initial state is unchanged on all other symbols. -/
theorem C31_simplify (C : Simplifier) (dom : Domains) (syms : List Sym) (init : MState) (goal : Formula)
    (acts : List (String × Schema)) (P : SProblem) (h : C.simplify dom syms init goal acts = .ok P) :
    C.formula goal = .ok P.goal ∧ C.actions dom acts = .ok P.acts ∧
    ∃ used, collectAllSymbols P.goal P.acts = .ok used ∧ (∀ x, x ∈ P.syms ↔ x ∈ syms ∧ x ∈ used) ∧
      ∀ y, y ∈ used → (∀ x ∈ syms, x ≠ y → x.name ≠ y.name) → SameOn C.L P.init init y := by
  simp only [Simplifier.simplify, Simplifier.problem] at h
  cases hg : C.formula goal with
  | error e => simp [hg] at h
  | ok g =>
    cases ha : C.actions dom acts with
    | error e => simp [hg, ha] at h
    | ok as =>
      simp only [hg, ha] at h
      cases hu : collectAllSymbols g as with
      | error e => simp [hu] at h
      | ok used =>
        simp only [hu, Except.ok.injEq] at h
        subst h
        refine ⟨rfl, rfl, used, hu, fun x => by simp, fun y hy hnames => ?_⟩
        have : ∀ (rem : List Sym), (∀ x ∈ rem, x.name ≠ y.name) → ∀ m,
            SameOn C.L (rem.foldl (fun m x => m.removeSymbol (x.sig C.L)) m) m y := by
          intro rem
          induction rem with
          | nil => intro _ m; exact SameOn.refl ..
          | cons x rem ih =>
            intro hr m
            rw [List.foldl_cons]
            exact (ih (fun x h => hr x (by simp [h])) _).trans (removeSymbol_same (hr x (by simp)))
        refine this _ (fun x hx => ?_) init
        simp only [List.mem_filter, Bool.not_eq_true', List.contains_eq_mem, decide_eq_false_iff_not] at hx
        exact hnames x hx.1 (fun he => hx.2 (he ▸ hy))

/-- C31: `simplify` raises whenever the goal, or the precondition of a kept action, simplifies to True (or the goal to
False). -/
theorem C31_simplify_raises (C : Simplifier) (dom : Domains) (syms : List Sym) (init : MState) (goal : Formula)
    (acts : List (String × Schema)) (g : Simp) (as : List (String × SSchema)) (hg : C.formula goal = .ok g)
    (has : C.actions dom acts = .ok as) (h : (∃ b, g = .bool b) ∨ ∃ n a', (n, a') ∈ as ∧ a'.pre = .bool true) :
    ∃ e, C.simplify dom syms init goal acts = .error e := by
  have hlist : ∀ (as : List (String × SSchema)), (∃ n a', (n, a') ∈ as ∧ a'.pre = .bool true) → ∃ e, symsActs as = .error e := by
    intro as
    induction as with
    | nil => rintro ⟨n, a', hm, _⟩; simp at hm
    | cons x as ih =>
      obtain ⟨n0, a0⟩ := x
      rintro ⟨n, a', hm, hp⟩
      simp only [symsActs]
      cases h1 : symsSimp a0.pre with
      | error e => exact ⟨e, rfl⟩
      | ok xs =>
        simp only
        cases h2 : symsEs a0.effs with
        | error e => exact ⟨e, rfl⟩
        | ok ys =>
          simp only
          rcases List.mem_cons.1 hm with he | hm
          · obtain ⟨rfl, rfl⟩ := Prod.mk.inj he
            rw [hp] at h1; simp [symsSimp] at h1
          · obtain ⟨e, he⟩ := ih ⟨n, a', hm, hp⟩
            exact ⟨e, by rw [he]⟩
  simp only [Simplifier.simplify, Simplifier.problem, hg, has, collectAllSymbols]
  rcases h with ⟨b, rfl⟩ | h
  · exact ⟨.runtime, rfl⟩
  · cases hs : symsSimp g with
    | error e => exact ⟨e, rfl⟩
    | ok xs =>
      obtain ⟨e, he⟩ := hlist as h
      exact ⟨e, by simp only [he]⟩

/-! ### Refutations and non-vacuity -/

/-- A static predicate `q` (true of `b1`), and an action with parameter `?x`, precondition `q(?x) & q(b1) & ~~p(?x)`,
effects `when q(b1): del p(?x)`, `when ~q(b1): add p(b1)`, `forall ?y. add r(?y)`. -/
def exSimpAct : Schema where
  params := [⟨"?x", "block"⟩]
  pre := .comp .tuple .and [.atom (.user "q") [.var ⟨"?x", "block"⟩], .atom (.user "q") [exB1.toTerm],
    .comp .list .not [.comp .list .not [.atom (.user "p") [.var ⟨"?x", "block"⟩]]]]
  effs := [.del (.atom (.user "q") [exB1.toTerm]) (.user "p") [.var ⟨"?x", "block"⟩],
    .add (.comp .list .not [.atom (.user "q") [exB1.toTerm]]) (.user "p") [exB1.toTerm],
    .univ .top [⟨"?y", "block"⟩] [.add .top (.user "r") [.var ⟨"?y", "block"⟩]]]

def exSimpInit : MState := MState.empty.run exLang [.add (.user "q") [.const exB1], .add (.user "p") [.const exB1]]

/-- The simplified action. -/
def exSimpRes : SSchema where
  params := [⟨"?x", "block"⟩]
  pre := .form (.comp .list .and [.atom (.user "q") [.var ⟨"?x", "block"⟩], .atom (.user "p") [.var ⟨"?x", "block"⟩]])
  effs := [.del .top (.user "p") [.var ⟨"?x", "block"⟩],
    .univ .top [⟨"?y", "block"⟩] [.add .top (.user "r") [.var ⟨"?y", "block"⟩]]]

def exSimplifier : Simplifier := ⟨exLang, some exSimpInit, some [.pred "q"]⟩

/-- The hypotheses of `C31_plan_partial`, `C31_truth_partial` and `C31_shape` are met by an action whose precondition,
conditions and effects are simplified, and by a plan that is executable. -/
example : simplifierOf exLang exSimpInit [.pred "p", .pred "q", .pred "r"] [exSimpAct] = .ok exSimplifier ∧
    exSimplifier.action exSimpAct = .ok (some exSimpRes) ∧ FlatAtomss exSimpAct.effs ∧
    (∃ ops m', planOps [(exSimpAct, [(.var ⟨"?x", "block"⟩, exB1.toTerm)])] = .ok ops ∧
      execPlan exLang twoDom exSimpInit ops = .ok (some m') ∧ m'.holds exLang "r" [exB2] = true ∧
      m'.holds exLang "p" [exB1] = false) := by
  refine ⟨rfl, rfl, ?_, ⟨_, _, rfl, rfl, by decide, by decide⟩⟩
  simp [FlatAtomss, FlatAtoms, exSimpAct, exB1, Const.toTerm]

/-- The code violates `C31_plan_full` when a precondition is statically true: the precondition becomes the python bool
`True`, and grounding the action raises. -/
theorem C31_plan_refuted : ¬ C31_plan_full false := by
  intro h
  let a : Schema := ⟨[], .atom (.user "q") [exB1.toTerm], [addEff "p" [exB1]]⟩
  obtain ⟨ops', h1, _⟩ := h exLang twoDom exSimpInit [.pred "p", .pred "q"] [a] exSimplifier twoDom_const rfl
    (by simp [a, FlatAtomss, FlatAtoms, addEff, exB1, Const.toTerm]) [(a, [])] (by simp [KeysVar, ValsConst])
    (by
      intro a' ha'
      simp only [List.mem_singleton] at ha'
      subst ha'
      exact ⟨some ⟨[], .bool true, [addEff "p" [exB1]]⟩, rfl, by simp⟩)
    _ rfl _ rfl (.inl (by simp))
  have : simpOps exSimplifier [(a, [])] = .error .representation := rfl
  rw [this] at h1
  simp at h1

/-- Moreover, `simplify` itself raises on such a problem (instance of `C31_simplify_raises`). -/
example : exSimplifier.simplify twoDom [.pred "p", .pred "q"] exSimpInit (.atom (.user "p") [exB1.toTerm])
    [("a", ⟨[], .top, [addEff "p" [exB1]]⟩)] = .error .runtime := rfl

/-- Without the restriction on the arguments of effect atoms the successor states differ: with `f(b1) = b2` static, the
effect `add p(f(b1))` adds the atom `p(None)` before and `p(b2)` after simplification. -/
theorem C31_nested_refuted :
    let m0 := MState.empty.run exLang [.set "f" false [.const exB1] (.const exB2)]
    let e : Effect := .add .top (.user "p") [.app "f" [exB1.toTerm]]
    let C : Simplifier := ⟨exLang, some m0, some [.fn "f"]⟩
    simplifierOf exLang m0 [.pred "p", .fn "f"] [⟨[], .top, [e]⟩] = .ok C ∧
    ∃ e' m1 m2, C.effect e = .ok (some e') ∧ applyEffect exLang noDom m0 e = .ok m1 ∧ applyEffect exLang noDom m0 e' = .ok m2 ∧
      m1.holds exLang "p" [exB2] = false ∧ m2.holds exLang "p" [exB2] = true := by
  intro m0 e C
  exact ⟨rfl, _, _, _, rfl, rfl, rfl, by decide, by decide⟩

/-- `simplify` may change the meaning of the problem: the condition `q(b1)` of a universal effect is not searched for
symbols, so `q` is removed from the initial state and the effect no longer fires. -/
theorem C31_universal_refuted :
    let e : Effect := .univ (.atom (.user "q") [exB1.toTerm]) [⟨"?y", "block"⟩] [.add .top (.user "r") [.var ⟨"?y", "block"⟩]]
    let a : Schema := ⟨[], .atom (.user "p") [exB1.toTerm], [delEff "p" [exB1], e]⟩
    let goal : Formula := .atom (.user "r") [exB2.toTerm]
    ∃ C P m1 m2, simplifierOf exLang exSimpInit [.pred "p", .pred "q", .pred "r"] [a] = .ok C ∧
      C.simplify twoDom [.pred "p", .pred "q", .pred "r"] exSimpInit goal [("a", a)] = .ok P ∧
      P.acts = [("a", ⟨[], .form a.pre, a.effs⟩)] ∧
      progress exLang twoDom exSimpInit a.effs = .ok m1 ∧ progress exLang twoDom P.init a.effs = .ok m2 ∧
      evFormula exLang m1 noSigma goal = .ok true ∧ evFormula exLang m2 noSigma goal = .ok false := by
  intro e a goal
  refine ⟨exSimplifier, ⟨.form goal, [("a", ⟨[], .form a.pre, a.effs⟩)], [.pred "p", .pred "r"],
    exSimpInit.removeSymbol (Sym.sig exLang (.pred "q"))⟩, _, _, rfl, rfl, rfl, rfl, rfl, ?_, ?_⟩
  · rfl
  · rfl

/-- `simplify(inplace=False)` also removes symbols from the language of the original problem, which still uses them:
`q` occurs in the precondition of the original action, but is no longer declared in the (shared) language. -/
theorem C31_original_refuted :
    ∃ C P, simplifierOf exLang exSimpInit [.pred "p", .pred "q", .pred "r"]
        [⟨[], .comp .tuple .and [.atom (.user "q") [exB1.toTerm], .atom (.user "p") [exB1.toTerm]], [addEff "p" [exB1]]⟩] = .ok C ∧
      C.simplify twoDom [.pred "p", .pred "q", .pred "r"] exSimpInit (.atom (.user "p") [exB1.toTerm])
        [("a", ⟨[], .comp .tuple .and [.atom (.user "q") [exB1.toTerm], .atom (.user "p") [exB1.toTerm]], [addEff "p" [exB1]]⟩)] = .ok P ∧
      P.syms = [.pred "p"] :=
  ⟨_, _, rfl, rfl, rfl⟩

end Tarski

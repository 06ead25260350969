import Verif.CompileNegLemmas
/-! C30: compiling negated preconditions away. -/
namespace Tarski

theorem compileNegated_ok {L : MLang} {dom : Domains} {used : List String} {acts goal init out}
    (h : compileNegated L dom used acts goal init = .ok out) :
    ∃ acts1 st1 st2, compileActions ⟨[], used⟩ acts = .ok (acts1, st1) ∧ compileFormula st1 goal = .ok (out.goal, st2) ∧
      updateActions st2.negs acts1 = .ok out.acts ∧ out.negs = st2.negs ∧
      seqApply (addComplement (declareNegs L st2.negs) dom) init st2.negs = .ok out.init := by
  simp only [compileNegated] at h
  cases h1 : compileActions ⟨[], used⟩ acts with
  | error e => simp [h1] at h
  | ok r =>
    obtain ⟨acts1, st1⟩ := r
    cases h2 : compileFormula st1 goal with
    | error e => simp [h1, h2] at h
    | ok r =>
      obtain ⟨g, st2⟩ := r
      cases h3 : updateActions st2.negs acts1 with
      | error e => simp [h1, h2, h3] at h
      | ok acts2 =>
        cases h4 : seqApply (addComplement (declareNegs L st2.negs) dom) init st2.negs with
        | error e => simp [h1, h2, h3, h4] at h
        | ok init' =>
          simp only [h1, h2, h3, h4, Except.ok.injEq] at h
          subst h
          exact ⟨acts1, st1, st2, rfl, h2, h3, rfl, h4⟩

theorem forall₂_getD {α β} {R : α → β → Prop} {as : List α} {bs : List β} (h : List.Forall₂ R as bs) {a0 : α} {b0 : β}
    {i : Nat} (hi : i < as.length) : R (as.getD i a0) (bs.getD i b0) := by
  induction h generalizing i with
  | nil => simp at hi
  | cons h _ ih =>
    cases i with
    | zero => simpa using h
    | succ i => simpa using ih (by simpa using hi)

theorem getD_mem {α} {as : List α} {i : Nat} (hi : i < as.length) (a0 : α) : as.getD i a0 ∈ as := by
  simp [List.getD_eq_getElem?_getD, hi]

theorem groundSchema_rel {negs : List String} {a a2 : Schema} (h : ActRel negs a a2) (s : Subst) :
    (∃ e, groundSchema a s = .error e ∧ groundSchema a2 s = .error e) ∨
    (groundSchema a s = .ok ⟨flatten (subF s a.pre), subEs s a.effs⟩ ∧
     groundSchema a2 s = .ok ⟨flatten (subF s a2.pre), subEs s a2.effs⟩) := by
  simp only [groundSchema, h.params]
  cases checkBinding s a.params with
  | error e => exact .inl ⟨e, rfl, rfl⟩
  | ok _ =>
    cases checkNames s a.params with
    | error e => exact .inl ⟨e, rfl, rfl⟩
    | ok _ => exact .inr ⟨rfl, rfl⟩

/-- Two lists of operators behave the same way from complementary states. -/
theorem runs_sim {L : MLang} {dom : Domains} (hd : ConstDoms dom) {negs used : List String} (hN : NegsOK L negs used)
    {m0 : MState} {acts acts2 : List Schema} (hwf : ∀ a ∈ acts, KnownAct used a ∧ KnownHeads used a)
    (hrel : List.Forall₂ (fun a a2 => NoOrAct a → ActRel negs a a2) acts acts2) {goal goal' : Formula}
    (hgoal : ∀ m m', Complementary L dom negs m m' → (∀ g pt, m.value L g pt = m0.value L g pt) →
      evFormula L m' noSigma goal' = evFormula L m noSigma goal) :
    ∀ (plan : List (Nat × Subst)), (∀ st ∈ plan, st.1 < acts.length ∧
        StepOK L dom negs m0 (acts.getD st.1 ⟨[], .top, []⟩) st.2) →
      (∃ e, planOps (stepsOf acts plan) = .error e ∧ planOps (stepsOf acts2 plan) = .error e) ∨
      ∃ ops ops', planOps (stepsOf acts plan) = .ok ops ∧ planOps (stepsOf acts2 plan) = .ok ops' ∧
        ∀ m m', Complementary L dom negs m m' → (∀ g pt, m.value L g pt = m0.value L g pt) →
          SameRun L dom negs goal goal' (execPlan L dom m ops) (execPlan L dom m' ops')
  | [], _ => by
    refine .inr ⟨[], [], rfl, rfl, fun m m' hc hf => ?_⟩
    exact .reached hc (hgoal m m' hc hf)
  | (i, s) :: plan, hpl => by
    obtain ⟨hi, ok⟩ := hpl (i, s) (by simp)
    have hr := forall₂_getD hrel hi (a0 := ⟨[], .top, []⟩) (b0 := ⟨[], .top, []⟩) ok.noOr
    obtain ⟨hk, hh⟩ := hwf _ (getD_mem hi ⟨[], .top, []⟩)
    simp only at ok
    generalize ha : acts.getD i ⟨[], .top, []⟩ = a at hr hk hh ok
    generalize ha2 : acts2.getD i ⟨[], .top, []⟩ = a2 at hr
    have ih := runs_sim hd hN hwf hrel hgoal plan (fun st hst => hpl st (by simp [hst]))
    have e1 : stepsOf acts ((i, s) :: plan) = (a, s) :: stepsOf acts plan := by simp only [stepsOf, List.map_cons, ha]
    have e2 : stepsOf acts2 ((i, s) :: plan) = (a2, s) :: stepsOf acts2 plan := by simp only [stepsOf, List.map_cons, ha2]
    rw [e1, e2]
    simp only [planOps]
    rcases groundSchema_rel hr s with ⟨e, g1, g2⟩ | ⟨g1, g2⟩
    · exact .inl ⟨e, by simp [g1], by simp [g2]⟩
    · simp only [g1, g2]
      rcases ih with ⟨e, p1, p2⟩ | ⟨ops, ops', p1, p2, hsim⟩
      · exact .inl ⟨e, by simp [p1], by simp [p2]⟩
      · simp only [p1, p2]
        refine .inr ⟨_, _, rfl, rfl, fun m m' hc hf => ?_⟩
        simp only [execPlan, isApplicable, evFormula_flatten]
        have hpre : evFormula L m' noSigma (subF s a2.pre) = evFormula L m noSigma (subF s a.pre) := by
          rw [hr.pre.1]
          exact cmpl_eval hc hN.new ok.vals hk.1 hr.pre.2 (fun p ts hp pt hpt => ok.typed _ (.inl rfl) p ts hp m hf pt hpt)
        rw [hpre]
        cases evFormula L m noSigma (subF s a.pre) with
        | error e => exact .raise
        | ok b =>
          cases b with
          | false => exact .stuck
          | true =>
            simp only
            rcases step_sim hd hN hk hh hr ok hc hf with ⟨⟨e, q1⟩, ⟨e', q2⟩⟩ | ⟨m1, m1', q1, q2, hc1, hf1⟩
            · simp only [q1, q2]; exact .raise
            · simp only [q1, q2]; exact hsim m1 m1' hc1 hf1

/-- C30, parametrised by the condition on the ground steps. The language of both problems is the one after the call,
which extends it in place (deep copies of the problem share it, fol.py:39-42). -/
def C30_statement (Ok : MLang → Domains → List String → MState → Schema → Subst → Prop) (GoalOk : Formula → Prop) : Prop :=
  ∀ (L : MLang) (dom : Domains) (used : List String) (acts : List Schema) (goal : Formula) (init : MState) (out : NegProblem),
    ConstDoms dom → ProblemWF used acts goal → GoalOk goal → compileNegated L dom used acts goal init = .ok out →
    let L' := declareNegs L out.negs
    (∀ p ∈ out.negs, ∀ pt, init.holds L' (negName p) pt = false) →
    (∀ p ts, NegConjunct p ts goal → ∀ m, (∀ g pt, m.value L' g pt = init.value L' g pt) →
      ∀ pt, evTerms L' m noSigma .eval ts = .ok pt → InSig L' dom p pt) →
    ∀ plan : List (Nat × Subst),
      (∀ st ∈ plan, st.1 < acts.length ∧ Ok L' dom out.negs init (acts.getD st.1 ⟨[], .top, []⟩) st.2) →
      (∃ e, planOps (stepsOf acts plan) = .error e ∧ planOps (stepsOf out.acts plan) = .error e) ∨
      ∃ ops ops', planOps (stepsOf acts plan) = .ok ops ∧ planOps (stepsOf out.acts plan) = .ok ops' ∧
        SameRun L' dom out.negs goal out.goal (execPlan L' dom init ops) (execPlan L' dom out.init ops')

/-- C30, full statement: every plan of well-formed ground steps. -/
def C30_full : Prop := C30_statement (fun L dom _ m0 a s => StepWF L dom m0 a s) (fun _ => True)

/-- C30 for plans whose steps have no disjunctive conditions, no influence between their effects, and never add and
delete the same atom of a complemented predicate. -/
theorem C30_bisimulation_partial : C30_statement StepOK NotOr := by
  intro L dom used acts goal init out hd hwf hng hc L' hfresh htg plan hplan
  obtain ⟨acts1, st1, st2, h1, h2, h3, hnegs, h4⟩ := compileNegated_ok hc
  obtain ⟨a0, b0, c0⟩ := compileActions_ok (used0 := used) h1
  obtain ⟨a1, b1, c1⟩ := compileFormula_ok (used0 := used) h2
  have hst : StOK used st2 := b1 hwf.goal (b0 (fun a ha => (hwf.acts a ha).1) ⟨fun x hx => hx, by simp, by simp⟩)
  have hL : L' = declareNegs L st2.negs := by simp only [L', hnegs]
  have hN : NegsOK L' out.negs used := by
    rw [hL, hnegs]; exact declareNegs_ok L hst.2.1 hst.2.2
  have hinit : Complementary L' dom out.negs init out.init := by
    rw [← hL, ← hnegs] at h4
    have := addComplements_spec hd (done := []) (by simpa using hN) ⟨fun x _ => SameOn.refl .., by simp⟩ hfresh h4
    simpa using this
  have hrel : List.Forall₂ (fun a a2 => NoOrAct a → ActRel out.negs a a2) acts out.acts := by
    have hu := updateActions_ok h3
    rw [hnegs]
    generalize out.acts = acts2 at hu
    clear h1 h3 hplan hwf hc b0
    induction c0 generalizing acts2 with
    | nil => cases hu; exact .nil
    | cons h _ ih =>
      cases hu with
      | cons hu hus => exact .cons (fun hn => actRel_of ((h hn).mono a1) hu) (ih _ hus)
  have hgoal : ∀ m m', Complementary L' dom out.negs m m' → (∀ g pt, m.value L' g pt = init.value L' g pt) →
      evFormula L' m' noSigma out.goal = evFormula L' m noSigma goal := by
    intro m m' hcm hf
    have hcg := c1 hng
    rw [← hnegs] at hcg
    have := cmpl_eval (s := []) hcm hN.new (by simp [ValsConst, Subst.get?]) hwf.goal hcg.2 (fun p ts hp pt hpt => by
      rw [ev_subTs_nil] at hpt
      exact htg p ts hp m hf pt hpt)
    rw [ev_subF_nil, ev_subF_nil] at this
    rw [hcg.1]; exact this
  rcases runs_sim hd hN hwf.acts hrel hgoal plan hplan with h | ⟨ops, ops', p1, p2, hsim⟩
  · exact .inl h
  · exact .inr ⟨ops, ops', p1, p2, hsim init out.init hinit (fun _ _ => rfl)⟩

/-! ### The output has no negated atoms -/

theorem negLit_pos {l : Formula} (h : isLiteral l = true) : PosLit (negLit l) := by
  match l with
  | .atom p ts => exact .inl ⟨p, ts, rfl⟩
  | .comp k .not (.atom (.user p) ts :: fs) => exact .inl ⟨_, _, rfl⟩
  | .comp k .not (.atom (.cmp c) ts :: fs) => exact .inr ⟨k, c, ts, fs, rfl⟩
  | .comp k .not [] => simp [isLiteral] at h
  | .comp k .not (.top :: _) => simp [isLiteral] at h
  | .comp k .not (.bot :: _) => simp [isLiteral] at h
  | .comp k .not (.comp _ _ _ :: _) => simp [isLiteral] at h
  | .comp k .not (.quant _ _ _ :: _) => simp [isLiteral] at h
  | .comp k .and fs => simp [isLiteral] at h
  | .comp k .or fs => simp [isLiteral] at h
  | .top => simp [isLiteral] at h
  | .bot => simp [isLiteral] at h
  | .quant _ _ _ => simp [isLiteral] at h

theorem land_negFree {gs : List Formula} (h : ∀ l ∈ gs, PosLit l) : NegFree (land gs true) := by
  match gs with
  | [] => exact .inl rfl
  | [a] => exact .inr (.inl (by simpa [land, createCompound] using h a (by simp)))
  | a :: b :: rest => exact .inr (.inr ⟨.tuple, a :: b :: rest, by simp [land, createCompound], h⟩)

theorem compileLit_isLiteral {st st' : NegSt} {k fs g} (h : compileLit st (.comp k .not fs) = .ok (g, st')) :
    isLiteral (.comp k .not fs) = true := by
  match fs with
  | .atom (.user p) ts :: fs => rfl
  | .atom (.cmp c) ts :: fs => rfl
  | [] => simp [compileLit] at h
  | .top :: _ => simp [compileLit] at h
  | .bot :: _ => simp [compileLit] at h
  | .comp _ _ _ :: _ => simp [compileLit] at h
  | .quant _ _ _ :: _ => simp [compileLit] at h

theorem compileFormula_negFree {st st' : NegSt} {f g} (h : compileFormula st f = .ok (g, st')) : NegFree g := by
  unfold compileFormula at h
  split at h
  · simp only [Except.ok.injEq, Prod.mk.injEq] at h
    obtain ⟨rfl, _⟩ := h
    exact .inr (.inl (.inl ⟨_, _, rfl⟩))
  · have := compileLit_isLiteral h
    obtain ⟨rfl, _⟩ := compileLit_ok (used0 := []) h
    exact .inr (.inl (negLit_pos this))
  · rename_i fs _ _
    cases h1 : compileLits st fs with
    | error e => simp [h1] at h
    | ok r =>
      obtain ⟨gs, s1⟩ := r
      simp only [h1, Except.ok.injEq, Prod.mk.injEq] at h
      obtain ⟨rfl, _⟩ := h
      obtain ⟨rfl, hl, _⟩ := compileLits_ok (used0 := []) h1
      refine land_negFree ?_
      intro l hm
      obtain ⟨x, hx, rfl⟩ := List.mem_map.1 hm
      exact negLit_pos (hl x hx)
  · simp at h

theorem compileConds_negFree : ∀ {es : List Effect} {st st' : NegSt} {es'}, compileConds st es = .ok (es', st') →
    ∀ e ∈ es', NegFree e.cond
  | [], st, st', es', h => by
    simp only [compileConds, Except.ok.injEq, Prod.mk.injEq] at h
    obtain ⟨rfl, rfl⟩ := h
    simp
  | e :: es, st, st', es', h => by
    have hmain : ((if isTop e.cond then
        match compileConds st es with
        | .error er => .error er
        | .ok (es', st') => .ok (e :: es', st')
      else match compileFormula st e.cond with
        | .error er => .error er
        | .ok (c, st1) => match compileConds st1 es with
          | .error er => .error er
          | .ok (es', st') => .ok (e.setCond c :: es', st') : Except Err (List Effect × NegSt))) = .ok (es', st') := by
      cases e <;> simp only [compileConds] at h <;> first | exact h | simp at h
    clear h
    split at hmain
    · rename_i ht
      cases h1 : compileConds st es with
      | error er => simp [h1] at hmain
      | ok r =>
        obtain ⟨es1, s1⟩ := r
        simp only [h1, Except.ok.injEq, Prod.mk.injEq] at hmain
        obtain ⟨rfl, rfl⟩ := hmain
        intro x hx
        rcases List.mem_cons.1 hx with rfl | hx
        · exact .inl (isTop_eq ht)
        · exact compileConds_negFree h1 x hx
    · cases h0 : compileFormula st e.cond with
      | error er => simp [h0] at hmain
      | ok r =>
        obtain ⟨c, s0⟩ := r
        cases h1 : compileConds s0 es with
        | error er => simp [h0, h1] at hmain
        | ok r =>
          obtain ⟨es1, s1⟩ := r
          simp only [h0, h1, Except.ok.injEq, Prod.mk.injEq] at hmain
          obtain ⟨rfl, rfl⟩ := hmain
          intro x hx
          rcases List.mem_cons.1 hx with rfl | hx
          · have : (e.setCond c).cond = c := by cases e <;> rfl
            rw [this]; exact compileFormula_negFree h0
          · exact compileConds_negFree h1 x hx

theorem compileActions_negFree : ∀ {as : List Schema} {st st' : NegSt} {as'}, compileActions st as = .ok (as', st') →
    ∀ a ∈ as', NegFree a.pre ∧ ∀ e ∈ a.effs, NegFree e.cond
  | [], st, st', as', h => by
    simp only [compileActions, Except.ok.injEq, Prod.mk.injEq] at h
    obtain ⟨rfl, rfl⟩ := h
    simp
  | a :: as, st, st', as', h => by
    simp only [compileActions, compileAction] at h
    cases h0 : compileFormula st a.pre with
    | error e => simp [h0] at h
    | ok r =>
      obtain ⟨g, s0⟩ := r
      cases h1 : compileConds s0 a.effs with
      | error e => simp [h0, h1] at h
      | ok r =>
        obtain ⟨es, s1⟩ := r
        simp only [h0, h1] at h
        cases h2 : compileActions s1 as with
        | error e => simp [h2] at h
        | ok r =>
          obtain ⟨as1, s2⟩ := r
          simp only [h2, Except.ok.injEq, Prod.mk.injEq] at h
          obtain ⟨rfl, rfl⟩ := h
          intro x hx
          rcases List.mem_cons.1 hx with rfl | hx
          · exact ⟨compileFormula_negFree h0, compileConds_negFree h1⟩
          · exact compileActions_negFree h2 x hx

/-- C30: whatever the input, the preconditions, effect conditions and goal of the output are conjunctions of atoms and
negated comparisons. -/
theorem C30_negation_free (L : MLang) (dom : Domains) (used : List String) (acts : List Schema) (goal : Formula)
    (init : MState) (out : NegProblem) (h : compileNegated L dom used acts goal init = .ok out) :
    NegFree out.goal ∧ ∀ a ∈ out.acts, NegFree a.pre ∧ ∀ e ∈ a.effs, NegFree e.cond := by
  obtain ⟨acts1, st1, st2, h1, h2, h3, hnegs, h4⟩ := compileNegated_ok h
  refine ⟨compileFormula_negFree h2, ?_⟩
  have ha := compileActions_negFree h1
  have hu := updateActions_ok h3
  intro a2 ha2
  obtain ⟨a1, ha1, hua⟩ : ∃ a1 ∈ acts1, updateAction st2.negs a1 = .ok a2 := by
    generalize out.acts = acts2 at hu ha2
    clear h1 h3 ha
    induction hu with
    | nil => simp at ha2
    | cons hu _ ih =>
      rcases List.mem_cons.1 ha2 with rfl | ha2
      · exact ⟨_, by simp, hu⟩
      · obtain ⟨a1, h1, h2⟩ := ih ha2
        exact ⟨a1, by simp [h1], h2⟩
  obtain ⟨hpre, hconds⟩ := ha a1 ha1
  simp only [updateAction] at hua
  cases hc : converseEffs st2.negs a1.effs with
  | error e => simp [hc] at hua
  | ok new =>
    simp only [hc, Except.ok.injEq] at hua
    subst hua
    refine ⟨hpre, fun e he => ?_⟩
    rcases List.mem_append.1 he with he | he
    · exact hconds e he
    · obtain ⟨c, p, ts, _, ⟨h, rfl⟩ | ⟨h, rfl⟩⟩ := (mem_converseEffs hc e).1 he
      · have := hconds _ h; exact this
      · have := hconds _ h; exact this

/-! ### Refutations -/

def cnX : Term := exB1.toTerm
def cnNot (p : String) : Formula := .comp .list .not [.atom (.user p) [cnX]]
def cnAtom (p : String) : Formula := .atom (.user p) [cnX]
def cnUsed : List String := ["p", "q", "r"]

/-- `p(b1) or not q(b1)`, add `r(b1)`. -/
def cnOr : Schema := ⟨[], .comp .tuple .or [cnAtom "p", cnNot "q"], [addEff "r" [exB1]]⟩
def cnOrInit : MState := MState.empty.run exLang [.add (.user "p") [.const exB1], .add (.user "q") [.const exB1]]

/-- The precondition `p or not q` becomes `p and _not_q` (representation.py:513-520): the action is not applicable any
more in a state with `p` and `q`. -/
theorem C30_refuted : ¬ C30_full := by
  intro h
  have hwf : ProblemWF cnUsed [cnOr] (cnAtom "r") := by
    refine ⟨?_, ?_⟩
    · intro a ha
      simp only [List.mem_singleton] at ha
      subst ha
      refine ⟨⟨?_, ?_⟩, ?_⟩
      · intro p hp
        simp only [cnOr, cnNot, cnAtom, UsesF, UsesFs, UsesTs, cnX, Const.toTerm, UsesT, Sym.pred.injEq, or_false] at hp
        rcases hp with rfl | rfl <;> simp [cnUsed]
      · simp [cnOr, addEff, Effect.cond, KnownF, UsesF]
      · simp [cnOr, addEff, KnownHeads, Effect.Writes, cnUsed]
    · intro p hp
      simp only [cnAtom, UsesF, UsesTs, cnX, Const.toTerm, UsesT, Sym.pred.injEq, or_false] at hp
      subst hp; simp [cnUsed]
  have hx : ∃ out ops ops' m, compileNegated exLang twoDom cnUsed [cnOr] (cnAtom "r") cnOrInit = .ok out ∧ out.negs = ["q"] ∧
      planOps (stepsOf [cnOr] [(0, [])]) = .ok ops ∧ execPlan (declareNegs exLang ["q"]) twoDom cnOrInit ops = .ok (some m) ∧
      planOps (stepsOf out.acts [(0, [])]) = .ok ops' ∧ execPlan (declareNegs exLang ["q"]) twoDom out.init ops' = .ok none :=
    ⟨_, _, _, _, rfl, rfl, rfl, rfl, rfl, rfl⟩
  obtain ⟨out, ops, ops', m, hout, hn, h1, h2, h3, h4⟩ := hx
  have := h exLang twoDom cnUsed [cnOr] (cnAtom "r") cnOrInit out twoDom_const hwf trivial hout (by
      rw [hn]; intro p hp pt
      simp only [List.mem_singleton] at hp; subst hp; rfl) (by
      intro p ts hp; cases hp) [(0, [])] (by
      intro st hst
      simp only [List.mem_singleton] at hst; subst hst
      refine ⟨by simp, ?_, ?_, ?_⟩
      · simp [ValsConst]
      · intro e he
        refine ⟨.top, "r", [exB1.toTerm], [exB1], .inl ?_, by simp [subTs, Const.toTerm, subT, Subst.visit, Subst.get?], ?_⟩
        · simpa [cnOr, addEff] using he
        · rw [hn]; exact .cons rfl .nil
      · rintro f (rfl | ⟨e, he, rfl⟩) p ts hp
        · cases hp
        · simp only [cnOr, List.getD_cons_zero, List.mem_singleton] at he
          subst he; cases hp)
  rw [hn, h1, h3] at this
  rcases this with ⟨e, he, _⟩ | ⟨o, o', ho, ho', hr⟩
  · simp at he
  · simp only [Except.ok.injEq] at ho ho'
    subst ho; subst ho'
    rw [h2, h4] at hr
    cases hr

/-- `not p(b1) -> add p(b1)`, the toggle. -/
def cnToggle : Schema := ⟨[], cnAtom "r", [.add (cnNot "p") (.user "p") [cnX]]⟩
def cnToggleInit : MState := MState.empty.run exLang [.add (.user "r") [.const exB1]]

/-- The compiled toggle deletes `_not_p(b1)` before the condition of the add is evaluated: the goal `p(b1)` is reached in
the original problem and not in the compiled one, where `p(b1)` and `_not_p(b1)` are both false afterwards. -/
theorem C30_toggle_refuted : ∃ out ops ops' m m',
    compileNegated exLang twoDom cnUsed [cnToggle] (cnAtom "p") cnToggleInit = .ok out ∧ out.negs = ["p"] ∧
    planOps (stepsOf [cnToggle] [(0, [])]) = .ok ops ∧ planOps (stepsOf out.acts [(0, [])]) = .ok ops' ∧
    execPlan (declareNegs exLang ["p"]) twoDom cnToggleInit ops = .ok (some m) ∧
    execPlan (declareNegs exLang ["p"]) twoDom out.init ops' = .ok (some m') ∧
    m.holds (declareNegs exLang ["p"]) "p" [exB1] = true ∧ m'.holds (declareNegs exLang ["p"]) "p" [exB1] = false ∧
    m'.holds (declareNegs exLang ["p"]) "_not_p" [exB1] = false :=
  ⟨_, _, _, _, _, rfl, rfl, rfl, rfl, rfl, rfl, by decide, by decide, by decide⟩

/-- `not p(b1)`, delete `p(b1)` and add `p(b1)`: afterwards `p(b1)` and `_not_p(b1)` are both true. -/
def cnBoth : Schema := ⟨[], cnNot "p", [delEff "p" [exB1], addEff "p" [exB1]]⟩

theorem C30_add_delete_refuted : ∃ out ops' m',
    compileNegated exLang twoDom cnUsed [cnBoth] (cnAtom "p") MState.empty = .ok out ∧ out.negs = ["p"] ∧
    planOps (stepsOf out.acts [(0, [])]) = .ok ops' ∧ execPlan (declareNegs exLang ["p"]) twoDom out.init ops' = .ok (some m') ∧
    m'.holds (declareNegs exLang ["p"]) "p" [exB1] = true ∧ m'.holds (declareNegs exLang ["p"]) "_not_p" [exB1] = true :=
  ⟨_, _, _, rfl, rfl, rfl, rfl, by decide, by decide⟩

/-- The call raises on a trivially true precondition, on a double negation, when `_not_p` exists already, and on
functional effects. -/
theorem C30_raises :
    compileNegated exLang twoDom cnUsed [⟨[], .top, []⟩] (cnAtom "p") MState.empty = .error .representation ∧
    compileNegated exLang twoDom cnUsed [⟨[], .comp .list .not [cnNot "p"], []⟩] (cnAtom "p") MState.empty = .error .attribute ∧
    compileNegated exLang twoDom ["p", "_not_p"] [⟨[], cnNot "p", []⟩] (cnAtom "p") MState.empty = .error .language ∧
    compileNegated exLang twoDom cnUsed [⟨[], cnAtom "p", [.assign .top "f" [] cnX]⟩] (cnAtom "p") MState.empty =
      .error .representation :=
  ⟨rfl, rfl, rfl, rfl⟩

/-! ### Non-vacuity -/

def cnV : Var := ⟨"x", "block"⟩
/-- `move(x)`: `q(x) and not p(x)`; add `p(x)`, delete `q(x)`. -/
def cnMove : Schema := ⟨[cnV], .comp .tuple .and [.atom (.user "q") [.var cnV], .comp .list .not [.atom (.user "p") [.var cnV]]],
  [.add .top (.user "p") [.var cnV], .del (.comp .list .not [.atom (.user "r") [.var cnV]]) (.user "q") [.var cnV]]⟩
def cnS (c : Const) : Subst := [(.var cnV, c.toTerm)]
def cnMoveInit : MState := MState.empty.run exLang
  [.add (.user "q") [.const exB1], .add (.user "q") [.const exB2], .add (.user "r") [.const exB2]]
def cnGoal : Formula := .comp .list .not [.atom (.user "q") [cnX]]

theorem cnMove_step (c : Const) (hc : c = exB1 ∨ c = exB2) :
    StepOK (declareNegs exLang ["p", "r", "q"]) twoDom ["p", "r", "q"] cnMoveInit cnMove (cnS c) := by
  have hv : subT (cnS c) (.var cnV) = c.toTerm := by simp [subT, cnS, Subst.visit, Subst.get?]
  have hin : ∀ p, p = "p" ∨ p = "r" → InSig (declareNegs exLang ["p", "r", "q"]) twoDom p [c] := by
    intro p hp
    have : (declareNegs exLang ["p", "r", "q"]).psorts p = ["block"] := by rcases hp with rfl | rfl <;> rfl
    rw [InSig, this]
    exact .cons ⟨_, rfl, by rcases hc with rfl | rfl <;> simp⟩ .nil
  refine { vals := ?_, ground := ?_, typed := ?_, noOr := ?_, flow := ?_, noBoth := ?_ }
  · rw [cnS]; intro kv hkv; simp only [List.mem_singleton] at hkv; subst hkv; exact ⟨_, _, rfl⟩
  · intro e he
    simp only [cnMove, List.mem_cons, List.not_mem_nil, or_false] at he
    rcases he with rfl | rfl
    · exact ⟨_, _, _, [c], .inl rfl, by simp [subTs, hv], by rcases hc with rfl | rfl <;> exact .cons rfl .nil⟩
    · exact ⟨_, _, _, [c], .inr rfl, by simp [subTs, hv], by rcases hc with rfl | rfl <;> exact .cons rfl .nil⟩
  · rintro f hf p ts hp m _ pt hpt
    have key : (p = "p" ∨ p = "r") ∧ ts = [.var cnV] := by
      rcases hf with rfl | ⟨e, he, rfl⟩
      · cases hp with
        | sub hf hp =>
          simp only [List.mem_cons, List.not_mem_nil, or_false] at hf
          rcases hf with rfl | rfl
          · cases hp
          · cases hp; exact ⟨.inl rfl, rfl⟩
      · simp only [cnMove, List.mem_cons, List.not_mem_nil, or_false] at he
        rcases he with rfl | rfl
        · cases hp
        · cases hp; exact ⟨.inr rfl, rfl⟩
    obtain ⟨hp', rfl⟩ := key
    have : subTs (cnS c) [.var cnV] = [c].map Const.toTerm := by simp [subTs, hv]
    rw [this, evTerms_consts] at hpt
    simp only [Except.ok.injEq] at hpt
    subst hpt; exact hin p hp'
  · refine ⟨by intro k fs; simp [cnMove], ?_⟩
    intro e he k fs
    simp only [cnMove, List.mem_cons, List.not_mem_nil, or_false] at he
    rcases he with rfl | rfl <;> simp [Effect.cond]
  · simp [cnMove, NoFlow, Effect.Writes, Effect.Reads, UsesF, UsesFs, UsesTs, UsesT]
  · simp [cnMove]

/-- The hypotheses hold for a plan that moves both blocks; the second one keeps `q` because of `r`. -/
example : ∃ out ops ops' m m', compileNegated exLang twoDom cnUsed [cnMove] cnGoal cnMoveInit = .ok out ∧
    out.negs = ["p", "r", "q"] ∧ ProblemWF cnUsed [cnMove] cnGoal ∧
    planOps (stepsOf [cnMove] [(0, cnS exB1), (0, cnS exB2)]) = .ok ops ∧
    planOps (stepsOf out.acts [(0, cnS exB1), (0, cnS exB2)]) = .ok ops' ∧
    execPlan (declareNegs exLang out.negs) twoDom cnMoveInit ops = .ok (some m) ∧
    execPlan (declareNegs exLang out.negs) twoDom out.init ops' = .ok (some m') ∧
    evFormula (declareNegs exLang out.negs) m' noSigma out.goal = .ok true := by
  refine ⟨_, _, _, _, _, rfl, rfl, ⟨?_, ?_⟩, rfl, rfl, rfl, rfl, rfl⟩
  · intro a ha
    simp only [List.mem_singleton] at ha
    subst ha
    refine ⟨⟨?_, ?_⟩, ?_⟩
    · intro p hp
      simp only [cnMove, UsesF, UsesFs, UsesTs, UsesT, Sym.pred.injEq, or_false] at hp
      rcases hp with rfl | rfl <;> simp [cnUsed]
    · simp [cnMove, Effect.cond, KnownF, UsesF, UsesFs, UsesTs, UsesT, cnUsed]
    · simp [cnMove, KnownHeads, Effect.Writes, cnUsed]
  · intro p hp
    simp only [cnGoal, UsesF, UsesFs, UsesTs, cnX, Const.toTerm, UsesT, Sym.pred.injEq, or_false] at hp
    subst hp; simp [cnUsed]

end Tarski

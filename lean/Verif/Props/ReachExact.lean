import Verif.ReachRelaxed
import Verif.Props.Reach
/-! Property C48: the reachability logic program derives nothing beyond the relaxed problem. -/
namespace Tarski

/-- C48: what the program derives is what the relaxed problem (no deletions, no negations other than, with `incl`, negated
comparisons) reaches: the atoms, the applicable instances of the actions, and the goal. -/
def ExactLP (X : LPInput) (R : CmpRel) (ground incl : Bool) (P : List LPRule) : Prop :=
  (∀ p as, LPDer R P (.atom p) as ↔ RelaxReach X R incl p as) ∧
  (ground = true → ∀ n as, LPDer R P (.action n) as ↔ ∃ a σ, (n, a) ∈ X.actions ∧
    ApplicableIn (stateInterp X.dom R (RelaxReach X R incl)) ⟨a.params, dropNeg incl a.pre, a.effs⟩ σ ∧ as = a.params.map σ) ∧
  (LPDer R P .goal [] ↔ ∃ σ, Sat (stateInterp X.dom R (RelaxReach X R incl)) (dropNeg incl X.goal) σ)

/-- C48, full statement, for the problems of which C47 is true and which have different names for their actions. -/
def C48_full : Prop := ∀ (X : LPInput) (R : CmpRel) (ord : List Var → List Var) (ground incl : Bool) (st : LPSt),
  LPWellFormed X → (X.actions.map Prod.fst).Nodup → (∀ l, (ord l).Perm l) → createLP X ord ground incl = .ok st →
  ExactLP X R ground incl st.rules

/-- C48 (part that holds): the statement is true of the problems in which no existential subformula has free variables.
With variable inequalities, negations must be applied to atoms. Missing: open existential subformulas, for which the
statement is false (see below). -/
theorem C48_exact_partial (X : LPInput) (W : LPWellFormed X) (R : CmpRel) (ord : List Var → List Var)
    (hord : ∀ l, (ord l).Perm l) (ground incl : Bool) (T : LPTight X incl) (st : LPSt)
    (h : createLP X ord ground incl = .ok st) : ExactLP X R ground incl st.rules := by
  obtain ⟨c1, c2, c3⟩ := createLP_relaxed W T (fun l v => (hord l).mem_iff) h (lpDer_isModel R st.rules)
  have key : ∀ S, RelaxClosed X R incl S → ∀ s as, LPDer R st.rules s as → AuxDer R st.rules (relaxTruth X R incl S) s as :=
    fun S hS s as hd => lpDer_least (createLP_tight W T (fun l v => (hord l).mem_iff) h hS) hd
  have hat : ∀ p as, LPDer R st.rules (.atom p) as ↔ RelaxReach X R incl p as := fun p as =>
    ⟨fun hd S hS => (auxDer_base (by simp)).mp (key S hS _ _ hd), fun hr => hr _ c1⟩
  have heq : atomsOf (LPDer R st.rules) = RelaxReach X R incl := by
    funext p as
    exact propext (hat p as)
  rw [heq] at c1 c2 c3
  refine ⟨hat, ?_, ?_⟩
  · intro hg n as
    constructor
    · intro hd
      exact (auxDer_base (by simp)).mp (key _ c1 _ _ hd)
    · rintro ⟨a, σ, hm, ha, rfl⟩
      exact c2 hg n a σ hm ha
  · constructor
    · intro hd
      exact ((auxDer_base (by simp)).mp (key _ c1 _ _ hd)).2
    · rintro ⟨σ, hs⟩
      exact c3 σ hs

/-- In particular both compilers derive the same atoms and the goal alike, whatever the order in which sets are iterated. -/
theorem C48_compilers_agree_partial (X : LPInput) (W : LPWellFormed X) (R : CmpRel) (incl : Bool) (T : LPTight X incl)
    (ord ord' : List Var → List Var) (hord : ∀ l, (ord l).Perm l) (hord' : ∀ l, (ord' l).Perm l) (g g' : Bool) (st st' : LPSt)
    (h : createLP X ord g incl = .ok st) (h' : createLP X ord' g' incl = .ok st') :
    (∀ p as, LPDer R st.rules (.atom p) as ↔ LPDer R st'.rules (.atom p) as) ∧
    (LPDer R st.rules .goal [] ↔ LPDer R st'.rules .goal []) := by
  obtain ⟨a1, _, a3⟩ := C48_exact_partial X W R ord hord g incl T st h
  obtain ⟨b1, _, b3⟩ := C48_exact_partial X W R ord' hord' g' incl T st' h'
  exact ⟨fun p as => (a1 p as).trans (b1 p as).symm, a3.trans b3.symm⟩

/-! ### The hypotheses can be met -/

/-- The small blocks world of C47 meets the hypotheses. -/
theorem pickLP_tight : LPTight pickLP false := by
  refine ⟨by simp [pickLP, exLP], ?_, ?_⟩
  · intro n a hm
    simp only [pickLP, exLP, List.mem_singleton, Prod.mk.injEq] at hm
    obtain ⟨rfl, rfl⟩ := hm
    refine ⟨⟨by simp [pickAct, ClosedEx, ClosedExs], by simp⟩, ?_⟩
    intro e he
    simp only [pickAct, List.mem_cons, List.not_mem_nil, or_false] at he
    rcases he with rfl | rfl | rfl
    · exact ⟨trivial, by simp⟩
    · trivial
    · intro c p ts hm
      simp only [List.mem_singleton, Effect.add.injEq] at hm
      obtain ⟨rfl, rfl, rfl⟩ := hm
      exact ⟨trivial, by simp⟩
  · refine ⟨?_, by simp⟩
    simp [pickLP, exLP, ClosedEx, FreeF, FreeTs, FreeT, eq_comm]

/-- In it, picking up `b` is not derived: `b` is not clear in the initial state, and nothing makes it so. -/
example : ∃ st, createLP pickLP id true false = .ok st ∧ ¬ LPDer eqCmpRel st.rules (.action "pick") ["b"] := by
  obtain ⟨st, h⟩ : ∃ st, createLP pickLP id true false = .ok st := ⟨_, rfl⟩
  refine ⟨st, h, ?_⟩
  obtain ⟨h1, h2, _⟩ := C48_exact_partial pickLP pickLP_wf eqCmpRel id (fun _ => .refl _) true false pickLP_tight st h
  rw [h2 rfl]
  rintro ⟨a, σ, hm, ha, he⟩
  simp only [pickLP, exLP, List.mem_singleton, Prod.mk.injEq, true_and] at hm
  subst hm
  -- a closed set in which only `a` is clear
  have hcl : RelaxClosed pickLP eqCmpRel false (fun p as => (p ≠ "clear" ∧ p ≠ "marked") ∨ (p = "clear" ∧ as = ["a"])) := by
    refine ⟨?_, ?_⟩
    · intro p ts hm
      simp only [pickLP, exLP, List.mem_cons, Prod.mk.injEq, List.not_mem_nil, or_false] at hm
      rcases hm with ⟨rfl, rfl⟩ | ⟨rfl, rfl⟩
      · exact .inr ⟨rfl, by simp [evalTs, evalT, stateInterp, nameText]⟩
      · exact .inl (by simp)
    · intro n a σ hm _ e hee p as hc
      simp only [pickLP, exLP, List.mem_singleton, Prod.mk.injEq] at hm
      obtain ⟨rfl, rfl⟩ := hm
      simp only [pickAct, List.mem_cons, List.not_mem_nil, or_false] at hee
      rcases hee with rfl | rfl | rfl <;> simp only [dropNegE, dropNegEs] at hc
      · cases hc
        exact .inl (by simp)
      · cases hc
        simp_all
      · cases hc with
        | univ _ _ _ e' _ τ _ _ _ he' _ _ hc' =>
          simp only [List.mem_singleton] at he'
          subst he'
          cases hc'
          exact .inl (by simp)
  have hpre := ha.2
  simp only [pickAct, dropNeg, dropNegs, Sat, SatAll, SatAny, or_false] at hpre
  rcases hpre.1 with g | g
  · have := g _ hcl
    simp only [pickAct, List.map_cons, List.map_nil, List.cons.injEq, and_true] at he
    simp [evalTs, evalT, ← he] at this
  · have := g _ hcl
    simp at this

/-! ### What is lost -/

/-- `mark(?x)` with precondition `exists ?y. on(?y, ?x)`. -/
def openAct : Schema := ⟨[⟨"?x", "block"⟩],
  .quant .exists [.var ⟨"?y", "block"⟩] (.atom (.user "on") [.var ⟨"?y", "block"⟩, .var ⟨"?x", "block"⟩]),
  [.add .top (.user "q") [.var ⟨"?x", "block"⟩]]⟩

def openLP : LPInput := exLP ["a", "b"] [("on", [.const (.str "a") "block", .const (.str "b") "block"])] [("mark", openAct)] .top

def openRules : List LPRule :=
  [⟨.pred (.type "block") ["a"], []⟩, ⟨.pred (.type "block") ["b"], []⟩,
   ⟨.pred (.type "object") ["X"], [.pred (.type "block") ["X"]]⟩,
   ⟨.pred (.atom "on") ["a", "b"], []⟩,
   ⟨.pred (.aux 1) [], [.pred (.atom "on") ["Y", "X"], .pred (.type "block") ["Y"]]⟩,
   ⟨.pred (.action "mark") ["X"], [.pred (.type "block") ["X"], .pred (.aux 1) []]⟩,
   ⟨.pred (.atom "q") ["X"], [.pred (.action "mark") ["X"]]⟩,
   ⟨.pred .goal [], []⟩]

theorem openLP_create : createLP openLP id true false = .ok ⟨1, openRules⟩ := by
  rfl

theorem openLP_wf : LPWellFormed openLP := by
  have hsc : VarScope openLP pickScope := by
    refine ⟨?_, ?_, ?_⟩
    · rintro v (rfl | rfl | rfl)
      · exact ⟨"X", rfl, by decide⟩
      · exact ⟨"Y", rfl, by decide⟩
      · exact ⟨"Z", rfl, by decide⟩
    · have h1 : makeVarName "?x" = .ok "X" := rfl
      have h2 : makeVarName "?y" = .ok "Y" := rfl
      have h3 : makeVarName "?z" = .ok "Z" := rfl
      rintro v w (rfl | rfl | rfl) (rfl | rfl | rfl) <;> simp [h1, h2, h3]
    · rintro v (rfl | rfl | rfl) <;> simp [openLP, exLP]
  have hd := exLP_doms (objs := ["a", "b"]) (init := openLP.initAtoms) (acts := openLP.actions) (goal := openLP.goal)
  refine ⟨?_, hd.1, hd.2, ?_, ?_, ?_⟩
  · intro n s hm
    simp only [openLP, exLP, List.map_cons, List.map_nil, List.mem_cons, Prod.mk.injEq, List.not_mem_nil, or_false] at hm
    rcases hm with ⟨rfl, _⟩ | ⟨rfl, _⟩
    · exact ⟨"a", rfl, rfl, by decide⟩
    · exact ⟨"b", rfl, rfl, by decide⟩
  · intro p ts hm t ht
    simp only [openLP, exLP, List.mem_singleton, Prod.mk.injEq] at hm
    obtain ⟨rfl, rfl⟩ := hm
    simp only [List.mem_cons, List.not_mem_nil, or_false] at ht
    rcases ht with rfl | rfl
    · exact ⟨_, _, rfl, by decide⟩
    · exact ⟨_, _, rfl, by decide⟩
  · intro n a hm
    simp only [openLP, exLP, List.mem_singleton, Prod.mk.injEq] at hm
    obtain ⟨rfl, rfl⟩ := hm
    refine ⟨pickScope, hsc, by simp [openAct, pickScope], ⟨?_, ?_, ?_⟩, ?_⟩
    · simp [openAct, FlatF, FlatT, pickScope]
    · simp [openAct, NoRebind, BoundF, BoundTs, BoundT]
    · intro v
      simp [openAct, FreeF, FreeTs, FreeT]
      rintro (rfl | rfl) h
      · simp at h
      · rfl
    · intro e he
      simp only [openAct, List.mem_singleton] at he
      subst he
      exact ⟨⟨trivial, trivial, by simp [FreeF]⟩, by simp [FlatT, pickScope], by simp [openAct]⟩
  · exact ⟨pickScope, hsc, ⟨trivial, trivial, by simp [openLP, exLP, FreeF]⟩⟩

/-- The code does not keep the full statement: an existential subformula becomes an auxiliary symbol without arguments, so
that `mark(a)` is derived although nothing is ever on `a`. -/
theorem C48_refuted : ¬ C48_full := by
  intro H
  obtain ⟨h, _⟩ := H openLP eqCmpRel id true false _ openLP_wf (by simp [openLP, exLP]) (fun _ => .refl _) openLP_create
  have ia : ∀ θ, lpInst θ "a" = "a" := fun θ => by simp only [lpInst, show isAspVar "a" = false by decide]; rfl
  have ib : ∀ θ, lpInst θ "b" = "b" := fun θ => by simp only [lpInst, show isAspVar "b" = false by decide]; rfl
  have iX : ∀ θ, lpInst θ "X" = θ "X" := fun θ => by simp only [lpInst, isAspVar_X]; rfl
  have iY : ∀ θ, lpInst θ "Y" = θ "Y" := fun θ => by simp only [lpInst, show isAspVar "Y" = true by decide]; rfl
  have hM := lpDer_isModel eqCmpRel openRules
  have ta : LPDer eqCmpRel openRules (.type "block") ["a"] := by
    simpa [ia] using hM ⟨.pred (.type "block") ["a"], []⟩ (by simp [openRules]) (fun _ => "") _ _ rfl (by simp)
  have ho : LPDer eqCmpRel openRules (.atom "on") ["a", "b"] := by
    simpa [ia, ib] using hM ⟨.pred (.atom "on") ["a", "b"], []⟩ (by simp [openRules]) (fun _ => "") _ _ rfl (by simp)
  have hx : LPDer eqCmpRel openRules (.aux 1) [] := by
    refine hM ⟨.pred (.aux 1) [], [.pred (.atom "on") ["Y", "X"], .pred (.type "block") ["Y"]]⟩ (by simp [openRules])
      (fun x => if x = "Y" then "a" else "b") _ _ rfl ?_
    simp [LitTrue, iX, iY, ta, ho]
  have hma : LPDer eqCmpRel openRules (.action "mark") ["a"] := by
    simpa [iX] using hM ⟨.pred (.action "mark") ["X"], [.pred (.type "block") ["X"], .pred (.aux 1) []]⟩ (by simp [openRules])
      (fun _ => "a") _ _ rfl (by simp [LitTrue, iX, ta, hx])
  have hq : LPDer eqCmpRel openRules (.atom "q") ["a"] := by
    simpa [iX] using hM ⟨.pred (.atom "q") ["X"], [.pred (.action "mark") ["X"]]⟩ (by simp [openRules])
      (fun _ => "a") _ _ rfl (by simp [LitTrue, iX, hma])
  have hr := (h "q" ["a"]).mp hq
  have := hr (fun p as => (p = "on" ∧ as = ["a", "b"]) ∨ (p = "q" ∧ as = ["b"])) (by
    refine ⟨?_, ?_⟩
    · intro p ts hm
      simp only [openLP, exLP, List.mem_singleton, Prod.mk.injEq] at hm
      obtain ⟨rfl, rfl⟩ := hm
      exact .inl ⟨rfl, by simp [evalTs, evalT, stateInterp, nameText]⟩
    · intro n a σ hm ha e he p as hc
      simp only [openLP, exLP, List.mem_singleton, Prod.mk.injEq] at hm
      obtain ⟨rfl, rfl⟩ := hm
      have hp := ha.2
      simp only [openAct, dropNeg, Sat] at hp
      rw [quantBlock_exists'] at hp
      obtain ⟨τ, _, t2, t3⟩ := hp
      have hx : τ ⟨"?x", "block"⟩ = σ ⟨"?x", "block"⟩ := t2 _ (by simp)
      simp only [stateInterp, evalTs, evalT, true_and, List.cons.injEq, and_true] at t3
      simp only [openAct, List.mem_singleton] at he
      subst he
      simp only [dropNegE] at hc
      cases hc
      rcases t3 with t3 | t3
      · refine .inr ⟨rfl, ?_⟩
        simp [evalTs, evalT, ← hx, t3.2]
      · simp at t3)
  simp at this

end Tarski

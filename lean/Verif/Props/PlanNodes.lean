import Verif.Props.SearchNodes
import Verif.Props.PddlPlan
import Verif.Props.NaivePlan
import Mathlib.Data.List.Pairwise
/-! C126: the plans that breadth-first search records in its nodes, for problems whose actions have been grounded. -/
namespace Tarski

/-! ### Specification (with `LiftedRun` and `Represents` of `Props/Pipeline.lean` and `SNode.plan` of `Props/SearchNodes.lean`) -/

/-- The operator is the instance of one of the actions for the arguments that the step names. -/
def InstanceFor (X : LPInput) (acts : List (String × PAction)) (o : Operator) (step : String × List String) : Prop :=
  ∃ a cs, (step.1, a) ∈ acts ∧ step.2 = cs.map (fun c => nameText c.name) ∧ (∀ c ∈ cs, DeclaredIn X c) ∧ o = instOp a cs

/-- What a search that stops has found: `st` is what it holds, `init` stands for the state `S₀`, `goal` is to be reached. -/
structure FindsPlans (X : LPInput) (acts : List (String × PAction)) (L : MLang) (R : CmpRel) (S₀ : PState) (goal : Formula)
    (st : NState MState Operator (Except Err String)) : Prop where
  /-- Every node records a sequence of action instances that can be executed and gives its state. -/
  records : ∀ n ∈ st.expanded, ∃ steps S, List.Forall₂ (InstanceFor X acts) n.plan steps ∧ LiftedRun X R S₀ steps S ∧ Represents L n.state S
  /-- No sequence of action instances that gives the state of the node is shorter. -/
  shortest : ∀ n ∈ st.expanded, ∀ steps S, LiftedRun X R S₀ steps S → Represents L n.state S → n.plan.length ≤ steps.length
  /-- If the goal can be reached, then the first node whose state is a goal records one of the shortest plans. -/
  finds : ∀ steps S σ, LiftedRun X R S₀ steps S → Sat (stateInterp X.dom R S) goal σ →
    ∃ before n after, st.expanded = before ++ n :: after ∧
      (∀ m ∈ before, evFormula L m.state noSigma goal = .ok false) ∧ evFormula L n.state noSigma goal = .ok true ∧
      (∃ best T, List.Forall₂ (InstanceFor X acts) n.plan best ∧ LiftedRun X R S₀ best T ∧ Represents L n.state T ∧ ∀ τ, Sat (stateInterp X.dom R T) goal τ) ∧
      ∀ steps' S' σ', LiftedRun X R S₀ steps' S' → Sat (stateInterp X.dom R S') goal σ' → n.plan.length ≤ steps'.length

/-! ### Proof -/

section
variable {X : LPInput} {L : MLang} {consts : Name → Option Const} {init : MState} {acts : List (String × PAction)}

theorem binds_args {ps : List Var} {cs : List Const} {τ : Asg String} (h : Binds X ps cs τ) :
    ps.map τ = cs.map (fun c => nameText c.name) ∧ ∀ c ∈ cs, DeclaredIn X c := by
  induction h with
  | nil => exact ⟨rfl, by simp⟩
  | @cons v c ps cs h _ ih =>
    refine ⟨by simp [h.1, ih.1], ?_⟩
    intro d hd
    rcases List.mem_cons.1 hd with rfl | hd
    · exact h.2.1
    · exact ih.2 d hd

theorem exec_run_steps (T : StripsTask X L consts init acts) (W : LPWellFormed X) (R : CmpRel) (dom : Domains) {ops : List Operator}
    (hops : ∀ o ∈ ops, ∃ x ∈ acts, ∃ cs τ, Binds X x.2.params cs τ ∧ o = instOp x.2 cs) :
    ∀ (os : List Operator) (m m' : MState) (S : PState), Tracks X L m S → (∀ o ∈ os, o ∈ ops) → execPlan L dom m os = .ok (some m') →
      ∃ steps S', List.Forall₂ (InstanceFor X acts) os steps ∧ LiftedRun X R S steps S' ∧ Tracks X L m' S'
  | [], m, m', S, ht, _, he => by
    simp only [execPlan, Except.ok.injEq, Option.some.injEq] at he
    exact ⟨[], S, .nil, .nil S, he ▸ ht⟩
  | o :: os, m, m', S, ht, ho, he => by
    obtain ⟨x, hx, cs, τ, hb, rfl⟩ := hops o (ho o (by simp))
    obtain ⟨b, h1, h2⟩ := inst_applicable T W R ht hx hb
    obtain ⟨m1, h3, h4⟩ := inst_progress T W R dom ht hx hb
    cases b with
    | false => simp [execPlan, h1] at he
    | true =>
      simp only [execPlan, h1, h3] at he
      obtain ⟨plan, S', g1, g2, g3⟩ := exec_run_steps T W R dom hops os m1 m' (fun p as =>
        (∃ e ∈ x.2.effs, Causes (stateInterp X.dom R S) true e τ p as) ∨ (S p as ∧ ¬ ∃ e ∈ x.2.effs, Causes (stateInterp X.dom R S) false e τ p as))
        (h4 _ fun _ _ => Iff.rfl) (fun o ho' => ho o (by simp [ho'])) he
      refine ⟨(x.1, x.2.params.map τ) :: plan, S', .cons ?_ g1, .cons _ _ _ x.1 ⟨x.2.params, x.2.pre, x.2.effs⟩ τ _ (by rw [T.actions]; exact List.mem_map.2 ⟨x, hx, rfl⟩)
        ⟨binds_typed W (T.sorts x hx) hb, h2.1 rfl⟩ (fun _ _ => Iff.rfl) g2, g3⟩
      exact ⟨x.2, cs, hx, (binds_args hb).1, (binds_args hb).2, rfl⟩

theorem first_true {α : Type} {P : α → Prop} [DecidablePred P] : ∀ {l : List α}, (∃ x ∈ l, P x) → ∃ b n a, l = b ++ n :: a ∧ (∀ m ∈ b, ¬ P m) ∧ P n
  | [], h => by obtain ⟨x, hx, _⟩ := h; cases hx
  | y :: l, h => by
    by_cases hy : P y
    · exact ⟨[], y, l, rfl, by simp, hy⟩
    · obtain ⟨x, hx, hp⟩ := h
      rcases List.mem_cons.1 hx with rfl | hx
      · exact absurd hp hy
      · obtain ⟨b, n, a, rfl, h1, h2⟩ := first_true ⟨x, hx, hp⟩
        refine ⟨y :: b, n, a, rfl, ?_, h2⟩
        intro m hm
        rcases List.mem_cons.1 hm with rfl | hm
        · exact hy
        · exact h1 m hm

/-- Any set of instances that contains the ones that can be applied in reachable states will do. -/
theorem node_plans (T : StripsTask X L consts init acts) (W : LPWellFormed X) (R : CmpRel) (ops : List Operator)
    (hs : ∀ o ∈ ops, ∃ x ∈ acts, ∃ cs τ, Binds X x.2.params cs τ ∧ o = instOp x.2 cs)
    (hc : ∀ x ∈ acts, ∀ S, PReach X R S → ∀ τ, (∀ v ∈ x.2.params, OfSort X.dom v.sort (τ v)) → Sat (stateInterp X.dom R S) x.2.pre τ →
      ∀ cs, Binds X x.2.params cs τ → instOp x.2 cs ∈ ops)
    (hist : List MOp) (hi : init = MState.empty.run L hist) (N : String → Prop) (K V : Const → Prop)
    (hp : PrintedApart X L init acts N K V) (S₀ : PState) (hS : Represents L init S₀) (max : Int) (hmax : max < 0) :
    ∃ bound, ∀ fuel, bound < fuel →
      ∃ st, nodeSearch (textSearchModel L X.dom init X.goal ops) max fuel = some (.ok (true, st)) ∧ FindsPlans X acts L R S₀ X.goal st := by
  obtain ⟨bound, hb⟩ := search_ops T W R ops hs hc hist hi N K V hp S₀ hS max hmax
  obtain ⟨htr, -⟩ := tracks_init T R hS
  refine ⟨bound, fun fuel hf => ?_⟩
  obtain ⟨st, h1, -, h3, -, h5, -⟩ := hb fuel hf
  obtain ⟨ns, hn, rfl⟩ : ∃ ns, nodeSearch (textSearchModel L X.dom init X.goal ops) max fuel = some (.ok (true, ns)) ∧ ns.shade = st := by
    rw [C125_search] at h1
    cases hr : nodeSearch (textSearchModel L X.dom init X.goal ops) max fuel with
    | none => rw [hr] at h1; cases h1
    | some r =>
      cases r with
      | error e => rw [hr] at h1; cases h1
      | ok q =>
        obtain ⟨b, ns⟩ := q
        rw [hr] at h1
        simp only [Option.map_some, Except.map, Option.some.injEq, Except.ok.injEq, Prod.mk.injEq] at h1
        obtain ⟨rfl, h1⟩ := h1
        exact ⟨ns, rfl, h1⟩
  have hrec : ∀ n ∈ ns.expanded, ∃ steps S, List.Forall₂ (InstanceFor X acts) n.plan steps ∧ LiftedRun X R S₀ steps S ∧ Tracks X L n.state S := by
    intro n hm
    obtain ⟨g1, g2⟩ := C125_planning L X.dom init X.goal ops _ hn n (List.mem_append_left _ hm)
    exact exec_run_steps T W R X.dom hs n.plan init n.state S₀ htr g1 g2
  have hgoal : ∀ n ∈ ns.expanded, ∃ b, evFormula L n.state noSigma X.goal = .ok b ∧
      ∀ S, Represents L n.state S → ∀ σ, (b = true ↔ Sat (stateInterp X.dom R S) X.goal σ) := by
    intro n hm
    obtain ⟨-, S, -, -, ht⟩ := hrec n hm
    obtain ⟨b, hb1, -⟩ := eval_cond T W R ht (fun _ => "") _ T.goal
    refine ⟨b, hb1, fun S' hS' σ => ?_⟩
    obtain ⟨b', hb2, hb3⟩ := eval_cond T W R ⟨hS', ht.declared⟩ σ _ T.goal
    rw [hb1] at hb2
    cases hb2
    exact hb3
  have hmem : ∀ q ∈ ns.shade.expanded, ∃ n ∈ ns.expanded, q = n.shade := by
    intro q hq
    obtain ⟨n, hn, rfl⟩ := List.mem_map.1 hq
    exact ⟨n, hn, rfl⟩
  have hsort : ns.expanded.Pairwise fun n m => n.plan.length ≤ m.plan.length := by
    obtain ⟨opn, clo, it, g, hi, -, -, -⟩ := (bfs_done (bfs_of_nodes hn)).inv
    have h := hi.sorted
    dsimp only at h
    rw [List.pairwise_append] at h
    have h' := h.1
    unfold NState.shade at h'
    rw [List.pairwise_map] at h'
    exact h'
  refine ⟨ns, hn, ?_, ?_, ?_⟩
  · intro n hm
    obtain ⟨steps, S, g1, g2, g3⟩ := hrec n hm
    exact ⟨steps, S, g1, g2, g3.same⟩
  · intro n hm steps S hr hrep
    obtain ⟨q, hq, g1, g2⟩ := h3 steps S hr
    obtain ⟨n', hn', rfl⟩ := hmem q hq
    by_cases e : n' = n
    · subst e; exact g2
    · exfalso
      have h5' : ns.expanded.Pairwise fun n m => ¬ ∃ S, Represents L n.state S ∧ Represents L m.state S := List.pairwise_map.1 h5
      obtain ⟨i, hi, rfl⟩ := List.mem_iff_getElem.1 hn'
      obtain ⟨j, hj, rfl⟩ := List.mem_iff_getElem.1 hm
      rcases Nat.lt_trichotomy i j with hlt | rfl | hlt
      · exact List.pairwise_iff_getElem.1 h5' i j hi hj hlt ⟨S, g1, hrep⟩
      · exact e rfl
      · exact List.pairwise_iff_getElem.1 h5' j i hj hi hlt ⟨S, hrep, g1⟩
  · intro steps S σ hr hsat
    have hex : ∃ n ∈ ns.expanded, evFormula L n.state noSigma X.goal = .ok true := by
      obtain ⟨q, hq, g1, -⟩ := h3 steps S hr
      obtain ⟨n, hm, rfl⟩ := hmem q hq
      obtain ⟨b, hb1, hb2⟩ := hgoal n hm
      exact ⟨n, hm, by rw [hb1, (hb2 S g1 σ).2 hsat]⟩
    obtain ⟨before, n, after, he, hbef, hng⟩ := first_true hex
    have hnm : n ∈ ns.expanded := by rw [he]; simp
    refine ⟨before, n, after, he, ?_, hng, ?_, ?_⟩
    · intro m hm
      obtain ⟨b, hb1, -⟩ := hgoal m (by rw [he]; simp [hm])
      cases b with
      | false => exact hb1
      | true => exact absurd hb1 (hbef m hm)
    · obtain ⟨best, T', g1, g2, g3⟩ := hrec n hnm
      obtain ⟨b, hb1, hb2⟩ := hgoal n hnm
      rw [hng] at hb1
      cases hb1
      exact ⟨best, T', g1, g2, g3.same, fun τ => (hb2 T' g3.same τ).1 rfl⟩
    · intro steps' S' σ' hr' hsat'
      obtain ⟨q, hq, g1, g2⟩ := h3 steps' S' hr'
      obtain ⟨n', hm', rfl⟩ := hmem q hq
      obtain ⟨b, hb1, hb2⟩ := hgoal n' hm'
      have hgo : evFormula L n'.state noSigma X.goal = .ok true := by rw [hb1, (hb2 S' g1 σ').2 hsat']
      refine Nat.le_trans ?_ g2
      rw [he] at hm' hsort
      rw [List.pairwise_append, List.pairwise_cons] at hsort
      rcases List.mem_append.1 hm' with h | h
      · exact absurd hgo (hbef n' h)
      · rcases List.mem_cons.1 h with rfl | h
        · exact Nat.le_refl _
        · exact hsort.2.1.1 n' h

/-- C126: grounding by a logic program and searching. Either the goal cannot be reached and grounding says so, or the search, without a limit, finds plans. -/
theorem C126_task (T : StripsTask X L consts init acts) (W : LPWellFormed X) (R : CmpRel) (incl : Bool) (Ti : LPTight X incl)
    (run : SolverRun) (fl : List String) (h : SolverRunOf X R true incl run) (ord : List (List AStr) → List (List AStr))
    (hord : ∀ l, (ord l).Perm l) (hist : List MOp) (hi : init = MState.empty.run L hist) (N : String → Prop) (K V : Const → Prop)
    (hp : PrintedApart X L init acts N K V) (S₀ : PState) (hS : Represents L init S₀) (max : Int) (hmax : max < 0) :
    (groundProblemOps run consts acts ord (newStrategy X true fl) = .error .representation ∧
      ∀ steps S, LiftedRun X R S₀ steps S → ∀ σ, ¬ Sat (stateInterp X.dom R S) X.goal σ) ∨
    ∃ ops, groundProblemOps run consts acts ord (newStrategy X true fl) = .ok ops ∧ ∃ bound, ∀ fuel, bound < fuel →
      ∃ st, nodeSearch (textSearchModel L X.dom init X.goal (ops.map (·.op))) max fuel = some (.ok (true, st)) ∧
        FindsPlans X acts L R S₀ X.goal st := by
  obtain ⟨-, hre⟩ := tracks_init T R hS
  rcases ground_ops (fl := fl) T W R incl Ti h hord with ⟨ops, ho, hsound, hcompl⟩ | ⟨he, hno⟩
  · right
    refine ⟨ops, ho, node_plans T W R (ops.map (·.op)) ?_ ?_ hist hi N K V hp S₀ hS max hmax⟩
    · intro o hm
      obtain ⟨o', ho', rfl⟩ := List.mem_map.1 hm
      exact hsound o' ho'
    · intro x hx S hS τ h1 h2 cs h3
      obtain ⟨o, ho, e⟩ := hcompl x hx S hS τ h1 h2 cs h3
      exact List.mem_map.2 ⟨o, ho, e⟩
  · exact .inl ⟨he, fun plan S hr => hno S (run_reach R hr hre)⟩

end

/-- C126: reading two PDDL files with STRIPS features, grounding and searching: unless grounding says that the goal cannot be reached (and then it cannot),
the search stops and finds plans. -/
theorem C126_files (ci : Bool) (D0 : PDecls) (h1 : D0.sorts = []) (h2 : D0.consts = []) (h3 : D0.preds = []) (h4 : D0.funs = [])
    (dom inst : Text) (p : PProblem) (costFns : List String) (hr : readProblemFiles ci D0 dom inst = .ok p) (P : PlainProblem p costFns)
    (R : CmpRel) (run : SolverRun) (fl : List String)
    (h : SolverRunOf (lpInputOf p costFns) R true false run) (ord : List (List AStr) → List (List AStr)) (hord : ∀ l, (ord l).Perm l)
    (S₀ : PState) (hS : Represents p.lang.mlang p.init S₀) (max : Int) (hmax : max < 0) :
    ∃ g, p.goal = some g ∧
    ((groundProblemOps run p.lang.constTable p.actionTable ord (newStrategy (lpInputOf p costFns) true fl) = .error .representation ∧
      ∀ steps s, LiftedRun (lpInputOf p costFns) R S₀ steps s → ∀ σ, ¬ Sat (stateInterp p.lang.listDomain R s) g σ) ∨
    ∃ ops, groundProblemOps run p.lang.constTable p.actionTable ord (newStrategy (lpInputOf p costFns) true fl) = .ok ops ∧
      ∃ bound, ∀ fuel, bound < fuel →
      ∃ st, nodeSearch (textSearchModel p.lang.mlang p.lang.listDomain p.init g (ops.map (·.op))) max fuel = some (.ok (true, st)) ∧
        FindsPlans (lpInputOf p costFns) p.actionTable p.lang.mlang R S₀ g st) := by
  have S := C122_strips ci D0 h1 h2 h3 h4 dom inst p costFns hr P
  obtain ⟨g, hg, -⟩ := S.goal
  obtain ⟨hist, hi⟩ := S.init
  have := C126_task S.task S.wellFormed R false S.tight run fl h ord hord hist hi _ _ _ S.printed S₀ hS max hmax
  have e : (lpInputOf p costFns).goal = g := by
    show p.goal.getD .top = g
    rw [hg]; rfl
  rw [e] at this
  exact ⟨g, hg, this⟩

/-- C126: the same with the actions grounded naively, which always succeeds. -/
theorem C126_naive (ci : Bool) (D0 : PDecls) (h1 : D0.sorts = []) (h2 : D0.consts = []) (h3 : D0.preds = []) (h4 : D0.funs = [])
    (dom inst : Text) (p : PProblem) (costFns : List String) (hr : readProblemFiles ci D0 dom inst = .ok p) (P : PlainProblem p costFns)
    (R : CmpRel) (S₀ : PState) (hS : Represents p.lang.mlang p.init S₀) (max : Int) (hmax : max < 0) :
    ∃ g ops, p.goal = some g ∧ naiveOps p.lang.listDomain p.lang.constTable p.actionTable = .ok ops ∧
      ∃ bound, ∀ fuel, bound < fuel →
      ∃ st, nodeSearch (textSearchModel p.lang.mlang p.lang.listDomain p.init g (ops.map (·.op))) max fuel = some (.ok (true, st)) ∧
        FindsPlans (lpInputOf p costFns) p.actionTable p.lang.mlang R S₀ g st := by
  have S := C122_strips ci D0 h1 h2 h3 h4 dom inst p costFns hr P
  obtain ⟨g, hg, -⟩ := S.goal
  obtain ⟨hist, hi⟩ := S.init
  have e : (lpInputOf p costFns).goal = g := by
    show p.goal.getD .top = g
    rw [hg]; rfl
  obtain ⟨ops, ho, hs, hc⟩ := naive_ops S.task S.wellFormed S.declaredDoms S.actionNames
  obtain ⟨bound, hb⟩ := node_plans S.task S.wellFormed R (ops.map (·.op))
    (by
      intro o hm
      obtain ⟨o', ho', rfl⟩ := List.mem_map.1 hm
      exact hs o' ho')
    (by
      intro x hx s hs τ h1 h2 cs h3
      obtain ⟨o, ho, e⟩ := hc x hx cs τ h3
      exact List.mem_map.2 ⟨o, ho, e⟩) hist hi _ _ _ S.printed S₀ hS max hmax
  rw [e] at hb
  exact ⟨g, ops, hg, ho, bound, hb⟩

/-- Naive grounding and search on what was read from two files: the first goal node records a plan with one step, an instance of the action. -/
example : ∃ p g ops, readProblemFiles false bareLang flipDomText flipInstText = .ok p ∧ p.goal = some g ∧
    naiveOps p.lang.listDomain p.lang.constTable p.actionTable = .ok ops ∧ ∃ bound, ∀ fuel, bound < fuel →
      ∃ st, nodeSearch (textSearchModel p.lang.mlang p.lang.listDomain p.init g (ops.map (·.op))) (-1) fuel = some (.ok (true, st)) ∧
        ∃ n ∈ st.expanded, evFormula p.lang.mlang n.state noSigma g = .ok true ∧ n.plan.length = 1 ∧
          ∃ step, List.Forall₂ (InstanceFor (lpInputOf p []) p.actionTable) n.plan [step] := by
  have hg : ∃ σ, Sat (stateInterp flipProblem.lang.listDomain eqCmpRel flipAfter)
      (.comp .list .and [.atom (.user "q") [flipObj.toTerm], neg (.atom (.user "p") [flipObj.toTerm])]) σ :=
    ⟨fun _ => "", by simp [neg, Sat, SatAll, evalTs, evalT, stateInterp, flipAfter, flipObj, Const.toTerm, nameText]⟩
  have hno : ∀ σ, ¬ Sat (stateInterp flipProblem.lang.listDomain eqCmpRel flipBefore)
      (.comp .list .and [.atom (.user "q") [flipObj.toTerm], neg (.atom (.user "p") [flipObj.toTerm])]) σ := fun σ => by
    simp [neg, Sat, SatAll, evalTs, evalT, stateInterp, flipBefore, flipObj, Const.toTerm, nameText]
  obtain ⟨g, ops, h1, h2, b, hb⟩ := C126_naive false bareLang rfl rfl rfl rfl _ _ _ [] flip_read flipProblem_plain eqCmpRel flipBefore flipProblem_before (-1) (by decide)
  cases h1
  refine ⟨flipProblem, _, ops, flip_read, rfl, h2, b, fun fuel hf => ?_⟩
  obtain ⟨st, h3, F⟩ := hb fuel hf
  obtain ⟨σ, hg⟩ := hg
  obtain ⟨bef, n, aft, he, -, hgo, ⟨best, T, g1, g2, -, g4⟩, hmin⟩ := F.finds _ _ σ flipProblem_plan hg
  have hle := hmin _ _ σ flipProblem_plan hg
  refine ⟨st, h3, n, by rw [he]; simp, hgo, ?_⟩
  have hl := g1.length_eq
  match best, g1, g2, hl with
  | [], _, g2, _ =>
    cases g2
    exact absurd (g4 σ) (hno σ)
  | [step], g1, _, hl => exact ⟨by simpa using hl, step, g1⟩
  | _ :: _ :: _, _, _, hl => simp at hl hle; omega

end Tarski

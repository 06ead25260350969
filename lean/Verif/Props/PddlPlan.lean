import Verif.Props.PddlWell
/-! C122: planning for PDDL files. -/
namespace Tarski

/-! ### Specification -/

/-- A variable or a name. -/
def PlainArg : Term → Prop
  | .var _ => True
  | .const (.str _) _ => True
  | _ => False

mutual
/-- A condition without quantifiers, functions and numbers, in which terms are compared with `=` and `≠` only. -/
def PlainCond : Formula → Prop
  | .top => True
  | .bot => True
  | .atom (.user _) ts => ∀ t ∈ ts, PlainArg t
  | .atom (.cmp c) ts => (c = .eq ∨ c = .ne) ∧ ∀ t ∈ ts, PlainArg t
  | .comp _ _ fs => PlainConds fs
  | .quant _ _ _ => False
def PlainConds : List Formula → Prop
  | [] => True
  | f :: fs => PlainCond f ∧ PlainConds fs
end

/-- An unconditional effect that adds or deletes an atom. -/
def PlainEff (e : Effect) : Prop :=
  ∃ q ts, (∀ t ∈ ts, PlainArg t) ∧ (e = .del .top (.user q) ts ∨ e = .add .top (.user q) ts)

/-- The files make use of sorts, predicates, actions without quantifiers, functions and conditional effects, and costs, only. -/
structure PlainProblem (p : PProblem) (costFns : List String) : Prop where
  sorts : ∀ d ∈ p.lang.sorts, d.bounds = none
  preds : ∀ q ∈ p.lang.preds, ∀ s ∈ q.2, p.lang.bounds s = none
  funs : ∀ f ∈ p.lang.funs, (f.1 = "total-cost" ∨ f.1 ∈ costFns) ∧ (∀ s ∈ f.2.1, p.lang.bounds s = none) ∧ (p.lang.bounds f.2.2).isSome = true
  params : ∀ a ∈ p.actions, ∀ v ∈ a.params, p.lang.bounds v.sort = none
  pre : ∀ a ∈ p.actions, PlainCond a.pre
  effs : ∀ a ∈ p.actions, ∀ e ∈ a.effs, PlainEff e
  goal : ∀ g, p.goal = some g → PlainCond g

/-! ### Sorts -/

theorem scopedTs_mem {D : PDecls} {sc : Var → Prop} : ∀ {ts : List Term}, ScopedTs D sc ts → ∀ t ∈ ts, ScopedT D sc t
  | [], _, t, ht => by cases ht
  | t :: ts, h, u, hu => by
    rcases List.mem_cons.1 hu with rfl | hu
    · exact h.1
    · exact scopedTs_mem h.2 u hu

theorem atSign_legible {n : String} (h : LowerName n) : Legible ("@" ++ n) := by
  refine ⟨?_, fun c hc => ?_⟩
  · intro e
    have := congrArg String.toList e
    simp at this
  · rw [String.toList_append, List.mem_append] at hc
    rcases hc with hc | hc
    · have : c = '@' := by simpa using hc
      subst this
      decide
    · exact h.legible.2 c hc

section
variable {p : PProblem} {costFns : List String} (W : WellFormedProblem p) (P : PlainProblem p costFns)
include W P

theorem plain_parents : ∀ d ∈ p.lang.allSorts, d.bounds = none → p.lang.bounds d.parent = none := by
  intro d hd hb
  have hs : d ∈ p.lang.sorts := by
    simp only [PDecls.allSorts, List.mem_append] at hd
    rcases hd with hd | hd
    · exfalso
      split at hd
      · have : ∀ d ∈ builtinSorts, d.bounds ≠ none := by decide
        exact this d hd hb
      · cases hd
    · exact hd
  have hi := W.lang.intervals d hs
  rw [hb] at hi
  simp only [Option.isSome_none, Bool.false_eq_true, false_iff] at hi
  cases he : p.lang.sort d.parent with
  | none => simp [PDecls.bounds, he]
  | some e =>
    have hn : e.name = d.parent := by simpa using List.find?_some he
    have hm := List.mem_of_find?_eq_some he
    simp only [PDecls.allSorts, List.mem_append] at hm
    rcases hm with hm | hm
    · exfalso
      split at hm
      · exact hi (List.mem_map.2 ⟨e, hm, hn⟩)
      · cases hm
    · simp [PDecls.bounds, he, P.sorts e hm]

/-- What is below a sort that is not an interval is above no interval. -/
theorem plain_isSub {s t : String} (hs : p.lang.bounds s = none) (h : p.lang.isSub s t = true) : p.lang.bounds t = none := by
  unfold PDecls.isSub at h
  revert h hs
  generalize p.lang.allSorts.length + 1 = k
  induction k generalizing s with
  | zero =>
    intro hs h
    have : s = t := by simpa [subGo] using h
    exact this ▸ hs
  | succ k ih =>
    intro hs h
    rcases subGo_cases h with rfl | ⟨l, q, hl, hq, h⟩
    · exact hs
    · cases hl
      obtain ⟨d, hd, rfl⟩ := Option.map_eq_some_iff.1 hq
      refine ih (plain_parents W P d (List.mem_of_find?_eq_some hd) ?_) h
      simpa [PDecls.bounds, hd] using hs

/-- A constant of an object sort is one of the language. -/
theorem plain_args : ∀ {pt : List Const} {ss : List String}, List.Forall₂ (ArgOf p.lang) pt ss → (∀ s ∈ ss, p.lang.bounds s = none) →
    ∀ c ∈ pt, (c.name, c.sort) ∈ p.lang.consts
  | _, _, .nil, _, c, hc => by cases hc
  | _, _, .cons (a := a) h hs, hn, c, hc => by
    rcases List.mem_cons.1 hc with rfl | hc
    · rcases h with h | ⟨-, -, h⟩
      · exact h.1
      · rw [hn _ List.mem_cons_self] at h; cases h
    · exact plain_args hs (fun s hs => hn s (List.mem_cons_of_mem _ hs)) c hc

theorem plain_fact {q : String} {pt : List Const} (h : p.init.holds p.lang.mlang q pt = true) :
    Legible q ∧ ∀ c ∈ pt, (c.name, c.sort) ∈ p.lang.consts := by
  obtain ⟨ss, h1, h2⟩ := W.facts q pt h
  exact ⟨(W.lang.preds _ h1).1.legible, plain_args W P h2 (P.preds _ h1)⟩

theorem plain_value {f : String} {pt : List Const} {v : Const} (h : p.init.value p.lang.mlang f pt = .ok v) :
    (f = "total-cost" ∨ f ∈ costFns) ∧ Legible f ∧ (∀ c ∈ pt, (c.name, c.sort) ∈ p.lang.consts) ∧ (∃ i, v.name = .int i) ∧ Legible v.sort := by
  obtain ⟨ss, s, h1, h2⟩ := W.values f pt v h
  obtain ⟨g1, g2, g3⟩ := P.funs _ h1
  have hl : pt.length = ss.length := by simpa using h2.length_eq
  have h3 : List.Forall₂ (ArgOf p.lang) pt ss ∧ ArgOf p.lang v s := by
    clear * - h2 hl
    induction pt generalizing ss with
    | nil =>
      cases ss with
      | nil => cases h2 with | cons h _ => exact ⟨.nil, h⟩
      | cons => cases hl
    | cons c pt ih =>
      cases ss with
      | nil => cases hl
      | cons s ss =>
        cases h2 with
        | cons h h2 =>
          obtain ⟨a, b⟩ := ih ss h2 (by simpa using hl)
          exact ⟨.cons h a, b⟩
  have hv : (∃ i, v.name = .int i) ∧ v.sort = s := by
    rcases h3.2 with ⟨hc, hs⟩ | ⟨hi, hs, -⟩
    · have := plain_isSub W P (W.lang.consts _ hc).2.2 hs
      rw [this] at g3; cases g3
    · exact ⟨hi, hs⟩
  refine ⟨g1, ?_, plain_args W P h3.1 g2, hv.1, ?_⟩
  · rcases (W.lang.funs _ h1).1 with h | ⟨n, h, hn⟩
    · exact h.legible
    · have h : f = "@" ++ n := h
      rw [h]; exact atSign_legible hn
  · rw [hv.2]
    simp only [PDecls.bounds] at g3
    cases he : p.lang.sort s with
    | none => rw [he] at g3; cases g3
    | some e =>
      have hn : e.name = s := by simpa using List.find?_some he
      have hm := List.mem_of_find?_eq_some he
      simp only [PDecls.allSorts, List.mem_append] at hm
      rcases hm with hm | hm
      · split at hm
        · have : ∀ e ∈ builtinSorts, Legible e.name := by unfold Legible; decide
          exact hn ▸ this e hm
        · cases hm
      · rw [he] at g3
        simp [P.sorts e hm] at g3

omit W P in
theorem plain_term {sc : Var → Prop} {ps : List Var} (hs : ∀ v, sc v → v ∈ ps) {t : Term} (h : ScopedT p.lang sc t) (hp : PlainArg t) :
    StripsTerm (lpInputOf p costFns) ps t := by
  match t, h, hp with
  | .var v, h, _ => exact hs v h
  | .const (.str n) s, h, _ =>
    rcases h with h | ⟨⟨i, hi⟩, -⟩
    · exact h
    · cases hi
  | .const (.int n) s, _, h => exact h.elim
  | .app _ _, _, h => exact h.elim
  | .ite _ _ _, _, h => exact h.elim

omit W P in
theorem plain_terms' {sc : Var → Prop} {ps : List Var} (hs : ∀ v, sc v → v ∈ ps) {ts : List Term} (h : ScopedTs p.lang sc ts)
    (hp : ∀ t ∈ ts, PlainArg t) : ∀ t ∈ ts, StripsTerm (lpInputOf p costFns) ps t :=
  fun t ht => plain_term hs (scopedTs_mem h t ht) (hp t ht)

end

section
variable {p : PProblem} {costFns : List String}

mutual
theorem plain_cond {sc : Var → Prop} {ps : List Var} (hs : ∀ v, sc v → v ∈ ps) : ∀ f : Formula, ScopedF p.lang sc f → PlainCond f →
    StripsCond (lpInputOf p costFns) ps f
  | .top, _, _ => trivial
  | .bot, _, _ => trivial
  | .atom (.user _) ts, h, hp => plain_terms' hs h.1 hp
  | .atom (.cmp _) ts, h, hp => ⟨hp.1, h.2.1, plain_terms' hs h.1 hp.2⟩
  | .comp _ .not fs, h, hp => ⟨h.1 rfl, plain_conds hs fs h.2.2 hp⟩
  | .comp _ .and fs, h, hp => plain_conds hs fs h.2.2 hp
  | .comp _ .or fs, h, hp => plain_conds hs fs h.2.2 hp
  | .quant _ _ _, _, hp => hp.elim
theorem plain_conds {sc : Var → Prop} {ps : List Var} (hs : ∀ v, sc v → v ∈ ps) : ∀ fs : List Formula, ScopedFs p.lang sc fs → PlainConds fs →
    StripsConds (lpInputOf p costFns) ps fs
  | [], _, _ => trivial
  | f :: fs, h, hp => ⟨plain_cond hs f h.1 hp.1, plain_conds hs fs h.2 hp.2⟩
end

theorem plain_sortOf {t : Term} (hp : PlainArg t) : p.lang.rlang.sortOf t = sortOfTerm t := by
  match t, hp with
  | .var v, _ => simp [RLang.sortOf, sortOfTerm]
  | .const (.str n) s, _ => simp [RLang.sortOf, sortOfTerm]

theorem plain_fits : ∀ {ts : List Term} {ss : List String}, (∀ t ∈ ts, PlainArg t) →
    List.Forall₂ (fun t s => p.lang.isSub (p.lang.rlang.sortOf t) s = true) ts ss →
    List.Forall₂ (fun t s => p.lang.mlang.isSub (sortOfTerm t) s = true) ts ss
  | _, _, _, .nil => .nil
  | _, _, hp, .cons h hs => .cons (by rw [← plain_sortOf (p := p) (hp _ List.mem_cons_self)]; exact h)
      (plain_fits (fun t ht => hp t (List.mem_cons_of_mem _ ht)) hs)

variable (W : WellFormedProblem p) (P : PlainProblem p costFns)
include W

theorem plain_psorts {q : String} {ss : List String} (h : (q, ss) ∈ p.lang.preds) : p.lang.mlang.psorts q = ss := by
  show (dlookup p.lang.preds q).getD [] = ss
  rw [dlookup_mem_nodup W.lang.keys.1 h]; rfl

include P

theorem plain_eff {a : PAction} (ha : a ∈ p.actions) {e : Effect} (he : e ∈ a.effs) :
    StripsEff (lpInputOf p costFns) p.lang.mlang a.params e ∧ ∀ q ts, e = .add .top (.user q) ts → Legible q := by
  have hsc : ScopedE p.lang (· ∈ a.params) e := by
    have key : ∀ es : List Effect, ScopedEs p.lang (· ∈ a.params) es → e ∈ es → ScopedE p.lang (· ∈ a.params) e := by
      intro es
      induction es with
      | nil => intro _ he; cases he
      | cons x es ih =>
        intro h he
        rcases List.mem_cons.1 he with rfl | he
        · exact h.1
        · exact ih h.2 he
    exact key _ (W.actions a ha).effs he
  obtain ⟨q, ts, hp, rfl | rfl⟩ := P.effs a ha e he
  · exact ⟨⟨q, ts, plain_terms' (fun _ h => h) hsc.2.1 hp, .inl rfl⟩, by simp⟩
  · obtain ⟨-, h1, ss, h2, h3⟩ := hsc
    refine ⟨⟨q, ts, plain_terms' (fun _ h => h) h1 hp, .inr ⟨rfl, ?_⟩⟩, ?_⟩
    · rw [plain_psorts W h2]
      exact plain_fits hp h3
    · intro q' ts' e
      simp only [Effect.add.injEq, PSym.user.injEq, true_and] at e
      rw [← e.1]
      exact (W.lang.preds _ h2).1.legible

/-- A well-formed plain problem is a STRIPS problem. -/
theorem plain_strips (h : ∃ ops, p.init = MState.empty.run p.lang.mlang ops) : StripsProblem p costFns where
  sorts := W.lang.sorts
  parents := plain_parents W P
  consts := W.lang.consts
  distinct := W.lang.constKeys
  init := h
  facts _ _ h := plain_fact W P h
  values _ _ _ h := plain_value W P h
  names := W.names
  params a ha := ⟨(W.actions a ha).distinct, fun v hv =>
    ⟨((W.actions a ha).params v hv).1, ((W.actions a ha).params v hv).2, P.params a ha v hv⟩⟩
  pre a ha := plain_cond (fun _ h => h) _ (W.actions a ha).pre (P.pre a ha)
  effs a ha e he := (plain_eff W P ha he).1
  adds a ha q ts h := (plain_eff W P ha h).2 q ts rfl
  goal := by
    obtain ⟨g, hg, h⟩ := W.goal
    exact ⟨g, hg, plain_cond (fun _ h => h.elim) _ h (P.goal g hg)⟩

end

/-! ### The theorems -/

/-- C122: whatever the two files, if the reader accepts them and they make use of STRIPS features only, then what it returns meets all
requirements of grounding and planning. -/
theorem C122_strips (ci : Bool) (D0 : PDecls) (h1 : D0.sorts = []) (h2 : D0.consts = []) (h3 : D0.preds = []) (h4 : D0.funs = [])
    (dom inst : Text) (p : PProblem) (costFns : List String) (h : readProblemFiles ci D0 dom inst = .ok p) (P : PlainProblem p costFns) :
    StripsProblem p costFns := by
  obtain ⟨W, ⟨d, hd, hb⟩ | hi⟩ := readFiles_ok (wellDeclared_bare h1 h2 h3 h4) h
  · rw [P.sorts d hd] at hb; cases hb
  · exact plain_strips W P hi

/-- C122: reading two files with STRIPS features, grounding the actions that are reachable by a logic program, and breadth-first search: if
no plan exists that leads to a state that the grounding finds relaxed reachable, grounding says so; else the search decides, for any problem, whether there is
a plan, and the plan lengths are minimal. -/
theorem C122_planning (ci : Bool) (D0 : PDecls) (h1 : D0.sorts = []) (h2 : D0.consts = []) (h3 : D0.preds = []) (h4 : D0.funs = [])
    (dom inst : Text) (p : PProblem) (costFns : List String) (hr : readProblemFiles ci D0 dom inst = .ok p) (P : PlainProblem p costFns)
    (R : CmpRel) (run : SolverRun) (fl : List String)
    (h : SolverRunOf (lpInputOf p costFns) R true false run) (ord : List (List AStr) → List (List AStr)) (hord : ∀ l, (ord l).Perm l)
    (S₀ : PState) (hS : Represents p.lang.mlang p.init S₀) (max : Int) (hmax : max < 0) :
    ∃ g, p.goal = some g ∧
    ((groundProblemOps run p.lang.constTable p.actionTable ord (newStrategy (lpInputOf p costFns) true fl) = .error .representation ∧
      ∀ plan s, LiftedRun (lpInputOf p costFns) R S₀ plan s → ∀ σ, ¬ Sat (stateInterp p.lang.listDomain R s) g σ) ∨
    ∃ ops, groundProblemOps run p.lang.constTable p.actionTable ord (newStrategy (lpInputOf p costFns) true fl) = .ok ops ∧
      ∃ bound, ∀ fuel, bound < fuel →
      ∃ st, bfs (textSearchModel p.lang.mlang p.lang.listDomain p.init g (ops.map (·.op))) max fuel = some (.ok (true, st)) ∧
        (0 < st.numGoals ↔ ∃ plan s σ, LiftedRun (lpInputOf p costFns) R S₀ plan s ∧ Sat (stateInterp p.lang.listDomain R s) g σ) ∧
        (∀ plan s, LiftedRun (lpInputOf p costFns) R S₀ plan s → ∃ q ∈ st.expanded, Represents p.lang.mlang q.1 s ∧ q.2 ≤ plan.length) ∧
        (∀ q ∈ st.expanded, ∃ plan s, LiftedRun (lpInputOf p costFns) R S₀ plan s ∧ plan.length = q.2 ∧ Represents p.lang.mlang q.1 s)) := by
  have S := C122_strips ci D0 h1 h2 h3 h4 dom inst p costFns hr P
  obtain ⟨g, hg, -⟩ := S.goal
  refine ⟨g, hg, ?_⟩
  rcases C119_planning S R run fl h ord hord S₀ hS max hmax g hg with h | ⟨ops, h, b, hb⟩
  · exact .inl h
  · refine .inr ⟨ops, h, b, fun fuel hf => ?_⟩
    obtain ⟨st, a1, a2, a3, a4, -⟩ := hb fuel hf
    exact ⟨st, a1, a2, a3, a4⟩

/-! ### Example -/

theorem flipProblem_plain : PlainProblem flipProblem [] where
  sorts := by decide
  preds := by decide
  funs := by decide
  params a ha v hv := by
    simp only [flipProblem, List.mem_singleton] at ha
    subst ha
    simp only [flipAct, List.mem_singleton] at hv
    subst hv
    decide
  pre a ha := by
    simp only [flipProblem, List.mem_singleton] at ha
    subst ha
    simp [flipAct, PlainCond, PlainArg]
  effs a ha e he := by
    simp only [flipProblem, List.mem_singleton] at ha
    subst ha
    simp only [flipAct, List.mem_cons, List.not_mem_nil, or_false] at he
    rcases he with rfl | rfl
    · exact ⟨"q", _, by simp [PlainArg], .inr rfl⟩
    · exact ⟨"p", _, by simp [PlainArg], .inl rfl⟩
  goal g hg := by
    simp only [flipProblem, Option.some.injEq] at hg
    subst hg
    simp [neg, PlainCond, PlainConds, PlainArg, flipObj, Const.toTerm]

/-- Two files that the reader accepts, with STRIPS features only. -/
example : ∃ p, readProblemFiles false bareLang flipDomText flipInstText = .ok p ∧ WellFormedProblem p ∧ PlainProblem p [] ∧ p.actions ≠ [] ∧
    (∃ q pt, p.init.holds p.lang.mlang q pt = true) :=
  ⟨_, flip_read, C121_wellformed false bareLang rfl rfl rfl rfl _ _ _ flip_read, flipProblem_plain, by simp [flipProblem], "p", [flipObj], by decide⟩

end Tarski

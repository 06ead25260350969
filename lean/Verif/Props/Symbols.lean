import Mathlib.Tactic.Common
import Verif.Symbols
import Verif.Props.Nodes
import Verif.Props.Effects
import Verif.Props.Classify
import Verif.CompileNegLemmas
/-! C61: functions that only matter to costs. C62: the symbols of a problem. -/
namespace Tarski

/-! ### Specification -/

/-- The expression is given in the effect: a condition, an atom, a literal or one side of an assignment. -/
inductive EffExpr : Node → Effect → Prop
  | cond {e : Effect} : EffExpr (.f e.cond) e
  | add {c p ts} : EffExpr (.f (.atom p ts)) (.add c p ts)
  | del {c p ts} : EffExpr (.f (.atom p ts)) (.del c p ts)
  | lit {c l} : EffExpr (.f l) (.lit c l)
  | lhs {c f ts r} : EffExpr (.t (.app f ts)) (.assign c f ts r)
  | rhs {c f ts r} : EffExpr (.t r) (.assign c f ts r)
  | sub {n c vs es e} : e ∈ es → EffExpr n e → EffExpr n (.univ c vs es)

/-- The expression is given in the problem: the goal, a precondition, or in an effect. -/
inductive ProbExpr (goal : Formula) (as : List Schema) : Node → Prop
  | goal : ProbExpr goal as (.f goal)
  | pre {a} : a ∈ as → ProbExpr goal as (.f a.pre)
  | eff {a e n} : a ∈ as → e ∈ a.effs → EffExpr n e → ProbExpr goal as n

/-- The same outcome, up to the symbols outside of `V`: the same exception, not applicable in both cases, or states that agree
on `V`. -/
def SameOutcome (L : MLang) (V : Sym → Prop) : Except Err (Option MState) → Except Err (Option MState) → Prop
  | .error e, .error e' => e = e'
  | .ok none, .ok none => True
  | .ok (some m), .ok (some r) => ∀ x, V x → SameOn L m r x
  | _, _ => False

/-- A ground instance of one of the actions: `groundSchema` with a binding of variables to constants. -/
def GroundInstance (as : List Schema) (o : Operator) : Prop :=
  ∃ a ∈ as, ∃ s, ValsConst s ∧ groundSchema a s = .ok o

/-! ### States that agree on what is read -/

theorem sameOn_applyChanges {L : MLang} {m r : MState} {x} (cs : List Change) (h : SameOn L m r x) :
    SameOn L (applyChanges L m cs) (applyChanges L r cs) x := by
  cases x with
  | pred p =>
    intro pt
    rw [Bool.eq_iff_iff, holds_changes, holds_changes, h pt]
  | fn f =>
    intro pt
    refine value_ext (fun c => ?_)
    rw [value_changes, value_changes, h pt]

/-- The same exception or states that agree on `V`. -/
def AgreeRes (L : MLang) (V : Sym → Prop) : Except Err MState → Except Err MState → Prop
  | .error e, .error e' => e = e'
  | .ok m, .ok r => ∀ x, V x → SameOn L m r x
  | _, _ => False

theorem agree_seq {L : MLang} {V : Sym → Prop} {α} {f : MState → α → Except Err MState} {as : List α}
    (h : ∀ a ∈ as, ∀ m r, (∀ x, V x → SameOn L m r x) → AgreeRes L V (f m a) (f r a)) :
    ∀ m r, (∀ x, V x → SameOn L m r x) → AgreeRes L V (seqApply f m as) (seqApply f r as) := by
  induction as with
  | nil => exact fun m r hm => hm
  | cons a as ih =>
    intro m r hm
    have h1 := h a (by simp) m r hm
    simp only [seqApply]
    cases hf : f m a with
    | error e => cases hg : f r a with
      | error e' => simpa only [hf, hg, AgreeRes] using h1
      | ok r' => simp only [hf, hg, AgreeRes] at h1
    | ok m' => cases hg : f r a with
      | error e' => simp only [hf, hg, AgreeRes] at h1
      | ok r' =>
        simp only [hf, hg, AgreeRes] at h1
        exact ih (fun b hb => h b (by simp [hb])) m' r' h1

theorem agree_apply {L : MLang} {dom : Domains} (hd : ConstDoms dom) (V : Sym → Prop) (n : Nat) :
    ∀ e, (∀ x, e.Reads x → V x) → ∀ m r, (∀ x, V x → SameOn L m r x) →
      AgreeRes L V (applyFuel L dom n m e) (applyFuel L dom n r e) := by
  have base : ∀ (n : Nat) e, (∀ c vs es, e ≠ .univ c vs es) → (∀ x, e.Reads x → V x) → ∀ m r, (∀ x, V x → SameOn L m r x) →
      AgreeRes L V (applyFuel L dom n m e) (applyFuel L dom n r e) := by
    intro n e hu hv m r hm
    have hs : SelfContained e := by cases e <;> first | trivial | exact absurd rfl (hu _ _ _)
    rw [applyFuel_changes hd r n m e (fun x hx => hm x (hv x hx)) hs,
      applyFuel_changes hd r n r e (fun x _ => SameOn.refl ..) hs]
    cases changesFuel L dom r n e with
    | error e => rfl
    | ok cs => exact fun x hx => sameOn_applyChanges cs (hm x hx)
  have univ : ∀ (n : Nat), (∀ k, n = k + 1 → ∀ e, (∀ x, e.Reads x → V x) → ∀ m r, (∀ x, V x → SameOn L m r x) →
      AgreeRes L V (applyFuel L dom k m e) (applyFuel L dom k r e)) → ∀ c vs es, (∀ x, (Effect.univ c vs es).Reads x → V x) →
      ∀ m r, (∀ x, V x → SameOn L m r x) → AgreeRes L V (applyFuel L dom n m (.univ c vs es)) (applyFuel L dom n r (.univ c vs es)) := by
    intro n ih c vs es hv m r hm
    have hc := evFormula_same (L := L) (m := m) (r := r) (σ := noSigma) c
      (fun x hx => hm x (hv x (by simp only [Effect.Reads]; exact .inl hx)))
    unfold applyFuel
    simp only [Effect.cond, hc]
    cases evFormula L r noSigma c with
    | error e => rfl
    | ok b =>
      cases b with
      | false => exact hm
      | true =>
        simp only
        cases hss : enumSubsts dom vs with
        | error e => rfl
        | ok ss =>
          simp only
          cases n with
          | zero => rfl
          | succ k =>
            simp only
            refine agree_seq (f := fun m s => seqApply (fun m e => applyFuel L dom k m (subE s e)) m es)
              (fun s hs m r hm => ?_) m r hm
            refine agree_seq (f := fun m e => applyFuel L dom k m (subE s e)) (fun e he m r hm => ih k rfl _ ?_ m r hm) m r hm
            intro x hx
            refine hv x ?_
            simp only [Effect.Reads, readsAny_iff]
            exact .inr ⟨e, he, reads_subE (enumSubsts_vals hd hss s hs) x e hx⟩
  induction n with
  | zero =>
    intro e hv m r hm
    cases e with
    | univ c vs es => exact univ 0 (fun k hk => nomatch hk) c vs es hv m r hm
    | add => exact base _ _ (fun _ _ _ h => by cases h) hv m r hm
    | del => exact base _ _ (fun _ _ _ h => by cases h) hv m r hm
    | lit => exact base _ _ (fun _ _ _ h => by cases h) hv m r hm
    | assign => exact base _ _ (fun _ _ _ h => by cases h) hv m r hm
  | succ n ih =>
    intro e hv m r hm
    cases e with
    | univ c vs es => exact univ (n + 1) (fun k hk => by cases hk; exact ih) c vs es hv m r hm
    | add => exact base _ _ (fun _ _ _ h => by cases h) hv m r hm
    | del => exact base _ _ (fun _ _ _ h => by cases h) hv m r hm
    | lit => exact base _ _ (fun _ _ _ h => by cases h) hv m r hm
    | assign => exact base _ _ (fun _ _ _ h => by cases h) hv m r hm

theorem subEs_map (s : Subst) : ∀ es : List Effect, subEs s es = es.map (subE s)
  | [] => rfl
  | e :: es => by simp [subEs, subEs_map s es]

theorem uses_flatten {x : Sym} {f : Formula} : UsesF x (flatten f) → UsesF x f := by
  cases f with
  | comp k c fs =>
    cases c with
    | not => exact id
    | and =>
      intro h
      simp only [flatten, UsesF] at h
      exact (uses_flattenAux .and x _).1 h
    | or =>
      intro h
      simp only [flatten, UsesF] at h
      exact (uses_flattenAux .or x _).1 h
  | top => exact id
  | bot => exact id
  | atom p ts => exact id
  | quant q vs f => exact id

theorem groundSchema_ok {a : Schema} {s o} (h : groundSchema a s = .ok o) : o = ⟨flatten (subF s a.pre), subEs s a.effs⟩ := by
  simp only [groundSchema] at h
  cases h1 : checkBinding s a.params with
  | error e => simp [h1] at h
  | ok u => cases h2 : checkNames s a.params with
    | error e => simp [h1, h2] at h
    | ok u => simp only [h1, h2, Except.ok.injEq] at h; exact h.symm

theorem agree_plan {L : MLang} {dom : Domains} (hd : ConstDoms dom) (V : Sym → Prop) (as : List Schema)
    (hpre : ∀ a ∈ as, ∀ x, UsesF x a.pre → V x) (heff : ∀ a ∈ as, ∀ e ∈ a.effs, ∀ x, e.Reads x → V x) :
    ∀ (plan : List Operator), (∀ o ∈ plan, GroundInstance as o) → ∀ m r, (∀ x, V x → SameOn L m r x) →
      SameOutcome L V (execPlan L dom m plan) (execPlan L dom r plan) := by
  intro plan
  induction plan with
  | nil => exact fun _ m r hm => hm
  | cons o os ih =>
    intro hp m r hm
    obtain ⟨a, ha, s, hs, hg⟩ := hp o (by simp)
    have ho := groundSchema_ok hg
    have happ : isApplicable L m o = isApplicable L r o := by
      simp only [isApplicable]
      refine evFormula_same _ (fun x hx => hm x (hpre a ha x ?_))
      rw [ho] at hx
      exact uses_subF hs x _ (uses_flatten hx)
    have hprog : AgreeRes L V (progress L dom m o.effs) (progress L dom r o.effs) := by
      refine agree_seq (f := applyEffect L dom) (fun e he m r hm => agree_apply hd V _ e (fun x hx => ?_) m r hm) m r hm
      rw [mem_delsFirst, ho, subEs_map, List.mem_map] at he
      obtain ⟨e0, he0, rfl⟩ := he
      exact heff a ha e0 he0 x (reads_subE hs x e0 hx)
    simp only [execPlan, happ]
    cases isApplicable L r o with
    | error e => rfl
    | ok b => cases b with
      | false => trivial
      | true =>
        simp only
        cases hf : progress L dom m o.effs with
        | error e => cases hg : progress L dom r o.effs with
          | error e' => simpa only [hf, hg, AgreeRes, SameOutcome] using hprog
          | ok r' => simp only [hf, hg, AgreeRes] at hprog
        | ok m' => cases hg : progress L dom r o.effs with
          | error e' => simp only [hf, hg, AgreeRes] at hprog
          | ok r' =>
            simp only [hf, hg, AgreeRes] at hprog
            exact ih (fun b hb => hp b (by simp [hb])) m' r' hprog

/-! ### Occurrences -/

theorem Occurs.trans {a b c : Node} (h1 : Occurs a b) (h2 : Occurs b c) : Occurs a c := by
  induction h2 with
  | refl => exact h1
  | step _ hp ih => exact .step ih hp

theorem occurs_part {a b c : Node} (h1 : Occurs a b) (h2 : Part b c) : Occurs a c := .step h1 h2

/-- The node that carries a symbol. -/
def Carries : Sym → Node → Prop
  | .fn f, n => ∃ ts, n = .t (.app f ts)
  | .pred p, n => ∃ ts, n = .f (.atom (.user p) ts)

mutual
theorem usesT_occurs (x : Sym) : ∀ t, UsesT x t → ∃ n, Carries x n ∧ Occurs n (.t t)
  | .var _, h => h.elim
  | .const _ _, h => h.elim
  | .app f ts, h => by
    simp only [UsesT] at h
    rcases h with rfl | h
    · exact ⟨_, ⟨ts, rfl⟩, .refl⟩
    · obtain ⟨t, ht, n, h1, h2⟩ := usesTs_occurs x ts h
      exact ⟨n, h1, .step h2 (.app ht)⟩
  | .ite c a b, h => by
    simp only [UsesT] at h
    rcases h with h | h | h
    · obtain ⟨n, h1, h2⟩ := usesF_occurs x c h; exact ⟨n, h1, .step h2 .iteCond⟩
    · obtain ⟨n, h1, h2⟩ := usesT_occurs x a h; exact ⟨n, h1, .step h2 .iteThen⟩
    · obtain ⟨n, h1, h2⟩ := usesT_occurs x b h; exact ⟨n, h1, .step h2 .iteElse⟩
theorem usesTs_occurs (x : Sym) : ∀ ts, UsesTs x ts → ∃ t ∈ ts, ∃ n, Carries x n ∧ Occurs n (.t t)
  | [], h => h.elim
  | t :: ts, h => by
    simp only [UsesTs] at h
    rcases h with h | h
    · exact ⟨t, by simp, usesT_occurs x t h⟩
    · obtain ⟨u, hu, h'⟩ := usesTs_occurs x ts h
      exact ⟨u, by simp [hu], h'⟩
theorem usesF_occurs (x : Sym) : ∀ f, UsesF x f → ∃ n, Carries x n ∧ Occurs n (.f f)
  | .top, h => h.elim
  | .bot, h => h.elim
  | .atom (.user p) ts, h => by
    simp only [UsesF] at h
    rcases h with rfl | h
    · exact ⟨_, ⟨ts, rfl⟩, .refl⟩
    · obtain ⟨t, ht, n, h1, h2⟩ := usesTs_occurs x ts h
      exact ⟨n, h1, .step h2 (.atom ht)⟩
  | .atom (.cmp c) ts, h => by
    simp only [UsesF] at h
    obtain ⟨t, ht, n, h1, h2⟩ := usesTs_occurs x ts h
    exact ⟨n, h1, .step h2 (.atom ht)⟩
  | .comp _ _ fs, h => by
    simp only [UsesF] at h
    obtain ⟨t, ht, n, h1, h2⟩ := usesFs_occurs x fs h
    exact ⟨n, h1, .step h2 (.comp ht)⟩
  | .quant _ _ f, h => by
    simp only [UsesF] at h
    obtain ⟨n, h1, h2⟩ := usesF_occurs x f h
    exact ⟨n, h1, .step h2 .scope⟩
theorem usesFs_occurs (x : Sym) : ∀ fs, UsesFs x fs → ∃ f ∈ fs, ∃ n, Carries x n ∧ Occurs n (.f f)
  | [], h => h.elim
  | f :: fs, h => by
    simp only [UsesFs] at h
    rcases h with h | h
    · exact ⟨f, by simp, usesF_occurs x f h⟩
    · obtain ⟨u, hu, h'⟩ := usesFs_occurs x fs h
      exact ⟨u, by simp [hu], h'⟩
end

mutual
theorem reads_occurs (x : Sym) : ∀ e : Effect, e.Reads x → ∃ m, EffExpr m e ∧ ∃ n, Carries x n ∧ Occurs n m
  | .add c p ts, h => ⟨_, .cond, usesF_occurs x c h⟩
  | .del c p ts, h => ⟨_, .cond, usesF_occurs x c h⟩
  | .lit c l, h => ⟨_, .cond, usesF_occurs x c h⟩
  | .assign c f ts r, h => by
    simp only [Effect.Reads] at h
    rcases h with h | h
    · exact ⟨_, .cond, usesF_occurs x c h⟩
    · exact ⟨_, .rhs, usesT_occurs x r h⟩
  | .univ c vs es, h => by
    simp only [Effect.Reads] at h
    rcases h with h | h
    · exact ⟨_, .cond, usesF_occurs x c h⟩
    · obtain ⟨e, he, m, hm, h'⟩ := readsAny_occurs x es h
      exact ⟨m, .sub he hm, h'⟩
theorem readsAny_occurs (x : Sym) : ∀ es : List Effect, ReadsAny x es → ∃ e ∈ es, ∃ m, EffExpr m e ∧ ∃ n, Carries x n ∧ Occurs n m
  | [], h => h.elim
  | e :: es, h => by
    simp only [ReadsAny] at h
    rcases h with h | h
    · exact ⟨e, by simp, reads_occurs x e h⟩
    · obtain ⟨u, hu, h'⟩ := readsAny_occurs x es h
      exact ⟨u, by simp [hu], h'⟩
end

/-! ### C61 -/

theorem mem_collectFnNames {f : String} {e : Node} {out} :
    f ∈ collectFnNames e out ↔ f ∈ out ∨ ∃ ts, Occurs (.t (.app f ts)) e := by
  simp only [collectFnNames, mem_foldl_setAdd, List.mem_filterMap]
  refine or_congr_right ?_
  constructor
  · rintro ⟨n, hn, hf⟩
    obtain ⟨-, m, hm, rfl⟩ := ((C57_nodes Node.isApp e).2 n).1 hn
    rcases m with t | g
    · cases t with
      | app g ts => simp only [Node.walk, walkT, Node.fnName, Option.some.injEq] at hf; subst hf; exact ⟨ts, hm⟩
      | var v => simp [Node.walk, walkT, Node.fnName] at hf
      | const => simp [Node.walk, walkT, Node.fnName] at hf
      | ite => simp [Node.walk, walkT, Node.fnName] at hf
    · simp [Node.walk, Node.fnName] at hf
  · rintro ⟨ts, h⟩
    exact ⟨_, ((C57_nodes Node.isApp e).2 _).2 ⟨rfl, _, h, rfl⟩, rfl⟩

/-- A function symbol occurs in an expression of the effect. -/
def FnInEffect (f : String) (e : Effect) : Prop := ∃ n, EffExpr n e ∧ ∃ ts, Occurs (.t (.app f ts)) n

mutual
theorem mem_markE (f : String) : ∀ (e : Effect) (out : List String), f ∈ markE e out ↔ f ∈ out ∨ FnInEffect f e
  | .add c p ts, out => by
    simp only [markE, mem_collectFnNames, or_assoc]
    refine or_congr_right ⟨fun h => ?_, fun h => ?_⟩
    · rcases h with h | h
      · exact ⟨_, .cond, h⟩
      · exact ⟨_, .add, h⟩
    · obtain ⟨n, hn, h⟩ := h
      cases hn with
      | cond => exact .inl h
      | add => exact .inr h
  | .del c p ts, out => by
    simp only [markE, mem_collectFnNames, or_assoc]
    refine or_congr_right ⟨fun h => ?_, fun h => ?_⟩
    · rcases h with h | h
      · exact ⟨_, .cond, h⟩
      · exact ⟨_, .del, h⟩
    · obtain ⟨n, hn, h⟩ := h
      cases hn with
      | cond => exact .inl h
      | del => exact .inr h
  | .lit c l, out => by
    simp only [markE, mem_collectFnNames, or_assoc]
    refine or_congr_right ⟨fun h => ?_, fun h => ?_⟩
    · rcases h with h | h
      · exact ⟨_, .cond, h⟩
      · exact ⟨_, .lit, h⟩
    · obtain ⟨n, hn, h⟩ := h
      cases hn with
      | cond => exact .inl h
      | lit => exact .inr h
  | .assign c g ts r, out => by
    simp only [markE, mem_collectFnNames, or_assoc]
    refine or_congr_right ⟨fun h => ?_, fun h => ?_⟩
    · rcases h with h | h | h
      · exact ⟨_, .cond, h⟩
      · exact ⟨_, .lhs, h⟩
      · exact ⟨_, .rhs, h⟩
    · obtain ⟨n, hn, h⟩ := h
      cases hn with
      | cond => exact .inl h
      | lhs => exact .inr (.inl h)
      | rhs => exact .inr (.inr h)
  | .univ c vs es, out => by
    simp only [markE, mem_markEs f es, mem_collectFnNames, or_assoc]
    refine or_congr_right ⟨fun h => ?_, fun h => ?_⟩
    · rcases h with h | ⟨e, he, n, hn, h⟩
      · exact ⟨_, .cond, h⟩
      · exact ⟨n, .sub he hn, h⟩
    · obtain ⟨n, hn, h⟩ := h
      cases hn with
      | cond => exact .inl h
      | sub he hn => exact .inr ⟨_, he, n, hn, h⟩
theorem mem_markEs (f : String) : ∀ (es : List Effect) (out : List String), f ∈ markEs es out ↔ f ∈ out ∨ ∃ e ∈ es, FnInEffect f e
  | [], out => by simp [markEs]
  | e :: es, out => by simp only [markEs, mem_markEs f es, mem_markE f e, or_assoc, List.mem_cons, exists_eq_or_imp]
end

theorem mem_markActions (f : String) : ∀ (as : List Schema) (out : List String), f ∈ markActions as out ↔
    f ∈ out ∨ ∃ a ∈ as, (∃ ts, Occurs (.t (.app f ts)) (.f a.pre)) ∨ ∃ e ∈ a.effs, FnInEffect f e
  | [], out => by simp [markActions]
  | a :: as, out => by
    simp only [markActions, mem_markActions f as, mem_markEs, mem_collectFnNames, or_assoc, List.mem_cons, exists_eq_or_imp]

/-- C61: a function is returned iff it is declared, neither builtin nor `total-cost`, and does not occur in any expression of
the goal, the preconditions and the effects. -/
theorem C61_exact (fns : List String) (goal : Formula) (as : List Schema) (f : String) :
    f ∈ costFunctions fns goal as ↔ f ∈ fns ∧ f ∉ builtinFunctionNames ∧ f ≠ "total-cost" ∧
      ∀ n, ProbExpr goal as n → ∀ ts, ¬ Occurs (.t (.app f ts)) n := by
  have key : (f ∉ markActions as (collectFnNames (.f goal) [])) ↔ ∀ n, ProbExpr goal as n → ∀ ts, ¬ Occurs (.t (.app f ts)) n := by
    rw [mem_markActions, mem_collectFnNames]
    constructor
    · intro h n hn ts ho
      refine h ?_
      cases hn with
      | goal => exact .inl (.inr ⟨ts, ho⟩)
      | pre ha => exact .inr ⟨_, ha, .inl ⟨ts, ho⟩⟩
      | eff ha he hn => exact .inr ⟨_, ha, .inr ⟨_, he, n, hn, ts, ho⟩⟩
    · rintro h ((h0 | ⟨ts, h0⟩) | ⟨a, ha, ⟨ts, h0⟩ | ⟨e, he, n, hn, ts, h0⟩⟩)
      · cases h0
      · exact h _ .goal ts h0
      · exact h _ (.pre ha) ts h0
      · exact h _ (.eff ha he hn) ts h0
  simp only [costFunctions, userFunctions, List.mem_filter, decide_eq_true_eq, key, bne_iff_ne, Bool.not_eq_true',
    and_assoc, ← Bool.not_eq_true, List.contains_iff_mem]

/-- C61: the functions that are returned do not influence what plans do: executing any sequence of ground actions in two states
that agree on all other symbols raises the same exception, fails at a precondition in both cases, or leads to states that
agree on all other symbols; and the goal has the same value in two such states. -/
theorem C61_irrelevant (L : MLang) (dom : Domains) (hd : ConstDoms dom) (fns : List String) (goal : Formula) (as : List Schema)
    (m r : MState) (hm : ∀ x, (∀ f ∈ costFunctions fns goal as, x ≠ .fn f) → SameOn L m r x) :
    (∀ plan, (∀ o ∈ plan, GroundInstance as o) →
      SameOutcome L (fun x => ∀ f ∈ costFunctions fns goal as, x ≠ .fn f) (execPlan L dom m plan) (execPlan L dom r plan)) ∧
    evFormula L m noSigma goal = evFormula L r noSigma goal := by
  have key : ∀ n0, ProbExpr goal as n0 → ∀ x n, Carries x n → Occurs n n0 → ∀ f ∈ costFunctions fns goal as, x ≠ .fn f := by
    rintro n0 h0 x n hc ho f hf rfl
    obtain ⟨ts, rfl⟩ := hc
    exact ((C61_exact fns goal as f).1 hf).2.2.2 n0 h0 ts ho
  constructor
  · refine fun plan hplan => agree_plan hd _ as (fun a ha x hx => ?_) (fun a ha e he x hx => ?_) plan hplan m r hm
    · obtain ⟨n, h1, h2⟩ := usesF_occurs x _ hx
      exact key _ (.pre ha) x n h1 h2
    · obtain ⟨n0, h0, n, h1, h2⟩ := reads_occurs x e hx
      exact key _ (.eff ha he h0) x n h1 h2
  · refine evFormula_same _ (fun x hx => hm x ?_)
    obtain ⟨n, h1, h2⟩ := usesF_occurs x _ hx
    exact key _ .goal x n h1 h2

/-! ### C62 -/

theorem met_walk (n : Node) : n.walk.met = n.met := by
  rcases n with t | f
  · cases t <;> rfl
  · cases f <;> rfl

theorem mem_metExpr {s : Met} {e : Node} {out} : s ∈ metExpr e out ↔ s ∈ out ∨ ∃ n, n.met = some s ∧ Occurs n e := by
  simp only [metExpr, mem_foldl_setAdd, List.mem_filterMap]
  refine or_congr_right ?_
  constructor
  · rintro ⟨n, hn, hs⟩
    obtain ⟨m, hm, rfl⟩ := (mem_nodes e n).1 hn
    exact ⟨m, by rw [← met_walk]; exact hs, hm⟩
  · rintro ⟨n, hs, hn⟩
    exact ⟨n.walk, (mem_nodes e _).2 ⟨n, hn, rfl⟩, by rw [met_walk]; exact hs⟩

mutual
/-- The effect contains, at some depth, a literal effect. -/
def HasLit : Effect → Prop
  | .lit _ _ => True
  | .univ _ _ es => HasLits es
  | _ => False
def HasLits : List Effect → Prop
  | [] => False
  | e :: es => HasLit e ∨ HasLits es
end

mutual
/-- All universal effects in the effect are unconditional. -/
def PlainUniv : Effect → Prop
  | .univ c _ es => c = .top ∧ PlainUnivs es
  | _ => True
def PlainUnivs : List Effect → Prop
  | [] => True
  | e :: es => PlainUniv e ∧ PlainUnivs es
end

/-- The symbol occurs in an expression of the effect. -/
def MetInEffect (s : Met) (e : Effect) : Prop := ∃ m, EffExpr m e ∧ ∃ n, n.met = some s ∧ Occurs n m

theorem occurs_top {n : Node} (h : Occurs n (.f .top)) : n = .f .top := by
  rcases occurs_iff.1 h with h | ⟨b, -, hb⟩
  · exact h
  · cases hb

mutual
theorem metE_spec : ∀ (e : Effect) (out : List Met), (HasLit e → metE e out = .error .runtime) ∧
    (¬ HasLit e → ∃ res, metE e out = .ok res ∧ (∀ s, s ∈ res → s ∈ out ∨ MetInEffect s e) ∧
      (∀ s, s ∈ out → s ∈ res) ∧ (PlainUniv e → ∀ s, MetInEffect s e → s ∈ res))
  | .add c p ts, out => by
    refine ⟨(fun h => h.elim), fun _ => ⟨_, rfl, ?_⟩⟩
    simp only [mem_metExpr, or_assoc]
    refine ⟨?_, fun s hs => .inl hs, ?_⟩
    · rintro s (h | h | h)
      · exact .inl h
      · exact .inr ⟨_, .cond, h⟩
      · exact .inr ⟨_, .add, h⟩
    · rintro - s ⟨m, hm, h⟩
      cases hm with
      | cond => exact .inr (.inl h)
      | add => exact .inr (.inr h)
  | .del c p ts, out => by
    refine ⟨(fun h => h.elim), fun _ => ⟨_, rfl, ?_⟩⟩
    simp only [mem_metExpr, or_assoc]
    refine ⟨?_, fun s hs => .inl hs, ?_⟩
    · rintro s (h | h | h)
      · exact .inl h
      · exact .inr ⟨_, .cond, h⟩
      · exact .inr ⟨_, .del, h⟩
    · rintro - s ⟨m, hm, h⟩
      cases hm with
      | cond => exact .inr (.inl h)
      | del => exact .inr (.inr h)
  | .assign c f ts r, out => by
    refine ⟨(fun h => h.elim), fun _ => ⟨_, rfl, ?_⟩⟩
    simp only [mem_metExpr, or_assoc]
    refine ⟨?_, fun s hs => .inl hs, ?_⟩
    · rintro s (h | h | h | h)
      · exact .inl h
      · exact .inr ⟨_, .cond, h⟩
      · exact .inr ⟨_, .lhs, h⟩
      · exact .inr ⟨_, .rhs, h⟩
    · rintro - s ⟨m, hm, h⟩
      cases hm with
      | cond => exact .inr (.inl h)
      | lhs => exact .inr (.inr (.inl h))
      | rhs => exact .inr (.inr (.inr h))
  | .lit c l, out => ⟨fun _ => rfl, fun h => absurd trivial h⟩
  | .univ c vs es, out => by
    obtain ⟨h1, h2⟩ := metEs_spec es out
    refine ⟨h1, fun hl => ?_⟩
    obtain ⟨res, e1, e2, e3, e4⟩ := h2 hl
    refine ⟨res, e1, fun s hs => ?_, e3, fun hp s hs => ?_⟩
    · rcases e2 s hs with h | ⟨e, he, m, hm, h⟩
      · exact .inl h
      · exact .inr ⟨m, .sub he hm, h⟩
    · obtain ⟨m, hm, n, hn, h⟩ := hs
      cases hm with
      | cond =>
        simp only [PlainUniv] at hp
        simp only [Effect.cond, hp.1] at h
        rw [occurs_top h] at hn
        cases hn
      | sub he hm => exact e4 hp.2 s ⟨_, he, m, hm, n, hn, h⟩
theorem metEs_spec : ∀ (es : List Effect) (out : List Met), (HasLits es → metEs es out = .error .runtime) ∧
    (¬ HasLits es → ∃ res, metEs es out = .ok res ∧ (∀ s, s ∈ res → s ∈ out ∨ ∃ e ∈ es, MetInEffect s e) ∧
      (∀ s, s ∈ out → s ∈ res) ∧ (PlainUnivs es → ∀ s, (∃ e ∈ es, MetInEffect s e) → s ∈ res))
  | [], out => ⟨(fun h => h.elim), fun _ => ⟨out, rfl, fun s hs => .inl hs, fun s hs => hs, by simp⟩⟩
  | e :: es, out => by
    obtain ⟨h1, h2⟩ := metE_spec e out
    by_cases hl : HasLit e
    · refine ⟨fun _ => by simp only [metEs, h1 hl], fun h => absurd (.inl hl) h⟩
    · obtain ⟨r1, e1, e2, e3, e4⟩ := h2 hl
      obtain ⟨g1, g2⟩ := metEs_spec es r1
      simp only [metEs, e1, HasLits, hl, false_or]
      refine ⟨g1, fun hn => ?_⟩
      obtain ⟨r2, f1, f2, f3, f4⟩ := g2 hn
      refine ⟨r2, f1, fun s hs => ?_, fun s hs => f3 s (e3 s hs), fun hp s hs => ?_⟩
      · rcases f2 s hs with h | ⟨e', he, h⟩
        · exact (e2 s h).imp id (fun h => ⟨e, by simp, h⟩)
        · exact .inr ⟨e', by simp [he], h⟩
      · obtain ⟨e', he, h⟩ := hs
        rcases List.mem_cons.1 he with rfl | he
        · exact f3 s (e4 hp.1 s h)
        · exact f4 hp.2 s ⟨e', he, h⟩
end

/-- The symbol occurs in the precondition or in an expression of an effect of the action. -/
def MetInAction (s : Met) (a : Schema) : Prop := (∃ n, n.met = some s ∧ Occurs n (.f a.pre)) ∨ ∃ e ∈ a.effs, MetInEffect s e

theorem metActions_spec : ∀ (as : List Schema) (out : List Met), ((∃ a ∈ as, HasLits a.effs) → metActions as out = .error .runtime) ∧
    (¬ (∃ a ∈ as, HasLits a.effs) → ∃ res, metActions as out = .ok res ∧ (∀ s, s ∈ res → s ∈ out ∨ ∃ a ∈ as, MetInAction s a) ∧
      (∀ s, s ∈ out → s ∈ res) ∧ ((∀ a ∈ as, PlainUnivs a.effs) → ∀ s, (∃ a ∈ as, MetInAction s a) → s ∈ res))
  | [], out => ⟨by simp, fun _ => ⟨out, rfl, fun s hs => .inl hs, fun s hs => hs, by simp⟩⟩
  | a :: as, out => by
    obtain ⟨h1, h2⟩ := metEs_spec a.effs (metExpr (.f a.pre) out)
    by_cases hl : HasLits a.effs
    · refine ⟨fun _ => by simp only [metActions, h1 hl], fun h => absurd ⟨a, by simp, hl⟩ h⟩
    · obtain ⟨r1, e1, e2, e3, e4⟩ := h2 hl
      obtain ⟨g1, g2⟩ := metActions_spec as r1
      simp only [metActions, e1, List.mem_cons, exists_eq_or_imp, hl, false_or, forall_eq_or_imp]
      refine ⟨g1, fun hn => ?_⟩
      obtain ⟨r2, f1, f2, f3, f4⟩ := g2 hn
      simp only [mem_metExpr] at e2 e3
      refine ⟨r2, f1, fun s hs => ?_, fun s hs => f3 s (e3 s (.inl hs)), fun hp s hs => ?_⟩
      · rcases f2 s hs with h | h
        · rcases e2 s h with (h | h) | h
          · exact .inl h
          · exact .inr (.inl (.inl h))
          · exact .inr (.inl (.inr h))
        · exact .inr (.inr h)
      · rcases hs with (h | h) | h
        · exact f3 s (e3 s (.inr h))
        · exact f3 s (e4 hp.1 s h)
        · exact f4 hp.2 s h

theorem metInProb {goal : Formula} {as : List Schema} {s : Met} :
    (∃ n, ProbExpr goal as n ∧ ∃ k, k.met = some s ∧ Occurs k n) ↔
      (∃ n, n.met = some s ∧ Occurs n (.f goal)) ∨ ∃ a ∈ as, MetInAction s a := by
  constructor
  · rintro ⟨n, hn, h⟩
    cases hn with
    | goal => exact .inl h
    | pre ha => exact .inr ⟨_, ha, .inl h⟩
    | eff ha he hn => exact .inr ⟨_, ha, .inr ⟨_, he, n, hn, h⟩⟩
  · rintro (h | ⟨a, ha, h | ⟨e, he, n, hn, h⟩⟩)
    · exact ⟨_, .goal, h⟩
    · exact ⟨_, .pre ha, h⟩
    · exact ⟨_, .eff ha he hn, h⟩

/-- A symbol occurs in the problem: it is carried by a node of one of its expressions. -/
def MetInProblem (goal : Formula) (as : List Schema) (s : Met) : Prop :=
  ∃ n, ProbExpr goal as n ∧ ∃ k, k.met = some s ∧ Occurs k n

/-- The full statement of C62: the symbols that are returned are those that occur in the goal, the preconditions and the
effects. -/
def C62_full : Prop := ∀ goal as, ∃ res, allSymbols true goal as = .ok res ∧ ∀ s, s ∈ res ↔ MetInProblem goal as s

/-- The names of the operations that come with the theories (syntax/builtins.py:22-50). -/
def operationNames : List String := ["+", "-", "*", "@", "/", "**", "%", "min", "max", "abs", "sin", "cos", "tan", "atan", "asin", "exp", "log", "erf", "erfc", "sgn",
  "sqrt", "normal", "gamma", "kron", "dirac", "bernoulli", "discrete", "poisson"]

/-- A symbol that is declared by the user: neither a comparison nor an operation of a theory. -/
def DeclaredMet : Met → Prop
  | .pred p => ∃ q, p = .user q
  | .fn f => f ∉ operationNames

theorem isUser_iff (s : Met) : s.isUser = true ↔ DeclaredMet s := by
  cases s with
  | pred p => cases p <;> simp [Met.isUser, DeclaredMet]
  | fn f =>
    have : ∀ x, x ∈ builtinFunctionNames ↔ x ∈ operationNames := fun x => Iff.rfl
    simp only [Met.isUser, DeclaredMet, Bool.not_eq_true', ← this]
    exact List.contains_eq_mem f _ ▸ decide_eq_false_iff_not

/-- C62, proved part: for problems without literal effects `collect_all_symbols` returns only symbols that occur in the goal,
the preconditions and the effects (and are not builtin, if this is asked for); and all of them, if the universal effects
are unconditional. -/
theorem C62_symbols_partial (goal : Formula) (as : List Schema) (builtin : Bool) (hl : ∀ a ∈ as, ¬ HasLits a.effs) :
    ∃ res, allSymbols builtin goal as = .ok res ∧
      (∀ s, s ∈ res → MetInProblem goal as s ∧ (builtin = false → DeclaredMet s)) ∧
      ((∀ a ∈ as, PlainUnivs a.effs) → ∀ s, MetInProblem goal as s → (builtin = false → DeclaredMet s) → s ∈ res) := by
  obtain ⟨res, e1, e2, e3, e4⟩ := (metActions_spec as (metExpr (.f goal) [])).2 (by simpa using hl)
  simp only [mem_metExpr, List.not_mem_nil, false_or] at e2 e3
  refine ⟨if builtin then res else res.filter Met.isUser, by simp only [allSymbols, e1], fun s hs => ?_, fun hp s hs hb => ?_⟩
  · cases builtin with
    | true => exact ⟨metInProb.2 (e2 s hs), by simp⟩
    | false =>
      simp only [Bool.false_eq_true, if_false, List.mem_filter] at hs
      exact ⟨metInProb.2 (e2 s hs.1), fun _ => (isUser_iff s).1 hs.2⟩
  · have hr : s ∈ res := by
      rcases metInProb.1 hs with h | h
      · exact e3 s h
      · exact e4 hp s h
    cases builtin with
    | true => exact hr
    | false =>
      simp only [Bool.false_eq_true, if_false, List.mem_filter]
      exact ⟨hr, (isUser_iff s).2 (hb rfl)⟩

/-- The symbol as it is returned. -/
def Sym.toMet : Sym → Met
  | .pred p => .pred (.user p)
  | .fn f => .fn f

/-- C62, proved part: for problems without literal effects whose universal effects are unconditional, the symbols that are
returned are all that matters: executing any sequence of ground actions in two states that agree on them raises the same
exception, fails at a precondition in both cases, or leads to states that agree on them; and the goal has the same value. -/
theorem C62_suffices_partial (L : MLang) (dom : Domains) (hd : ConstDoms dom) (goal : Formula) (as : List Schema)
    (hl : ∀ a ∈ as, ¬ HasLits a.effs) (hp : ∀ a ∈ as, PlainUnivs a.effs) (res : List Met) (hres : allSymbols true goal as = .ok res)
    (m r : MState) (hm : ∀ x : Sym, x.toMet ∈ res → SameOn L m r x) :
    (∀ plan, (∀ o ∈ plan, GroundInstance as o) →
      SameOutcome L (fun x => x.toMet ∈ res) (execPlan L dom m plan) (execPlan L dom r plan)) ∧
    evFormula L m noSigma goal = evFormula L r noSigma goal := by
  obtain ⟨res', h1, -, h3⟩ := C62_symbols_partial goal as true hl
  rw [hres] at h1
  cases h1
  have key : ∀ n0, ProbExpr goal as n0 → ∀ x n, Carries x n → Occurs n n0 → x.toMet ∈ res := by
    intro n0 h0 x n hc ho
    refine h3 hp _ ⟨n0, h0, n, ?_, ho⟩ (by simp)
    cases x with
    | pred p => obtain ⟨ts, rfl⟩ := hc; rfl
    | fn f => obtain ⟨ts, rfl⟩ := hc; rfl
  constructor
  · refine fun plan hplan => agree_plan hd _ as (fun a ha x hx => ?_) (fun a ha e he x hx => ?_) plan hplan m r hm
    · obtain ⟨n, h1, h2⟩ := usesF_occurs x _ hx
      exact key _ (.pre ha) x n h1 h2
    · obtain ⟨n0, h0, n, h1, h2⟩ := reads_occurs x e hx
      exact key _ (.eff ha he h0) x n h1 h2
  · refine evFormula_same _ (fun x hx => hm x ?_)
    obtain ⟨n, h1, h2⟩ := usesF_occurs x _ hx
    exact key _ .goal x n h1 h2

/-- C62, raises exactly on problems with literal effects. -/
theorem C62_raises_partial (goal : Formula) (as : List Schema) (builtin : Bool) :
    allSymbols builtin goal as = .error .runtime ↔ ∃ a ∈ as, HasLits a.effs := by
  obtain ⟨h1, h2⟩ := metActions_spec as (metExpr (.f goal) [])
  constructor
  · intro h
    by_contra hn
    obtain ⟨res, e1, -⟩ := h2 hn
    simp [allSymbols, e1] at h
  · intro h
    simp only [allSymbols, h1 h]

/-! ### Examples -/

/-- `move(x, y)` with `at(x)` in the precondition; `not at(x)`, `at(y)`, `load := load + weight(y)`, and `seen(z)` for all `z` with
`near(y, z)`. -/
def exMoveSchema : Schema where
  params := [⟨"x", "object"⟩, ⟨"y", "object"⟩]
  pre := .atom (.user "at") [.var ⟨"x", "object"⟩]
  effs := [.del .top (.user "at") [.var ⟨"x", "object"⟩], .add .top (.user "at") [.var ⟨"y", "object"⟩],
    .assign .top "load" [] (.app "+" [.app "load" [], .app "weight" [.var ⟨"y", "object"⟩]]),
    .univ .top [⟨"z", "object"⟩] [.add (.atom (.user "near") [.var ⟨"y", "object"⟩, .var ⟨"z", "object"⟩]) (.user "seen") [.var ⟨"z", "object"⟩]]]

example : costFunctions ["+", "load", "weight", "dist", "total-cost"] (.atom (.user "at") [.const (.str "a") "object"]) [exMoveSchema] =
    ["dist"] := by decide

example : (∀ a ∈ [exMoveSchema], ¬ HasLits a.effs) ∧ (∀ a ∈ [exMoveSchema], PlainUnivs a.effs) := by
  simp [exMoveSchema, HasLits, HasLit, PlainUnivs, PlainUniv]

example : allSymbols false (.atom (.user "at") [.const (.str "a") "object"]) [exMoveSchema] =
    .ok [.pred (.user "seen"), .pred (.user "near"), .fn "weight", .fn "load", .pred (.user "at")] := by decide

/-- An action with a conditional universal effect: `seen(z)` for all `z`, if `on()`. -/
def exCondUniv : Schema where
  params := []
  pre := .top
  effs := [.univ (.atom (.user "on") []) [⟨"z", "object"⟩] [.add .top (.user "seen") [.var ⟨"z", "object"⟩]]]

/-- C62 fails: the symbols in the condition of a universal effect are missed. -/
theorem C62_universal_refuted : allSymbols true .top [exCondUniv] = .ok [.pred (.user "seen")] ∧
    MetInProblem .top [exCondUniv] (.pred (.user "on")) :=
  ⟨by decide, _, .eff (a := exCondUniv) (by simp) (List.mem_singleton.2 rfl) .cond, _, rfl, .refl⟩

theorem C62_literal_refuted : allSymbols true .top [⟨[], .top, [.lit .top (.atom (.user "p") [])]⟩] = .error .runtime := rfl

theorem C62_refuted : ¬ C62_full := by
  intro h
  obtain ⟨res, h1, -⟩ := h .top [⟨[], .top, [.lit .top (.atom (.user "p") [])]⟩]
  rw [C62_literal_refuted] at h1
  cases h1

end Tarski

import Verif.Props.BenchFun
/-! C79: the counters problems of `generate_fstrips_counters_problem`. -/
namespace Tarski

/-! ### Specification -/

/-- A counter and an integer as constants of the language. -/
def counterObj (c : String) : Const := ⟨.str c, "counter"⟩
def valObj (k : Int) : Const := ⟨.int k, "val"⟩

/-- The model gives the counters their values and knows the bound. -/
structure DescribesVal (names : List String) (ub : Int) (L : MLang) (m : MState) (v : String → Int) : Prop where
  value : ∀ c ∈ names, m.value L "value" [counterObj c] = .ok (valObj (v c))
  max : m.value L "max_int" [] = .ok (valObj ub)

/-- The same for an interpretation whose objects are names and integers, and whose arithmetic is that of the integers. -/
structure DescribesValI (names : List String) (ub : Int) (I : Interp Name) (v : String → Int) : Prop where
  rigid : ∀ n s, I.const n s = n
  value : ∀ c ∈ names, I.fn "value" [.str c] = .int (v c)
  max : I.fn "max_int" [] = .int ub
  plus : ∀ a b, I.fn "+" [.int a, .int b] = .int (a + b)
  minus : ∀ a b, I.fn "-" [.int a, .int b] = .int (a - b)
  lt : ∀ a b, I.pred (.cmp .lt) [.int a, .int b] ↔ a < b
  gt : ∀ a b, I.pred (.cmp .gt) [.int a, .int b] ↔ a > b

/-- The counters `c1, c2, ...` have increasing values. -/
def Increasing (v : String → Int) (l : List String) : Prop := ∀ a b l1 l2, l = l1 ++ a :: b :: l2 → v a < v b

/-- One counter changes by one, within its bounds. -/
inductive CMove (names : List String) (ub : Int) (v : String → Int) : String → String → (String → Int) → Prop
  | inc (c) : c ∈ names → v c < ub → CMove names ub v "increment" c (fun z => if z = c then v c + 1 else v z)
  | dec (c) : c ∈ names → v c > 0 → CMove names ub v "decrement" c (fun z => if z = c then v c - 1 else v z)

/-- The ground operator of an action of the problem for a counter. -/
def CounterOp (names : List String) (P : BenchProblem) (name c : String) (o : Operator) : Prop :=
  c ∈ names ∧ ∃ a, (name, a) ∈ P.actions ∧ groundSchema a (createSubst (a.params.map .var) [(counterObj c).toTerm]) = .ok o

/-- Plans made of instances of the actions of the problem. -/
def CounterPlan (names : List String) (P : BenchProblem) (os : List Operator) : Prop :=
  ∀ o ∈ os, ∃ name c, CounterOp names P name c o

/-! ### Proofs -/

theorem counters_actions {n upper srt P} (h : countersProblem n upper srt = .ok P) :
    0 < upper.getD (n * 2) ∧ P.lang = countersLang (counterNames n) (upper.getD (n * 2)) ∧
    P.actions = [("increment", counterInc), ("decrement", counterDec)] ∧ P.goal = land (counterGoal (srt (counterNames n))) true := by
  unfold countersProblem at h
  dsimp only at h
  repeat' split at h
  all_goals first | cases h; done | (cases h; exact ⟨by omega, rfl, rfl, rfl⟩)

theorem ground_inc (c : String) : groundSchema counterInc (createSubst [.var counterC] [(counterObj c).toTerm]) =
    .ok ⟨.atom (.cmp .lt) [counterValue c, .app "max_int" []],
      [.assign .top "value" [(counterObj c).toTerm] (.app "+" [counterValue c, (valObj 1).toTerm])]⟩ := rfl

theorem ground_dec (c : String) : groundSchema counterDec (createSubst [.var counterC] [(counterObj c).toTerm]) =
    .ok ⟨.atom (.cmp .gt) [counterValue c, (valObj 0).toTerm],
      [.assign .top "value" [(counterObj c).toTerm] (.app "-" [counterValue c, (valObj 1).toTerm])]⟩ := rfl

theorem mkInteger_sort {v : Int} {c : Const} (h : mkInteger v = .ok c) : c.sort = "Integer" := by
  unfold mkInteger at h
  split at h
  · cases h; rfl
  · cases h

theorem arith_sort {f : String} {a b c : Const} (h : arith f a b = .ok c) : c.sort = "Integer" := by
  unfold arith at h
  split at h
  · split at h
    · exact mkInteger_sort h
    · split at h
      · exact mkInteger_sort h
      · split at h
        · exact mkInteger_sort h
        · split at h
          · cases h
          · exact mkInteger_sort h
  · cases h

theorem checkElements_last (L : MLang) : ∀ (as : List Arg) (ss : List String) (c : Const) (s : String) (cs : List Const),
    as.length = ss.length → checkElements L (as ++ [.const c]) (ss ++ [s]) = .ok cs → L.isSub c.sort s = true
  | [], [], c, s, cs, _, h => by
    simp only [List.nil_append, checkElements, checkElement] at h
    by_contra hn
    rw [if_neg hn] at h
    cases h
  | a :: as, t :: ss, c, s, cs, hl, h => by
    simp only [List.cons_append, checkElements] at h
    split at h
    · cases h
    · split at h
      · cases h
      · rename_i h'
        exact checkElements_last L as ss c s _ (by simpa using hl) h'

/-- C79: assigning the value of an arithmetic expression to a function whose codomain is not a supersort of the integers
always raises: the result of an arithmetic operation is a constant of the sort `Integer`. -/
theorem C79_arith_assign (L : MLang) (dom : Domains) (m : MState) (cond : Formula) (f : String) (ss : List String) (s : String)
    (ts : List Term) (g : String) (as : List Term) (hg : isArith g = true) (hf : L.fsorts f = ss ++ [s])
    (hs : L.isSub "Integer" s = false) (hc : evFormula L m noSigma cond = .ok true) :
    ∀ m', applyEffect L dom m (.assign cond f ts (.app g as)) ≠ .ok m' := by
  intro m' h
  unfold applyEffect applyFuel at h
  simp only [Effect.cond, hc] at h
  split at h
  · cases h
  · rename_i c hv
    have hsort : c.sort = "Integer" := by
      rw [evTerm, if_pos hg] at hv
      split at hv
      · exact arith_sort hv
      · cases hv
      · cases hv
    unfold raising MState.set at h
    split at h
    · rename_i h1
      split at h1
      · cases h1
      · split at h1
        · cases h1
        · split at h1
          · cases h1
          · rename_i cs hcs
            unfold checkAssignment at hcs
            simp only [reduceCtorEq, if_false] at hcs
            split at hcs
            · cases hcs
            · rename_i hl
              simp only [ne_eq, not_not] at hl
              rw [hf] at hl hcs
              have := checkElements_last L _ ss c s cs (by simpa using hl.symm) hcs
              rw [hsort, hs] at this
              cases this
    · cases h

/-- C79 as the library executes it is false: no instance of an action of the problem can be executed, in any state. -/
theorem C79_stuck (n : Nat) (upper : Option Int) (srt : List String → List String) (P : BenchProblem)
    (h : countersProblem n upper srt = .ok P) (dom : Domains) (m m' : MState) (o : Operator) (os : List Operator)
    (hp : CounterPlan (counterNames n) P (o :: os)) : execPlan P.lang dom m (o :: os) ≠ .ok (some m') := by
  obtain ⟨-, hL, hA, -⟩ := counters_actions h
  intro hex
  rw [execPlan] at hex
  split at hex
  · cases hex
  · cases hex
  · split at hex
    · cases hex
    · rename_i m1 hpr
      obtain ⟨name, c, -, a, ha, hg⟩ := hp o (.head _)
      rw [hA] at ha
      simp only [List.mem_cons, Prod.mk.injEq, List.not_mem_nil, or_false] at ha
      have key : ∀ g as, isArith g = true → o.effs = [.assign .top "value" [(counterObj c).toTerm] (.app g as)] → False := by
        intro g as hgg he
        rw [he] at hpr
        have := C79_arith_assign P.lang dom m .top "value" ["counter"] "val" [(counterObj c).toTerm] g as hgg
          (by rw [hL]; rfl) (by rw [hL]; rfl) (by rw [evFormula])
        unfold progress at hpr
        simp only [delsFirst, List.filter, Effect.isDel, List.nil_append, Bool.not_false, seqApply] at hpr
        split at hpr
        · cases hpr
        · rename_i m2 h2; exact this m2 h2
      rcases ha with ⟨rfl, rfl⟩ | ⟨rfl, rfl⟩
      · have := (ground_inc c).symm.trans hg
        cases this
        exact key "+" _ (by decide) rfl
      · have := (ground_dec c).symm.trans hg
        cases this
        exact key "-" _ (by decide) rfl


theorem set_spec (L : MLang) (m : MState) (f : String) (args : List Arg) (v : Arg) (pt : List Const) (c : Const)
    (ha : args.all Arg.isConst = true) (hv : v ≠ .lit .pyNone) (hc : checkAssignment L (L.fsorts f) (args ++ [v]) = .ok (pt ++ [c])) :
    ∃ m', raising (m.set L f false args v) = .ok m' ∧ m'.preds = m.preds ∧
      ∀ f' pt', m'.value L f' pt' = if f' = f ∧ pt' = pt then .ok c else m.value L f' pt' := by
  refine ⟨⟨m.preds, dinsert m.fns (L.fsig f) (dinsert ((dlookup m.fns (L.fsig f)).getD []) pt c)⟩, ?_, rfl, ?_⟩
  · simp [MState.set, ha, hv, hc, raising]
  · intro f' pt'
    have hsig : L.fsig f = L.fsig f' ↔ f = f' :=
      ⟨fun h => by simp only [MLang.fsig, List.cons.injEq] at h; exact h.1, fun h => by rw [h]⟩
    simp only [MState.value, dlookup_dinsert, hsig]
    by_cases hf : f = f'
    · subst hf
      simp only [if_true, true_and]
      by_cases hp : pt = pt'
      · simp [dlookup_dinsert, hp]
      · have hp' : ¬ pt' = pt := fun e => hp e.symm
        simp only [dlookup_dinsert, hp, hp', if_false]
        cases dlookup m.fns (L.fsig f) <;> simp [dlookup]
    · have hf' : ¬ f' = f := fun e => hf e.symm
      simp [hf, hf']

theorem setVals_spec (names : List String) (ub : Int) (hub : 0 < ub) : ∀ (cs : List String) (m : MState),
    ∃ m', seqApply (fun m c => raising (m.set (countersLang names ub) "value" false [.const ⟨.str c, "counter"⟩] (.lit (.int 0)))) m cs =
        .ok m' ∧ m'.preds = m.preds ∧
      ∀ f pt, m'.value (countersLang names ub) f pt =
        if f = "value" ∧ ∃ c ∈ cs, pt = [counterObj c] then .ok (valObj 0) else m.value (countersLang names ub) f pt
  | [], m => ⟨m, rfl, rfl, by simp⟩
  | c :: cs, m => by
    obtain ⟨m1, a1, a2, a3⟩ := set_spec (countersLang names ub) m "value" [.const ⟨.str c, "counter"⟩] (.lit (.int 0))
      [counterObj c] (valObj 0) rfl (by simp) (by
        have h0 : (0 : Int) ≤ ub := by omega
        simp [checkAssignment, checkElements, checkElement, countersLang, counterObj, valObj, h0])
    obtain ⟨m', b1, b2, b3⟩ := setVals_spec names ub hub cs m1
    refine ⟨m', by rw [seqApply, a1]; exact b1, b2.trans a2, ?_⟩
    intro f pt
    rw [b3, a3]
    simp only [List.mem_cons, exists_eq_or_imp]
    by_cases hf : f = "value"
    · by_cases hp : pt = [counterObj c]
      · simp [hf, hp]
      · simp [hf, hp]
    · simp [hf]

/-- C79: the generator returns exactly if the upper bound (twice the number of counters by default) is positive, and then
all counters are zero initially and the bound is as given. -/
theorem C79_init (n : Nat) (upper : Option Int) (srt : List String → List String) (hs : ∀ l, (srt l).Perm l) :
    (upper.getD (n * 2) ≤ 0 → countersProblem n upper srt = .error .semantic) ∧
    (0 < upper.getD (n * 2) → ∃ P, countersProblem n upper srt = .ok P ∧
      DescribesVal (counterNames n) (upper.getD (n * 2)) P.lang P.init (fun _ => 0)) := by
  constructor
  · intro h
    unfold countersProblem
    simp only [h, if_true]
  · intro h
    obtain ⟨ub, hub⟩ : ∃ ub, ub = upper.getD (n * 2) := ⟨_, rfl⟩
    rw [← hub] at h
    have hnl : ¬ ub ≤ 0 := by omega
    obtain ⟨m1, a1, a2, a3⟩ := set_spec (countersLang (counterNames n) ub) MState.empty "max_int" [] (.lit (.int ub)) [] (valObj ub)
      rfl (by simp) (by
        have h0 : (0 : Int) ≤ ub := by omega
        simp [checkAssignment, checkElements, checkElement, countersLang, valObj, h0])
    obtain ⟨m2, b1, b2, b3⟩ := setVals_spec (counterNames n) ub h (srt (counterNames n)) m1
    refine ⟨⟨countersLang (counterNames n) ub, m2, land (counterGoal (srt (counterNames n))) true,
      [("increment", counterInc), ("decrement", counterDec)]⟩, ?_, ?_⟩
    · unfold countersProblem
      dsimp only
      rw [← hub, if_neg hnl]
      simp only [a1, b1]
    · rw [← hub]
      refine ⟨?_, ?_⟩
      · intro c hc
        rw [b3, if_pos ⟨rfl, c, (hs _).mem_iff.2 hc, rfl⟩]
      · rw [b3, a3]; simp

theorem mem_zip_tail {α} {l : List α} {a b : α} : (a, b) ∈ l.zip l.tail ↔ ∃ l1 l2, l = l1 ++ a :: b :: l2 := by
  induction l with
  | nil => simp
  | cons x l ih =>
    cases l with
    | nil =>
      simp only [List.tail_cons, List.zip_nil_right, List.not_mem_nil, false_iff, not_exists]
      intro l1 l2 h
      have := congrArg List.length h
      simp at this
      omega
    | cons y l =>
      simp only [List.tail_cons, List.zip_cons_cons, List.mem_cons, Prod.mk.injEq] at ih ⊢
      rw [ih]
      constructor
      · rintro (⟨rfl, rfl⟩ | ⟨l1, l2, h⟩)
        · exact ⟨[], l, rfl⟩
        · exact ⟨x :: l1, l2, by rw [h]; rfl⟩
      · rintro ⟨l1, l2, h⟩
        cases l1 with
        | nil => simp only [List.nil_append, List.cons.injEq] at h; exact .inl ⟨h.1.symm, h.2.1.symm⟩
        | cons z l1 => simp only [List.cons_append, List.cons.injEq] at h; exact .inr ⟨l1, l2, h.2⟩

/-- C79: the goal is true exactly in the states in which the counters, in the order of their names, have increasing
values. -/
theorem C79_goal (n : Nat) (upper : Option Int) (srt : List String → List String) (hs : ∀ l, (srt l).Perm l) (P : BenchProblem)
    (h : countersProblem n upper srt = .ok P) (m : MState) (v : String → Int)
    (hd : DescribesVal (counterNames n) (upper.getD (n * 2)) P.lang m v) :
    ∃ b, evFormula P.lang m noSigma P.goal = .ok b ∧ (b = true ↔ Increasing v (srt (counterNames n))) := by
  obtain ⟨-, -, -, hG⟩ := counters_actions h
  rw [hG]
  have hin : ∀ {a b}, (a, b) ∈ (srt (counterNames n)).zip (srt (counterNames n)).tail → a ∈ counterNames n ∧ b ∈ counterNames n := by
    intro a b hab
    obtain ⟨l1, l2, e⟩ := mem_zip_tail.1 hab
    constructor <;> rw [← (hs _).mem_iff, e] <;> simp
  have hval : ∀ c ∈ counterNames n, evTerm P.lang m noSigma .eval (counterValue c) = .ok (valObj (v c)) := by
    intro c hc
    have ha : isArith "value" = false := by decide
    unfold counterValue
    rw [evTerm]
    simp only [ha, evTerms, evTerm, valueOrUndefined, Bool.false_eq_true, if_false]
    rw [show (⟨.str c, "counter"⟩ : Const) = counterObj c from rfl, hd.value c hc]
  obtain ⟨b, h1, h2⟩ := land_flat_eval P.lang m (counterGoal (srt (counterNames n)))
    (fun f => ∀ a b, f = .atom (.cmp .lt) [counterValue a, counterValue b] → v a < v b) (by
      intro f hf
      obtain ⟨⟨a, b⟩, hab, rfl⟩ := List.mem_map.1 hf
      refine ⟨decide (v a < v b), ?_, ?_⟩
      · rw [evFormula]
        simp only [evTerms, hval a (hin hab).1, hval b (hin hab).2]
        rfl
      · simp only [decide_eq_true_eq]
        constructor
        · intro hlt a' b' e
          simp only [counterValue, Formula.atom.injEq, List.cons.injEq, Term.app.injEq, Term.const.injEq, Name.str.injEq,
            and_true, true_and] at e
          rw [← e.1, ← e.2]; exact hlt
        · intro hh; exact hh a b rfl)
  refine ⟨b, h1, h2.trans ?_⟩
  constructor
  · intro hh a b l1 l2 e
    exact hh _ (List.mem_map_of_mem (f := fun p => Formula.atom (.cmp .lt) [counterValue p.1, counterValue p.2])
      (mem_zip_tail.2 ⟨l1, l2, e⟩)) a b rfl
  · intro hh f hf a b e
    obtain ⟨⟨a', b'⟩, hab, rfl⟩ := List.mem_map.1 hf
    simp only [counterValue, Formula.atom.injEq, List.cons.injEq, Term.app.injEq, Term.const.injEq, Name.str.injEq,
      and_true, true_and] at e
    rw [← e.1, ← e.2]
    obtain ⟨l1, l2, e⟩ := mem_zip_tail.1 hab
    exact hh a' b' l1 l2 e

/-- C79, solvability as the library executes the actions is false: with at least two counters, no plan reaches the goal. -/
theorem C79_solvable_refuted (n : Nat) (hn : 2 ≤ n) (upper : Option Int) (srt : List String → List String) (hs : ∀ l, (srt l).Perm l)
    (P : BenchProblem) (h : countersProblem n upper srt = .ok P) (dom : Domains) (os : List Operator)
    (hp : CounterPlan (counterNames n) P os) (m : MState) (hex : execPlan P.lang dom P.init os = .ok (some m)) :
    evFormula P.lang m noSigma P.goal = .ok false := by
  cases os with
  | cons o os => exact absurd hex (C79_stuck n upper srt P h dom P.init m o os hp)
  | nil =>
    simp only [execPlan, Except.ok.injEq, Option.some.injEq] at hex
    subst hex
    obtain ⟨hub, -, -, -⟩ := counters_actions h
    obtain ⟨P', h', hd⟩ := (C79_init n upper srt hs).2 hub
    rw [h] at h'
    cases h'
    obtain ⟨b, h1, h2⟩ := C79_goal n upper srt hs P h P.init _ hd
    rw [h1]
    cases b with
    | false => rfl
    | true =>
      have hlen : (srt (counterNames n)).length = n := by rw [(hs _).length_eq]; simp [counterNames]
      match hl : srt (counterNames n) with
      | [] => rw [hl] at hlen; simp at hlen; omega
      | [_] => rw [hl] at hlen; simp at hlen; omega
      | a :: b :: l => exact absurd (h2.1 rfl a b [] l hl) (by simp)


/-- C79: read with the standard semantics of functional STRIPS, an instance of an action is applicable exactly if the
counter can change by one within its bounds, and leads to the state in which this counter has changed. -/
theorem C79_step (n : Nat) (upper : Option Int) (srt : List String → List String) (P : BenchProblem)
    (h : countersProblem n upper srt = .ok P) (I : Interp Name) (σ : Asg Name) (v : String → Int)
    (hI : DescribesValI (counterNames n) (upper.getD (n * 2)) I v) (name c : String) (o : Operator)
    (ho : CounterOp (counterNames n) P name c o) :
    (Sat I o.pre σ ↔ ∃ v', CMove (counterNames n) (upper.getD (n * 2)) v name c v') ∧
    ∀ J v', CMove (counterNames n) (upper.getD (n * 2)) v name c v' → SuccessorI I o.effs σ J →
      DescribesValI (counterNames n) (upper.getD (n * 2)) J v' := by
  obtain ⟨-, -, hA, -⟩ := counters_actions h
  obtain ⟨hc, a, ha, hg⟩ := ho
  rw [hA] at ha
  simp only [List.mem_cons, Prod.mk.injEq, List.not_mem_nil, or_false] at ha
  have hv : evalT I (counterValue c) σ = .int (v c) := by
    simp [counterValue, evalT, evalTs, hI.rigid, hI.value c hc]
  -- the successor under an assignment to the counter
  have step : ∀ (r : Term) (k : Int) J, evalT I r σ = .int k →
      SuccessorI I [.assign .top "value" [(counterObj c).toTerm] r] σ J →
      DescribesValI (counterNames n) (upper.getD (n * 2)) J (fun z => if z = c then k else v z) := by
    intro r k J hr hJ
    have hset : ∀ f ds d, DemandsAny I [.assign .top "value" [(counterObj c).toTerm] r] σ (.set f ds d) ↔
        f = "value" ∧ ds = [.str c] ∧ d = .int k := by
      intro f ds d
      simp [DemandsAny, Demands, Sat, evalTs, Const.toTerm, counterObj, evalT, hI.rigid, hr]
    have hkeep : ∀ f ds, (f ≠ "value" ∨ ds ≠ [.str c]) → J.fn f ds = I.fn f ds := by
      intro f ds hne
      refine hJ.keep f ds (fun d hd => ?_)
      obtain ⟨h1, h2, -⟩ := (hset f ds d).1 hd
      rcases hne with hne | hne
      · exact hne h1
      · exact hne h2
    refine ⟨?_, ?_, ?_, ?_, ?_, ?_, ?_⟩
    · intro n s; rw [hJ.const]; exact hI.rigid n s
    · intro z hz
      by_cases hzc : z = c
      · rw [hzc, hJ.set "value" [.str c] (.int k) ((hset _ _ _).2 ⟨rfl, rfl, rfl⟩)]; simp
      · rw [hkeep _ _ (.inr (by simpa using hzc)), hI.value z hz]; simp [hzc]
    · rw [hkeep _ _ (.inl (by decide))]; exact hI.max
    · intro a b; rw [hkeep _ _ (.inl (by decide))]; exact hI.plus a b
    · intro a b; rw [hkeep _ _ (.inl (by decide))]; exact hI.minus a b
    · intro a b; rw [hJ.cmp]; exact hI.lt a b
    · intro a b; rw [hJ.cmp]; exact hI.gt a b
  have inv : ∀ v', CMove (counterNames n) (upper.getD (n * 2)) v name c v' →
      (name = "increment" ∧ v c < upper.getD (n * 2) ∧ v' = fun z => if z = c then v c + 1 else v z) ∨
      (name = "decrement" ∧ v c > 0 ∧ v' = fun z => if z = c then v c - 1 else v z) := by
    intro v' hm
    cases hm with
    | inc _ _ h => exact .inl ⟨rfl, h, rfl⟩
    | dec _ _ h => exact .inr ⟨rfl, h, rfl⟩
  rcases ha with ⟨rfl, rfl⟩ | ⟨rfl, rfl⟩
  · have := (ground_inc c).symm.trans hg
    cases this
    refine ⟨?_, ?_⟩
    · have hmax : evalT I (.app "max_int" []) σ = .int (upper.getD (n * 2)) := by simpa [evalT, evalTs] using hI.max
      simp only [Sat, evalTs, hv, hmax, hI.lt]
      constructor
      · intro hlt; exact ⟨_, .inc c hc hlt⟩
      · rintro ⟨v', hm⟩
        rcases inv v' hm with ⟨-, h1, -⟩ | ⟨h0, -⟩
        · exact h1
        · exact absurd h0 (by decide)
    · intro J v' hm hJ
      rcases inv v' hm with ⟨-, -, rfl⟩ | ⟨h0, -⟩
      · refine step _ (v c + 1) J ?_ hJ
        rw [evalT]
        simp only [evalTs, hv, valObj, Const.toTerm]
        rw [evalT, hI.rigid, hI.plus]
      · exact absurd h0 (by decide)
  · have := (ground_dec c).symm.trans hg
    cases this
    refine ⟨?_, ?_⟩
    · have h0 : evalT I (valObj 0).toTerm σ = .int 0 := by simp [valObj, Const.toTerm, evalT, hI.rigid]
      simp only [Sat, evalTs, hv, h0, hI.gt]
      constructor
      · intro hlt; exact ⟨_, .dec c hc hlt⟩
      · rintro ⟨v', hm⟩
        rcases inv v' hm with ⟨h0, -⟩ | ⟨-, h1, -⟩
        · exact absurd h0 (by decide)
        · exact h1
    · intro J v' hm hJ
      rcases inv v' hm with ⟨h0, -⟩ | ⟨-, -, rfl⟩
      · exact absurd h0 (by decide)
      · refine step _ (v c - 1) J ?_ hJ
        rw [evalT]
        simp only [evalTs, hv, valObj, Const.toTerm]
        rw [evalT, hI.rigid, hI.minus]

/-- Sequences of changes of counters. -/
def CReach (names : List String) (ub : Int) : (String → Int) → (String → Int) → Prop :=
  Relation.ReflTransGen (fun v v' => ∃ name c, CMove names ub v name c v')

theorem creach_bounds {names ub v w} (h : CReach names ub v w) (hv : ∀ c ∈ names, 0 ≤ v c ∧ v c ≤ ub) :
    ∀ c ∈ names, 0 ≤ w c ∧ w c ≤ ub := by
  induction h with
  | refl => exact hv
  | tail _ hm ih =>
    obtain ⟨name, c, hm⟩ := hm
    intro z hz
    have := ih z hz
    cases hm with
    | inc _ _ h => dsimp only; split <;> grind
    | dec _ _ h => dsimp only; split <;> grind

theorem creach_raise {names ub} (v : String → Int) {c : String} (hc : c ∈ names) (h0 : v c = 0) :
    ∀ k : Nat, (k : Int) ≤ ub → CReach names ub v (fun z => if z = c then (k : Int) else v z)
  | 0, _ => by
    have : (fun z => if z = c then ((0 : Nat) : Int) else v z) = v := by
      funext z; split
      · rename_i h; rw [h, h0]; rfl
      · rfl
    rw [this]; exact .refl
  | k + 1, h => by
    have ih : CReach names ub v (fun z => if z = c then (k : Int) else v z) := creach_raise v hc h0 k (by omega)
    refine ih.tail ⟨"increment", c, ?_⟩
    have := CMove.inc (names := names) (ub := ub) (v := fun z => if z = c then (k : Int) else v z) c hc (by
      have : ((k + 1 : Nat) : Int) = k + 1 := by simp
      simp only [if_true]; omega)
    have e : (fun z => if z = c then (if c = c then (k : Int) else v c) + 1 else if z = c then (k : Int) else v z) =
        fun z => if z = c then ((k + 1 : Nat) : Int) else v z := by
      funext z; split
      · simp
      · rfl
    rw [e] at this
    exact this

theorem creach_assign {names : List String} {ub : Int} (t : String → Nat) (ht : ∀ c ∈ names, (t c : Int) ≤ ub) : ∀ l : List String,
    (∀ c ∈ l, c ∈ names) → l.Nodup → CReach names ub (fun _ => 0) (fun z => if z ∈ l then (t z : Int) else 0)
  | [], _, _ => by simp only [List.not_mem_nil, if_false]; exact .refl
  | c :: l, hl, hn => by
    rw [List.nodup_cons] at hn
    refine (creach_assign t ht l (fun z hz => hl z (.tail _ hz)) hn.2).trans ?_
    have := creach_raise (names := names) (ub := ub) (fun z => if z ∈ l then (t z : Int) else 0) (hl c (.head _))
      (by simp [hn.1]) (t c) (ht c (hl c (.head _)))
    have e : (fun z => if z = c then (t c : Int) else if z ∈ l then (t z : Int) else 0) =
        fun z => if z ∈ c :: l then (t z : Int) else 0 := by
      funext z
      by_cases hz : z = c
      · simp [hz]
      · simp [hz]
    rw [e] at this
    exact this

theorem increasing_tail {v : String → Int} {a : String} {l : List String} (h : Increasing v (a :: l)) : Increasing v l :=
  fun x y l1 l2 e => h x y (a :: l1) l2 (by rw [e]; rfl)

theorem increasing_length {v : String → Int} : ∀ (l : List String) (a : String) (lo hi : Int), Increasing v (a :: l) →
    (∀ c ∈ a :: l, v c ≤ hi) → lo ≤ v a → lo + l.length ≤ hi
  | [], a, lo, hi, _, hb, hl => by have := hb a (.head _); simp; omega
  | b :: l, a, lo, hi, h, hb, hl => by
    have h1 := h a b [] l rfl
    have := increasing_length l b (lo + 1) hi (increasing_tail h) (fun c hc => hb c (.tail _ hc)) (by omega)
    simp; omega

/-- C79: in the world of counters the goal can be reached from the initial state exactly if there are enough values for
the counters; with the default bound this is always the case. -/
theorem C79_solvable (names : List String) (hn : names.Nodup) (ub : Int) (hub : 0 < ub) (l : List String) (hl : l.Perm names) :
    (∃ v, CReach names ub (fun _ => 0) v ∧ Increasing v l) ↔ (names.length : Int) ≤ ub + 1 := by
  have hlen : l.length = names.length := hl.length_eq
  have hln : l.Nodup := hl.nodup_iff.2 hn
  constructor
  · rintro ⟨v, hr, hv⟩
    have hb := creach_bounds hr (by intro c _; exact ⟨le_refl _, hub.le⟩)
    match l, hl, hv, hlen with
    | [], hl, _, hlen => rw [← hlen]; simp; omega
    | a :: l, hl, hv, hlen =>
      have := increasing_length l a 0 ub hv (fun c hc => (hb c (hl.mem_iff.1 hc)).2) (hb a (hl.mem_iff.1 (.head _))).1
      simp at hlen; omega
  · intro h
    refine ⟨_, creach_assign (names := names) (ub := ub) (fun c => l.idxOf c) ?_ l (fun c hc => hl.mem_iff.1 hc) hln, ?_⟩
    · intro c hc
      have : l.idxOf c < l.length := List.idxOf_lt_length_of_mem (hl.mem_iff.2 hc)
      omega
    · intro a b l1 l2 e
      have ha : a ∈ l := by rw [e]; simp
      have hb : b ∈ l := by rw [e]; simp
      simp only [ha, hb, if_true]
      have i1 : l.idxOf a = l1.length := by
        rw [e] at hln ⊢
        have : a ∉ l1 := fun hm => (List.nodup_append.1 hln).2.2 a hm a (by simp) rfl
        rw [List.idxOf_append_of_notMem this]; simp
      have i2 : l.idxOf b = l1.length + 1 := by
        rw [e] at hln ⊢
        have hb1 : b ∉ l1 := fun hm => (List.nodup_append.1 hln).2.2 b hm b (by simp) rfl
        have hab : a ≠ b := by
          have := (List.nodup_append.1 hln).2.1
          simp only [List.nodup_cons, List.mem_cons, not_or] at this
          exact this.1.1
        rw [List.idxOf_append_of_notMem hb1, List.idxOf_cons_ne _ hab]; simp
      rw [i1, i2]; omega

/-! ### Non-vacuity -/

example : ∃ P, countersProblem 2 none id = .ok P := (C79_init 2 none id (fun _ => .refl _)).2 (by decide) |>.imp fun _ h => h.1

example : counterNames 3 = ["c1", "c2", "c3"] := by decide

example : CMove ["c1", "c2"] 4 (fun _ => 0) "increment" "c1" (fun z => if z = "c1" then 1 else 0) := .inc "c1" (by decide) (by decide)

example : Increasing (fun z => if z = "c2" then 1 else 0) ["c1", "c2"] := by
  intro a b l1 l2 e
  match l1 with
  | [] => simp only [List.nil_append, List.cons.injEq] at e; obtain ⟨rfl, rfl, -⟩ := e; decide
  | _ :: _ => have := congrArg List.length e; simp at this; omega

end Tarski

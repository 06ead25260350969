import Mathlib.Tactic.Common
import Mathlib.Data.List.Forall2
import Verif.Props.PlyDurative
/-! C95: derived predicates, initial states, metrics, and sequences of definitions read by the PLY-based PDDL reader. -/
namespace Tarski
open Classical

/-! ### Specification -/

def YStruct.action? : YStruct → Option YAction
  | .action a => some a
  | _ => none

def YStruct.durative? : YStruct → Option YDurative
  | .durative a => some a
  | _ => none

def YStruct.derived? : YStruct → Option YDerived
  | .derived a => some a
  | _ => none

/-- The truth of an element of the initial state. -/
def YInit.mean {D} (S : YSem D) (env : String → D) : YInit → Prop
  | .atom p args => S.holds p (YTerm.means S env args)
  | .notAtom p args => ¬ S.holds p (YTerm.means S env args)
  | .eqTerms a b => a.mean S env = b.mean S env
  | .notEq a b => a.mean S env ≠ b.mean S env
  | .timed _ p args => S.holds p (YTerm.means S env args)
  | .real t s => t.mean S env = S.real s
  | .nat t n => t.mean S env = S.nat n
  | .obj t c => t.mean S env = S.obj c

/-- The truth of what is recorded: the term has the value; an integer is a truth value if the term is a predicate. -/
def InitHolds {D} (L : YLang) (I : Interp D) (σ : Asg D) : Term × YInitVal → Prop
  | (t, .int n) => evalT I t σ = I.const (.int n) (if L.base.sortOf t = "Bool" then "Bool" else "Integer")
  | (t, .float s) => evalT I t σ = I.const (.str s) "Real"
  | (t, .term u) => evalT I t σ = evalT I u σ
  | (_, .symbol _) => False

/-- Atoms of predicates, numbers for functions that are not predicates, and names of objects. -/
def YInit.Plain (L : YLang) : YInit → Prop
  | .atom p _ => ∃ dom, L.base.sym p = some (.fn dom "Bool")
  | .nat t _ => ∃ f args dom cod, t = .fn f args ∧ L.base.sym f = some (.fn dom cod) ∧ cod ≠ "Bool"
  | .obj _ c => ∃ s, L.base.sym c = some (.const s)
  | _ => True

mutual
/-- No variables. -/
def YTerm.Ground : YTerm → Prop
  | .id _ => True
  | .var _ => False
  | .fn _ args => YTerm.AllGround args
def YTerm.AllGround : List YTerm → Prop
  | [] => True
  | t :: ts => t.Ground ∧ YTerm.AllGround ts
end

def YInit.Ground : YInit → Prop
  | .atom _ args => YTerm.AllGround args
  | .notAtom _ args => YTerm.AllGround args
  | .eqTerms a b => a.Ground ∧ b.Ground
  | .notEq a b => a.Ground ∧ b.Ground
  | .timed _ _ args => YTerm.AllGround args
  | .real t _ => t.Ground
  | .nat t _ => t.Ground
  | .obj t _ => t.Ground

/-! ### Proof -/

theorem readDerived_ok {L : YLang} {preds sc a d sc'} (h : readDerived L preds sc a = .ok (d, sc')) : ∃ sc1 dom,
    normalizeVars L [] a.params = .ok d.params ∧ readGD L a.body (enterScope sc d.params) = .ok (d.body, sc1) ∧ preds a.head = some dom ∧
    checkHead dom d.params = .ok () ∧ leaveScope sc1 d.params = .ok sc' ∧ d.head = a.head := by
  unfold readDerived at h
  split at h
  · cases h
  · rename_i vs hv
    split at h
    · cases h
    · rename_i f sc1 hf
      split at h
      · cases h
      · rename_i dom hdom
        split at h
        · cases h
        · rename_i hc
          split at h
          · cases h
          · rename_i sc2 hl
            cases h
            exact ⟨sc1, dom, hv, hf, hdom, hc, hl, rfl⟩

theorem checkHead_ok : ∀ (dom : List String) (vs : List Var), checkHead dom vs = .ok () ↔ ∃ extra, vs.map (·.sort) = dom ++ extra := by
  intro dom
  induction dom with
  | nil => intro vs; simp [checkHead]
  | cons s ss ih =>
    intro vs
    cases vs with
    | nil => simp [checkHead]
    | cons v vs =>
      simp only [checkHead]
      split
      · rename_i e
        simp [ih, e]
      · rename_i e
        constructor
        · intro h; cases h
        · rintro ⟨x, hx⟩
          simp only [List.map_cons, List.cons_append, List.cons.injEq] at hx
          exact absurd hx.1.symm e

theorem readYAction_nil {L : YLang} {a d sc'} (h : readYAction L [] a = .ok (d, sc')) : sc' = [] := by
  obtain ⟨sc1, -, h2, -, h4, -⟩ := readYAction_ok h
  exact (scope_back (readYPre_scope h2) h4).1

theorem readDurative_nil {L : YLang} {a d sc'} (h : readDurative L [] a = .ok (d, sc')) : sc' = [] := by
  obtain ⟨dur, c, cv, sc1, e, ev, d1, h1, h2, h3, h4, h5, h6, h7, h8, h9⟩ := readDurative_ok h
  exact (scope_back (readDaGD_scope c _ _ _ h4) h9).1

theorem readDerived_nil {L : YLang} {preds a d sc'} (h : readDerived L preds [] a = .ok (d, sc')) : sc' = [] := by
  obtain ⟨sc1, dom, h1, h2, h3, h4, h5, h6⟩ := readDerived_ok h
  exact (scope_back (readGD_scope _ _ _ _ h2) h5).1

theorem readStructs_ok {L : YLang} {preds : String → Option (List String)} : ∀ (ss : List YStruct) (i i' : YInstance) (sc' : YScope),
    readStructs L preds ss [] i = .ok (i', sc') → sc' = [] ∧
      (∃ ds, i'.actions = i.actions ++ ds ∧ List.Forall₂ (fun a d => readYAction L [] a = .ok (d, [])) (ss.filterMap (·.action?)) ds) ∧
      (∃ ds, i'.durative = i.durative ++ ds ∧ List.Forall₂ (fun a d => readDurative L [] a = .ok (d, [])) (ss.filterMap (·.durative?)) ds) ∧
      (∃ ds, i'.derived = i.derived ++ ds ∧ List.Forall₂ (fun a d => readDerived L preds [] a = .ok (d, [])) (ss.filterMap (·.derived?)) ds) := by
  intro ss
  induction ss with
  | nil => intro i i' sc' h; cases h; exact ⟨rfl, ⟨[], by simp⟩, ⟨[], by simp⟩, ⟨[], by simp⟩⟩
  | cons s ss ih =>
    intro i i' sc' h
    cases s with
    | action a =>
      simp only [readStructs] at h
      split at h
      · cases h
      · rename_i d sc1 hd
        have := readYAction_nil hd
        subst this
        obtain ⟨h0, ⟨d1, h1, h2⟩, ⟨d2, h3, h4⟩, ⟨d3, h5, h6⟩⟩ := ih _ _ _ h
        refine ⟨h0, ⟨d :: d1, by simp [h1], .cons hd h2⟩, ⟨d2, h3, by simpa [YStruct.durative?] using h4⟩, ⟨d3, h5, by simpa [YStruct.derived?] using h6⟩⟩
    | durative a =>
      simp only [readStructs] at h
      split at h
      · cases h
      · rename_i d sc1 hd
        have := readDurative_nil hd
        subst this
        obtain ⟨h0, ⟨d1, h1, h2⟩, ⟨d2, h3, h4⟩, ⟨d3, h5, h6⟩⟩ := ih _ _ _ h
        refine ⟨h0, ⟨d1, h1, by simpa [YStruct.action?] using h2⟩, ⟨d :: d2, by simp [h3], .cons hd h4⟩, ⟨d3, h5, by simpa [YStruct.derived?] using h6⟩⟩
    | derived a =>
      simp only [readStructs] at h
      split at h
      · cases h
      · rename_i d sc1 hd
        have := readDerived_nil hd
        subst this
        obtain ⟨h0, ⟨d1, h1, h2⟩, ⟨d2, h3, h4⟩, ⟨d3, h5, h6⟩⟩ := ih _ _ _ h
        refine ⟨h0, ⟨d1, h1, by simpa [YStruct.action?] using h2⟩, ⟨d2, h3, by simpa [YStruct.durative?] using h4⟩, ⟨d :: d3, by simp [h5], .cons hd h6⟩⟩

mutual
theorem readYTerm_ground {L : YLang} (t : YTerm) (u : Term) (h : readYTerm L [] t = .ok u) : t.Ground := by
  match t with
  | .id n => simp [YTerm.Ground]
  | .var n => simp [readYTerm, dlookup] at h
  | .fn f args =>
    obtain ⟨ts, _, _, hts, -, -⟩ := readYFn_ok h
    rw [YTerm.Ground]
    exact readYTerms_ground args ts hts
theorem readYTerms_ground {L : YLang} (ts : List YTerm) (us : List Term) (h : readYTerms L [] ts = .ok us) : YTerm.AllGround ts := by
  match ts with
  | [] => simp [YTerm.AllGround]
  | t :: ts =>
    simp only [readYTerms] at h
    split at h
    · cases h
    · rename_i u hu
      split at h
      · cases h
      · rename_i us' hus
        rw [YTerm.AllGround]
        exact ⟨readYTerm_ground t u hu, readYTerms_ground ts us' hus⟩
end

theorem readInitAtom_ok {L : YLang} {sc p args t} (h : readInitAtom L sc p args = .ok t) : ∃ ts dom cod, readYTerms L sc args = .ok ts ∧
    L.base.sym p = some (.fn dom cod) ∧ t = .app p ts := by
  simp only [readInitAtom] at h
  split at h
  · cases h
  · rename_i ts hts
    split at h
    · cases h
    · rename_i dom cod hs
      split at h
      · cases h
      · cases h; exact ⟨ts, dom, cod, hts, hs, rfl⟩
    · cases h

theorem readInit_sem {D} {L : YLang} {S : YSem D} {I : Interp D} (hf : YFits L S I) (e : YInit) (hp : e.Plain L) (v : Term × YInitVal)
    (h : readInit L [] e = .ok v) (σ : Asg D) (env : String → D) : e.Ground ∧ (InitHolds L I σ v ↔ e.mean S env) := by
  have ha : AgreeOn [] σ env := by intro x w hx; simp [dlookup] at hx
  cases e with
  | atom p args =>
    simp only [readInit] at h
    split at h
    · cases h
    · rename_i t ht
      cases h
      obtain ⟨ts, dom, cod, h1, h2, rfl⟩ := readInitAtom_ok ht
      obtain ⟨dom', h3⟩ := hp
      refine ⟨readYTerms_ground _ _ h1, ?_⟩
      have hsort : L.base.sortOf (.app p ts) = "Bool" := by simp [RddlLang.sortOf, h3]
      simp only [InitHolds, hsort, if_true, evalT, hf.holds p dom' h3, readYTerms_sem hf ha args ts h1, YInit.mean]
      split
      · rename_i h4; simp [h4]
      · rename_i h4
        simp only [h4, iff_false]
        exact hf.bools
  | notAtom p args =>
    simp only [readInit] at h
    split at h <;> cases h
  | eqTerms a b =>
    simp only [readInit] at h
    split at h
    · cases h
    · rename_i t ht
      split at h
      · cases h
      · rename_i u hu
        cases h
        refine ⟨⟨readYTerm_ground _ _ ht, readYTerm_ground _ _ hu⟩, ?_⟩
        simp only [InitHolds, YInit.mean, readYTerm_sem hf ha a t ht, readYTerm_sem hf ha b u hu]
  | notEq a b => simp [readInit] at h
  | timed w p args =>
    simp only [readInit] at h
    split at h <;> cases h
  | real t s =>
    simp only [readInit] at h
    split at h
    · cases h
    · rename_i u hu
      cases h
      refine ⟨readYTerm_ground _ _ hu, ?_⟩
      simp only [InitHolds, YInit.mean, readYTerm_sem hf ha t u hu, hf.real]
  | nat t n =>
    simp only [readInit] at h
    split at h
    · cases h
    · rename_i u hu
      cases h
      refine ⟨readYTerm_ground _ _ hu, ?_⟩
      obtain ⟨f, args, dom, cod, rfl, h2, h3⟩ := hp
      obtain ⟨ts, dom', cod', h1, h2', rfl⟩ := readYFn_ok hu
      have hsort : L.base.sortOf (.app f ts) ≠ "Bool" := by simpa [RddlLang.sortOf, h2] using h3
      have h4 := readYTerm_sem hf ha _ _ hu
      simp only [InitHolds, hsort, if_false, h4, YInit.mean]
      have := hf.nat n
      simp only [this]
  | obj t c =>
    simp only [readInit] at h
    split at h
    · cases h
    · rename_i u hu
      obtain ⟨s, hs⟩ := hp
      simp only [hs] at h
      cases h
      refine ⟨readYTerm_ground _ _ hu, ?_⟩
      simp only [InitHolds, YInit.mean, evalT, readYTerm_sem hf ha t u hu, hf.obj c s hs]

/-! ### Theorems -/

/-- C95: a derived predicate that is read has the head, the parameters with their types, and a body with the meaning of the condition;
the declared types of the head are those of the first parameters. -/
theorem C95_derived {D} {L : YLang} {S : YSem D} {I : Interp D} (hf : YFits L S I) (preds : String → Option (List String)) (a : YDerived) (d : YDerivedData) (sc' : YScope)
    (h : readDerived L preds [] a = .ok (d, sc')) (hb : PredsOK L a.body) :
    d.head = a.head ∧ d.params = (typedVars a.params).map (fun p => ⟨p.1, typeSort p.2⟩) ∧ sc' = [] ∧
    (∃ dom extra, preds a.head = some dom ∧ d.params.map (·.sort) = dom ++ extra) ∧
    ∀ (σ : Asg D) (env : String → D), (∀ v ∈ d.params, σ v = env v.sym) → (Sat I d.body σ ↔ a.body.mean S env) := by
  obtain ⟨sc1, dom, h1, h2, h3, h4, h5, h6⟩ := readDerived_ok h
  obtain ⟨e, -, -⟩ := normalizeVars_ok _ _ _ h1
  simp only [List.map_nil, List.nil_append] at e
  obtain ⟨extra, he⟩ := (checkHead_ok _ _).1 h4
  exact ⟨h6, e, (scope_back (readGD_scope _ _ _ _ h2) h5).1, ⟨dom, extra, h3, he⟩,
    fun σ env hσ => readGD_sem hf a.body hb _ _ _ h2 σ env (agree_params hσ)⟩

/-- C95: every derived predicate with a legal body whose parameters have the declared types is accepted. -/
theorem C95_derived_accepts_partial {L : YLang} (hL : YStd L) (preds : String → Option (List String)) (a : YDerived)
    (h1 : ((typedVars a.params).map Prod.fst).Nodup) (h2 : ∀ t, VTok.type t ∈ a.params → primitiveType t ∈ L.types)
    (h3 : preds a.head = some ((typedVars a.params).map fun p => typeSort p.2)) (h4 : a.body.Legal L (declare (fun _ => none) (typedVars a.params))) :
    ∃ d, readDerived L preds [] a = .ok (d, []) := by
  obtain ⟨vs, hv, ht, hl⟩ := params_typ hL h1 h2
  obtain ⟨e, -, -⟩ := normalizeVars_ok _ _ _ hv
  simp only [List.map_nil, List.nil_append] at e
  obtain ⟨f, hf⟩ := readGD_typ hL a.body (enterScope [] vs) (by rw [ht]; exact h4)
  have hc : checkHead ((typedVars a.params).map fun p => typeSort p.2) vs = .ok () := (checkHead_ok _ _).2 ⟨[], by rw [e, List.map_map]; simp⟩
  exact ⟨⟨a.head, vs, f⟩, by simp only [readDerived, hv, hf, h3, hc, hl]⟩

/-- C95 refuted in general: the head of a derived predicate may have more parameters than its declaration. -/
theorem C95_arity_refuted : ∃ d, readDerived exYLang (fun p => if p = "at" then some ["truck", "object"] else none) []
      ⟨"at", [.var "?x", .type "truck", .var "?l", .var "?m"], .lit (.eq (.var "?l") (.var "?m"))⟩ = .ok (d, []) ∧ d.params.length = 3 := by
  refine ⟨⟨"at", [⟨"?x", "truck"⟩, ⟨"?l", "object"⟩, ⟨"?m", "object"⟩], .atom (.cmp .eq) [.var ⟨"?l", "object"⟩, .var ⟨"?m", "object"⟩]⟩, ?_, rfl⟩
  simp [readDerived, normalizeVars, primitiveType, exYLang, enterScope, dinsert, readGD, readYLit, readYAtom, readYTerm, dlookup, compareTerms, RddlLang.checkArgs, RddlLang.sortOf,
    checkHead, leaveScope, ddelete]

/-- C95 refuted in general: a derived predicate that is not declared, or has less parameters than its declaration, is not reported as an error of the input. -/
theorem C95_head_refuted : readDerived exYLang (fun _ => none) [] ⟨"q", [.var "?l"], .lit (.eq (.var "?l") (.id "home"))⟩ = .error .attribute ∧
    readDerived exYLang (fun _ => some ["object", "object"]) [] ⟨"q", [.var "?l"], .lit (.eq (.var "?l") (.id "home"))⟩ = .error .index := by
  constructor <;> simp [readDerived, normalizeVars, exYLang, enterScope, dinsert, readGD, readYLit, readYAtom, readYTerm, dlookup, compareTerms, RddlLang.checkArgs, RddlLang.sortOf, checkHead]

/-- A derived predicate is accepted. -/
example : ∃ d, readDerived exYLang (fun p => if p = "at" then some ["truck", "object"] else none) []
    ⟨"at", [.var "?x", .type "truck", .var "?l"], .lit (.eq (.var "?l") (.id "home"))⟩ = .ok (d, []) :=
  C95_derived_accepts_partial exYLang_std _ _ (by simp [typedVars, nextType]) (by simp [exYLang, primitiveType]) (by simp [typedVars, nextType, typeSort, primitiveType])
    (by simp [YGD.Legal, YAtom.Legal, YTerm.typ, declare, typedVars, nextType, typeSort, primitiveType, exYLang])

/-- C95: in an initial state that is read, there are no variables, and what is recorded holds in an interpretation exactly if the elements do. -/
theorem C95_init_partial {D} {L : YLang} {S : YSem D} {I : Interp D} (hf : YFits L S I) : ∀ (es : List YInit) (vs : List (Term × YInitVal)), (∀ e ∈ es, e.Plain L) →
    readInits L [] es = .ok vs → (∀ e ∈ es, e.Ground) ∧ List.Forall₂ (fun v e => ∀ (σ : Asg D) (env : String → D), InitHolds L I σ v ↔ YInit.mean S env e) vs es := by
  intro es
  induction es with
  | nil => intro vs _ h; cases h; exact ⟨by simp, .nil⟩
  | cons e es ih =>
    intro vs hp h
    simp only [readInits] at h
    split at h
    · cases h
    · rename_i v hv
      split at h
      · cases h
      · rename_i vs' hvs
        cases h
        obtain ⟨h1, h2⟩ := ih vs' (fun e he => hp e (by simp [he])) hvs
        have h3 := readInit_sem hf e (hp e (by simp)) v hv
        by_cases hne : Nonempty (Asg D)
        · obtain ⟨σ⟩ := hne
          refine ⟨?_, .cons (fun σ env => (h3 σ env).2) h2⟩
          intro e' he'
          simp only [List.mem_cons] at he'
          rcases he' with rfl | he'
          · exact (h3 σ (fun x => σ ⟨x, ""⟩)).1
          · exact h1 _ he'
        · refine ⟨?_, .cons (fun σ env => (h3 σ env).2) h2⟩
          exact absurd ⟨fun _ => I.const (.int 0) "Bool"⟩ hne

/-- C95 refuted in general: an initial state with a negated atom is never read. -/
theorem C95_negation_refuted (L : YLang) (sc : YScope) (p : String) (args : List YTerm) (es : List YInit) (h : YInit.notAtom p args ∈ es) : ∀ vs, readInits L sc es ≠ .ok vs := by
  induction es with
  | nil => cases h
  | cons e es ih =>
    intro vs hr
    simp only [readInits] at hr
    split at hr
    · cases hr
    · rename_i v hv
      split at hr
      · cases hr
      · rename_i vs' hvs
        simp only [List.mem_cons] at h
        rcases h with rfl | h
        · simp only [readInit] at hv
          split at hv <;> cases hv
        · exact ih h vs' hvs

/-- C95 refuted in general: the name of a function is accepted as a value in the initial state. -/
theorem C95_symbol_refuted : readInits exYLang [] [.obj (.fn "fuel" [.id "t1"]) "fuel"] = .ok [(.app "fuel" [.const (.str "t1") "truck"], .symbol "fuel")] := by
  simp [readInits, readInit, readYTerm, readYTerms, exYLang, RddlLang.checkArgs, RddlLang.sortOf]

/-- An initial state that is read. -/
example : ∃ vs, readInits exYLang [] [.atom "at" [.id "t1", .id "home"], .nat (.fn "fuel" [.id "t1"]) 1] = .ok vs ∧
    ∀ e ∈ [YInit.atom "at" [.id "t1", .id "home"], .nat (.fn "fuel" [.id "t1"]) 1], e.Plain exYLang ∧ e.mean exYSem (fun _ => 0) := by
  refine ⟨[(.app "at" [.const (.str "t1") "truck", .const (.str "home") "object"], .int 1), (.app "fuel" [.const (.str "t1") "truck"], .int 1)], ?_, ?_⟩
  · simp [readInits, readInit, readInitAtom, readYTerm, readYTerms, exYLang, RddlLang.checkArgs, RddlLang.sortOf]
  · simp [YInit.Plain, YInit.mean, exYLang, exYSem, YTerm.means, YTerm.mean]

/-- C95: the mode of the metric is recorded; the total cost and the total time are recognized, and only they. -/
theorem C95_metric_partial (minimize : Bool) (m : YMetric) (r : Bool × YObjective) (h : readMetricSpec minimize m = .ok r) :
    r.1 = minimize ∧ (r.2 = .totalCost ↔ m = .totalCost) ∧ (r.2 = .totalTime ↔ m = .totalTime) := by
  unfold readMetricSpec at h
  split at h
  · cases h
  · rename_i o ho
    cases h
    refine ⟨rfl, ?_⟩
    cases m <;> simp only [readYMetric] at ho
    case totalCost => cases ho; simp
    case totalTime => cases ho; simp
    case fluent => cases ho; simp
    case violated => cases ho; simp
    case real => cases ho
    case id => cases ho
    case minus =>
      split at ho <;> cases ho
      simp
    case bin =>
      split at ho
      · cases ho
      · split at ho <;> cases ho
        simp
    case multi =>
      split at ho
      · cases ho
      · split at ho <;> cases ho
        simp

/-- C95 refuted in general: every other metric that is accepted is not recorded: only that its type is unspecified. A metric that is a single name or number raises an
`IndexError`. -/
theorem C95_metric_refuted : (∀ b m r, readMetricSpec b m = .ok r → m ≠ .totalCost → m ≠ .totalTime → r.2 = .unspecified) ∧
    (∀ b n, readMetricSpec b (.id n) = .error .index) ∧ ∀ b n, readMetricSpec b (.real n) = .error .index := by
  refine ⟨?_, fun _ _ => by simp [readMetricSpec, readYMetric], fun _ _ => by simp [readMetricSpec, readYMetric]⟩
  intro b m r h h1 h2
  obtain ⟨-, h3, h4⟩ := C95_metric_partial b m r h
  cases hr : r.2 with
  | unspecified => rfl
  | totalCost => exact absurd (h3.1 hr) h1
  | totalTime => exact absurd (h4.1 hr) h2

example : readMetricSpec true .totalCost = .ok (true, .totalCost) := by simp [readMetricSpec, readYMetric]

/-- C95: in a file that is read, the definitions are independent of each other: every action, durative action and derived predicate is
recorded as if it were the only one, in the order in which they are written. -/
theorem C95_sequence {L : YLang} {preds : String → Option (List String)} (ss : List YStruct) (i : YInstance) (sc' : YScope)
    (h : readStructs L preds ss [] {} = .ok (i, sc')) : sc' = [] ∧
      List.Forall₂ (fun a d => readYAction L [] a = .ok (d, [])) (ss.filterMap (·.action?)) i.actions ∧
      List.Forall₂ (fun a d => readDurative L [] a = .ok (d, [])) (ss.filterMap (·.durative?)) i.durative ∧
      List.Forall₂ (fun a d => readDerived L preds [] a = .ok (d, [])) (ss.filterMap (·.derived?)) i.derived := by
  obtain ⟨h0, ⟨d1, h1, h2⟩, ⟨d2, h3, h4⟩, ⟨d3, h5, h6⟩⟩ := readStructs_ok ss _ _ _ h
  simp only [List.nil_append] at h1 h3 h5
  rw [h1, h3, h5]
  exact ⟨h0, h2, h4, h6⟩

/-- C95: conversely, if every definition can be read alone, the whole file can be read. -/
theorem C95_sequence_accepts {L : YLang} {preds : String → Option (List String)} : ∀ (ss : List YStruct) (i : YInstance),
    (∀ s ∈ ss, match s with
      | .action a => ∃ d, readYAction L [] a = .ok (d, [])
      | .durative a => ∃ d, readDurative L [] a = .ok (d, [])
      | .derived a => ∃ d, readDerived L preds [] a = .ok (d, [])) →
    ∃ i', readStructs L preds ss [] i = .ok (i', []) := by
  intro ss
  induction ss with
  | nil => intro i _; exact ⟨i, rfl⟩
  | cons s ss ih =>
    intro i h
    have h1 := h s (by simp)
    have h2 := fun i => ih i fun s hs => h s (by simp [hs])
    cases s with
    | action a =>
      obtain ⟨d, hd⟩ := h1
      simp only [readStructs, hd]
      exact h2 _
    | durative a =>
      obtain ⟨d, hd⟩ := h1
      simp only [readStructs, hd]
      exact h2 _
    | derived a =>
      obtain ⟨d, hd⟩ := h1
      simp only [readStructs, hd]
      exact h2 _

/-- Two definitions that use the same names of variables. -/
example : ∃ i, readStructs exYLang (fun _ => none) [.action exYAction, .durative exYDurative, .action exYAction] [] {} = .ok (i, []) := by
  refine C95_sequence_accepts _ _ ?_
  simp only [List.mem_cons, List.not_mem_nil, or_false, forall_eq_or_imp, forall_eq]
  exact ⟨C93_accepts_partial exYLang_std exYAction exYAction_legal, C94_accepts_partial exYLang_std exYDurative exYDurative_legal,
    C93_accepts_partial exYLang_std exYAction exYAction_legal⟩

end Tarski

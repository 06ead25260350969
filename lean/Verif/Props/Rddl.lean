import Mathlib.Tactic.Common
import Verif.Rddl
import Verif.Props.Aggregate
/-! C90: the meaning of RDDL expressions that are read. -/
namespace Tarski
open Classical

/-! ### Specification: the meaning of RDDL expressions -/

/-- What an RDDL expression denotes: a truth value, or a number or object. -/
inductive RDen (D : Type) where
  | truth (p : Prop)
  | value (d : D)

/-- An interpretation of RDDL: numbers, objects, the fluents in this and the next state, operators, functions and relations by
their RDDL names, and the objects of every type. -/
structure RddlSem (D : Type) where
  num : Name → D
  obj : String → D
  types : List String
  objs : String → List String
  isBool : String → Bool
  fluent : String → List D → D
  holds : String → List D → Prop
  holdsNext : String → List D → Prop
  compare : String → D → D → Prop
  arith : String → D → D → D
  minus : D → D
  func : String → List D → D

/-- A truth value counts as 1 or 0. -/
noncomputable def RDen.asValue {D} (S : RddlSem D) : RDen D → D
  | .truth p => if p then S.num (.int 1) else S.num (.int 0)
  | .value d => d

def RDen.asTruth {D} (S : RddlSem D) : RDen D → Prop
  | .truth p => p
  | .value d => d ≠ S.num (.int 0)

def RArg.value {D} (S : RddlSem D) (env : String → D) : RArg → D
  | .var x => env x
  | .name c => S.obj c
  | .num n => S.num n

def setEnv {D} (env : String → D) (x : String) (d : D) : String → D := fun y => if y = x then d else env y

/-- All ways to give objects of their types to the variables. -/
def envs {D} (S : RddlSem D) : List (String × String) → (String → D) → List (String → D)
  | [], env => [env]
  | v :: vs, env => (S.objs v.2).flatMap fun c => envs S vs (setEnv env v.1 (S.obj c))

/-- `d1 op d2 op ... op dn` -/
def total {D} (op : D → D → D) (unit : D) : List D → D
  | [] => unit
  | d :: ds => ds.foldl op d

/-- The meaning of the connectives. -/
def logicMean {D} (S : RddlSem D) : String → List (RDen D) → RDen D
  | "~", [a] => .truth (¬ a.asTruth S)
  | "=>", [a, b] => .truth (a.asTruth S → b.asTruth S)
  | "<=>", [a, b] => .truth (a.asTruth S ↔ b.asTruth S)
  | "^", [a, b] => .truth (a.asTruth S ∧ b.asTruth S)
  | "|", [a, b] => .truth (a.asTruth S ∨ b.asTruth S)
  | _, _ => .truth False

mutual
/-- The meaning of an expression, given the values of its variables. -/
noncomputable def mean {D} (S : RddlSem D) : RX → (String → D) → RDen D
  | .lit n, _ => .value (S.num n)
  | .bool b, _ => .truth (b = true)
  | .pvar f primed args, env =>
    let ds := (args.getD []).map (RArg.value S env)
    if S.isBool f then .truth (if primed then S.holdsNext f ds else S.holds f ds) else .value (S.fluent f ds)
  | .control args, env => match means S args env with
    | [c, a, b] => if c.asTruth S then a else b
    | _ => .truth False
  | .rel op args, env => match means S args env with
    | [a, b] => .truth (S.compare op (a.asValue S) (b.asValue S))
    | _ => .truth False
  | .agg op v vs body, env =>
    if op = "sum" then .value (total (S.arith "+") (S.num (.int 0)) ((envs S (v :: vs) env).map fun e => (mean S body e).asValue S))
    else if op = "prod" then .value (total (S.arith "*") (S.num (.int 1)) ((envs S (v :: vs) env).map fun e => (mean S body e).asValue S))
    else if op = "forall" then .truth (∀ e ∈ envs S (v :: vs) env, (mean S body e).asTruth S)
    else .truth (∃ e ∈ envs S (v :: vs) env, (mean S body e).asTruth S)
  | .arith op args, env => match means S args env with
    | [a] => .value (S.minus (a.asValue S))
    | [a, b] => .value (S.arith op (a.asValue S) (b.asValue S))
    | _ => .truth False
  | .func f args, env => .value (S.func f ((means S args env).map (RDen.asValue S)))
  | .logic op args, env => logicMean S op (means S args env)
noncomputable def means {D} (S : RddlSem D) : List RX → (String → D) → List (RDen D)
  | [], _ => []
  | x :: xs, env => mean S x env :: means S xs env
end

/-- The interpretation `I` of the Tarski language is the one that `S` describes. `csort` gives the sorts of the objects. -/
structure Fits {D} (L : RddlLang) (S : RddlSem D) (I : Interp D) (csort : String → String) : Prop where
  isBool : ∀ f, S.isBool f = true ↔ ∃ ss, L.sym f = some (.pred ss)
  lit : ∀ n, I.const n "Real" = S.num n
  one : I.const (.int 1) "Integer" = S.num (.int 1)
  zero : I.const (.int 0) "Integer" = S.num (.int 0)
  zeroOf : ∀ s, L.zeroOk s = true → I.const (.int 0) s = S.num (.int 0)
  obj : ∀ c s, L.sym c = some (.const s) → I.const (.str c) s = S.obj c
  fluent : ∀ f d c, L.sym f = some (.fn d c) → ∀ ds, I.fn f ds = S.fluent f ds
  holds : ∀ p ss, L.sym p = some (.pred ss) → ∀ ds, I.pred (.user p) ds ↔ S.holds p ds
  next : ∀ p ss, L.sym p = some (.pred ss) → ∀ ds, I.pred (.user ("X " ++ p)) ds ↔ S.holdsNext p ds
  eq : ∀ a b, I.pred (.cmp .eq) [a, b] ↔ S.compare "==" a b
  le : ∀ a b, I.pred (.cmp .le) [a, b] ↔ S.compare "<=" a b
  ge : ∀ a b, I.pred (.cmp .ge) [a, b] ↔ S.compare ">=" a b
  arith : ∀ op ∈ ["+", "-", "*", "/"], ∀ a b, I.fn op [a, b] = S.arith op a b
  func : ∀ p ∈ [("abs", "abs"), ("Normal", "normal"), ("sqrt", "sqrt"), ("pow", "**"), ("exp", "exp"), ("max", "max"), ("Gamma", "gamma")],
    ∀ ds, I.fn p.2 ds = S.func p.1 ds
  sort : ∀ t ∈ S.types, ∀ d, I.sort t d ↔ ∃ c ∈ S.objs t, S.obj c = d
  dom : ∀ t ∈ S.types, L.dom t = .ok ((S.objs t).map fun c => .const (.str c) (csort c))
  csort : ∀ t ∈ S.types, ∀ c ∈ S.objs t, L.sym c = some (.const (csort c))
  one_mul : ∀ d, S.arith "*" (S.num (.int 1)) d = d
  mul_one : ∀ d, S.arith "*" d (S.num (.int 1)) = d
  zero_mul : ∀ d, S.arith "*" (S.num (.int 0)) d = S.num (.int 0)
  mul_zero : ∀ d, S.arith "*" d (S.num (.int 0)) = S.num (.int 0)
  minus : ∀ d, S.arith "*" (S.num (.int (-1))) d = S.minus d

/-- The sorts that a fluent gives to its arguments. -/
def RddlLang.argSorts (L : RddlLang) (f : String) : List String :=
  match L.sym f with
  | some (.fn d _) => d
  | some (.pred ss) => ss
  | _ => []

mutual
/-- The expressions for which the claim is made, under the types `Γ` of the variables in scope. Every variable is declared
with exactly the type that the fluents it is used in ask for; one variable per aggregation, with a new name; operators have
the number of arguments that the parser gives them. -/
def Proper (L : RddlLang) (types : List String) (Γ : String → Option String) : RX → Prop
  | .lit _ => True
  | .bool _ => True
  | .pvar f _ args => ∀ p ∈ (args.getD []).zip (L.argSorts f), ∀ x, p.1 = .var x → Γ x = some p.2
  | .control args => Propers L types Γ args
  | .rel _ args => args.length = 2 ∧ Propers L types Γ args
  | .agg _ v vs body => vs = [] ∧ Γ v.1 = none ∧ v.2 ∈ types ∧ Proper L types (fun y => if y = v.1 then some v.2 else Γ y) body
  | .arith _ args => args.length ≤ 2 ∧ Propers L types Γ args
  | .func _ args => Propers L types Γ args
  | .logic op args => (op = "^" ∨ op = "|" → args.length = 2) ∧ Propers L types Γ args
def Propers (L : RddlLang) (types : List String) (Γ : String → Option String) : List RX → Prop
  | [] => True
  | x :: xs => Proper L types Γ x ∧ Propers L types Γ xs
end

/-- What the result of the reader means in Tarski. -/
noncomputable def RRes.den {D} (I : Interp D) (σ : Asg D) : RRes → RDen D
  | .term t => .value (evalT I t σ)
  | .form f => .truth (Sat I f σ)

/-- The assignment gives the variables in scope their values. -/
def Scope {D} (Γ : String → Option String) (σ : Asg D) (env : String → D) : Prop := ∀ x s, Γ x = some s → σ ⟨x, s⟩ = env x

/-! ### Proof -/

def RRes.VarB : RRes → Prop
  | .term t => VarBindersT t
  | .form f => VarBindersF f

def RRes.Bd (w : Var) : RRes → Prop
  | .term t => BoundT w t
  | .form f => BoundF w f

/-- The bound variables of a result are not in scope. -/
def GoodR (Γ : String → Option String) (r : RRes) : Prop := r.VarB ∧ ∀ w, r.Bd w → Γ w.sym = none

theorem rddlArgs_sem {D} {L : RddlLang} {S : RddlSem D} {I : Interp D} {cs} (hf : Fits L S I cs) {Γ : String → Option String} :
    ∀ (as : List RArg) (sorts : List String) (ts : List Term), rddlArgs L sorts as = .ok ts →
      (∀ p ∈ as.zip sorts, ∀ x, p.1 = .var x → Γ x = some p.2) →
      (VarBindersTs ts ∧ ∀ w, ¬ BoundTs w ts) ∧ ∀ env σ, Scope Γ σ env → evalTs I ts σ = as.map (RArg.value S env) := by
  intro as
  induction as with
  | nil => intro sorts ts h _; cases h; simp [VarBindersTs, BoundTs, evalTs]
  | cons a as ih =>
    intro sorts ts h hg
    cases a with
    | num n => cases h
    | var x =>
      simp only [rddlArgs] at h
      cases sorts with
      | nil => cases h
      | cons s sorts =>
        dsimp only at h
        cases hr : rddlArgs L sorts as with
        | error e => simp [hr] at h
        | ok us =>
          simp only [hr, Except.ok.injEq] at h
          subst h
          obtain ⟨⟨i1, i2⟩, i3⟩ := ih sorts us hr (fun p hp => hg p (by simp [hp]))
          refine ⟨⟨by simp [VarBindersTs, VarBindersT, i1], by simp [BoundTs, BoundT, i2]⟩, fun env σ hs => ?_⟩
          simp only [evalTs, evalT, i3 env σ hs, List.map_cons, RArg.value]
          rw [hs x s (hg (.var x, s) (by simp) x rfl)]
    | name c =>
      simp only [rddlArgs] at h
      split at h
      · rename_i s hc
        cases hr : rddlArgs L sorts.tail as with
        | error e => simp [hr] at h
        | ok us =>
          simp only [hr, Except.ok.injEq] at h
          subst h
          obtain ⟨⟨i1, i2⟩, i3⟩ := ih sorts.tail us hr (fun p hp => hg p (by cases sorts <;> simp_all))
          refine ⟨⟨by simp [VarBindersTs, VarBindersT, i1], by simp [BoundTs, BoundT, i2]⟩, fun env σ hs => ?_⟩
          simp only [evalTs, evalT, i3 env σ hs, List.map_cons, RArg.value]
          rw [hf.obj c s hc]
      · cases h
      · cases h

theorem readPvar_sem {D} {L : RddlLang} {S : RddlSem D} {I : Interp D} {cs} (hf : Fits L S I cs) {Γ : String → Option String}
    {f primed args r} (h : readPvar L f primed args = .ok r)
    (hg : ∀ p ∈ (args.getD []).zip (L.argSorts f), ∀ x, p.1 = .var x → Γ x = some p.2) :
    GoodR Γ r ∧ ∀ env σ, Scope Γ σ env → r.den I σ = mean S (.pvar f primed args) env := by
  unfold readPvar at h
  unfold RddlLang.argSorts at hg
  split at h
  · cases h
  · rename_i dom cod hs
    rw [hs] at hg
    split at h
    · cases h
    · rename_i ts hts
      split at h
      · cases h
      · split at h
        · cases h
        · rename_i hp _ _
          cases h
          obtain ⟨⟨i1, i2⟩, i3⟩ := rddlArgs_sem hf _ _ _ hts hg
          refine ⟨⟨i1, fun w hw => absurd hw (i2 w)⟩, fun env σ hsc => ?_⟩
          have hb : S.isBool f = false := by
            cases hb : S.isBool f with
            | false => rfl
            | true => obtain ⟨ss, hss⟩ := (hf.isBool f).1 hb; rw [hs] at hss; cases hss
          simp only [RRes.den, evalT, mean, hb, i3 env σ hsc, hf.fluent f _ _ hs]
          rfl
  · rename_i ss hs
    rw [hs] at hg
    split at h
    · cases h
    · rename_i ts hts
      split at h
      · cases h
      · cases h
        obtain ⟨⟨i1, i2⟩, i3⟩ := rddlArgs_sem hf _ _ _ hts hg
        refine ⟨⟨i1, fun w hw => absurd hw (i2 w)⟩, fun env σ hsc => ?_⟩
        have hb : S.isBool f = true := (hf.isBool f).2 ⟨ss, hs⟩
        simp only [RRes.den, Sat, mean, hb, i3 env σ hsc, if_true]
        cases primed with
        | true =>
          simp only [if_true]
          rw [nextName, propext (hf.next f ss hs _)]
        | false =>
          simp only [Bool.false_eq_true, if_false]
          rw [propext (hf.holds f ss hs _)]
  · split at h
    · cases h
    · split at h <;> cases h

theorem forms_eq {rs : List RRes} {fs : List Formula} (h : RRes.forms rs = some fs) : rs = fs.map .form := by
  induction rs generalizing fs with
  | nil => cases h; rfl
  | cons r rs ih =>
    cases r with
    | term t => cases h
    | form f =>
      simp only [RRes.forms, Option.map_eq_some_iff] at h
      obtain ⟨gs, hg, rfl⟩ := h
      rw [ih hg]; rfl

theorem terms_eq {rs : List RRes} {ts : List Term} (h : RRes.terms rs = some ts) : rs = ts.map .term := by
  induction rs generalizing ts with
  | nil => cases h; rfl
  | cons r rs ih =>
    cases r with
    | form t => cases h
    | term f =>
      simp only [RRes.terms, Option.map_eq_some_iff] at h
      obtain ⟨gs, hg, rfl⟩ := h
      rw [ih hg]; rfl

theorem chain_eval {D} (I : Interp D) (A : AggLang) (op : String) (σ : Asg D) (ts : List Term) : ∀ (t r : Term),
    A.chain op t ts = .ok r → evalT I r σ = (ts.map fun t => evalT I t σ).foldl (fun a b => I.fn op [a, b]) (evalT I t σ) := by
  induction ts with
  | nil => intro t r h; cases h; rfl
  | cons u us ih =>
    intro t r h
    simp only [AggLang.chain, AggLang.dispatch] at h
    split at h
    · cases h
    · rename_i r' hd
      split at hd
      · cases hd
      · split at hd
        · cases hd
          rw [ih _ _ h]
          simp [evalT, evalTs]
        · cases hd

theorem chain_good {A : AggLang} {op : String} (ts : List Term) : ∀ (t r : Term), A.chain op t ts = .ok r →
    (∀ u ∈ t :: ts, VarBindersT u) → VarBindersT r ∧ ∀ w, BoundT w r → ∃ u ∈ t :: ts, BoundT w u := by
  induction ts with
  | nil => intro t r h hv; cases h; exact ⟨hv _ (by simp), fun w hw => ⟨t, by simp, hw⟩⟩
  | cons u us ih =>
    intro t r h hv
    simp only [AggLang.chain, AggLang.dispatch] at h
    split at h
    · cases h
    · rename_i r' hd
      split at hd
      · cases hd
      · split at hd
        · cases hd
          have hvt := hv t (by simp)
          have hvu := hv u (by simp)
          obtain ⟨i1, i2⟩ := ih _ _ h (by
            intro x hx
            rcases List.mem_cons.1 hx with rfl | hx
            · simp [VarBindersT, VarBindersTs, hvt, hvu]
            · exact hv x (by simp [hx]))
          refine ⟨i1, fun w hw => ?_⟩
          obtain ⟨x, hx, hb⟩ := i2 w hw
          rcases List.mem_cons.1 hx with rfl | hx
          · simp only [BoundT, BoundTs, or_false] at hb
            rcases hb with hb | hb
            · exact ⟨t, by simp, hb⟩
            · exact ⟨u, by simp, hb⟩
          · exact ⟨x, by simp [hx], hb⟩
        · cases hd

theorem asNumber_good {Γ} {r : RRes} (h : GoodR Γ r) : VarBindersT (asNumber r) ∧ ∀ w, BoundT w (asNumber r) → Γ w.sym = none := by
  cases r with
  | term t => exact h
  | form f =>
    refine ⟨⟨h.1, trivial, trivial⟩, fun w hw => ?_⟩
    simp only [asNumber, BoundT, or_false] at hw
    exact h.2 w hw

theorem asNumber_sem {D} {L : RddlLang} {S : RddlSem D} {I : Interp D} {cs} (hf : Fits L S I cs) (r : RRes) (σ : Asg D) :
    evalT I (asNumber r) σ = (r.den I σ).asValue S := by
  cases r with
  | term t => rfl
  | form f => simp only [asNumber, evalT, RRes.den, RDen.asValue, hf.one, hf.zero]

theorem readXs_length {L : RddlLang} {xs : List RX} {rs : List RRes} (h : readXs L xs = .ok rs) : rs.length = xs.length := by
  induction xs generalizing rs with
  | nil => simp only [readXs] at h; cases h; rfl
  | cons x xs ih =>
    simp only [readXs] at h
    cases hx : readX L x with
    | error e => simp [hx] at h
    | ok r =>
      simp only [hx] at h
      cases hr : readXs L xs with
      | error e => simp [hr] at h
      | ok us => simp only [hr] at h; cases h; simp [ih hr]

/-- Sums and products. -/
theorem aggregate_sem {D} {L : RddlLang} {S : RddlSem D} {I : Interp D} {cs} (hf : Fits L S I cs) {Γ : String → Option String}
    {v : String × String} (hv : Γ v.1 = none) (ht : v.2 ∈ S.types) {op : String} {e t : Term}
    (hb : VarBindersT e) (hbd : ∀ w, BoundT w e → (fun y => if y = v.1 then some v.2 else Γ y) w.sym = none)
    (h : aggregate L.dom L.agg op [.term (.var ⟨v.1, v.2⟩), .term e] = .ok t) :
    (VarBindersT t ∧ ∀ w, BoundT w t → Γ w.sym = none) ∧
    ∀ σ : Asg D, ∀ unit, evalT I t σ = total (fun a b => I.fn op [a, b]) unit
      ((S.objs v.2).map fun c => evalT I e (σ.set ⟨v.1, v.2⟩ (S.obj c))) := by
  obtain ⟨x, hx⟩ : ∃ x : Var, x = ⟨v.1, v.2⟩ := ⟨_, rfl⟩
  rw [← hx] at h
  have hd : ListsDomains L.dom (fun s => (S.objs s).map fun c => (Name.str c, cs c)) [x] := by
    intro y hy
    simp only [List.mem_singleton] at hy
    subst hy
    rw [hx, List.map_map]
    exact hf.dom v.2 ht
  obtain ⟨u, us, hu, hc⟩ := aggregate_ok hd h
  have hl : (cart ([x].map fun v => ((S.objs v.sort).map fun c => (Name.str c, cs c)).map fun c => Term.const c.1 c.2)).map
      (fun values => subT (createSubst ([x].map Term.var) values) e) =
      (S.objs v.2).map fun c => subT [(.var x, .const (.str c) (cs c))] e := by
    have hs : x.sort = v.2 := by rw [hx]
    simp only [List.map_cons, List.map_nil, cart, hs]
    generalize S.objs v.2 = l
    induction l with
    | nil => rfl
    | cons c l ih => simp only [List.map_cons, List.flatMap_cons, List.map_append, ih]; rfl
  rw [hl] at hu
  have hkey : ∀ c, KeysVar [(Term.var x, Term.const (.str c) (cs c))] := by
    intro c kv hkv; simp only [List.mem_singleton] at hkv; exact ⟨x, by rw [hkv]⟩
  have hval : ∀ c, ValsConst [(Term.var x, Term.const (.str c) (cs c))] := by
    intro c kv hkv; simp only [List.mem_singleton] at hkv; exact ⟨_, _, by rw [hkv]⟩
  have hfr : ∀ c w, BoundT w e → Fresh [(Term.var x, Term.const (.str c) (cs c))] w := by
    intro c w hw
    refine fresh_const (hval c) fun kv hkv he => ?_
    simp only [List.mem_singleton] at hkv
    rw [hkv] at he
    simp only [Term.var.injEq] at he
    have := hbd w hw
    rw [← he, hx] at this
    simp at this
  have hmem : ∀ y ∈ u :: us, ∃ c ∈ S.objs v.2, y = subT [(.var x, .const (.str c) (cs c))] e := by
    intro y hy
    rw [← hu] at hy
    obtain ⟨c, hc, rfl⟩ := List.mem_map.1 hy
    exact ⟨c, hc, rfl⟩
  constructor
  · obtain ⟨g1, g2⟩ := chain_good us u t hc (by
      intro y hy
      obtain ⟨c, -, rfl⟩ := hmem y hy
      exact subT_varBinders (hkey c) (hval c) e hb (hfr c))
    refine ⟨g1, fun w hw => ?_⟩
    obtain ⟨y, hy, hb'⟩ := g2 w hw
    obtain ⟨c, -, rfl⟩ := hmem y hy
    have := hbd w (subT_bound (hkey c) (hval c) w e hb')
    dsimp only at this
    split at this
    · cases this
    · exact this
  · intro σ unit
    rw [chain_eval I _ _ σ us u t hc]
    have : (S.objs v.2).map (fun c => evalT I e (σ.set ⟨v.1, v.2⟩ (S.obj c))) = (u :: us).map fun t => evalT I t σ := by
      rw [← hu, List.map_map]
      apply List.map_congr_left
      intro c hc
      simp only [Function.comp]
      rw [subT_sem I (hkey c) e hb (hfr c) σ, updAsg_cons I x _ _ [] (by intro kv hkv; cases hkv) σ]
      have : updAsg I [] (σ.set x (I.const (.str c) (cs c))) = σ.set x (I.const (.str c) (cs c)) := by
        funext w; simp [updAsg, Subst.visit, Subst.get?, evalT]
      rw [this, hf.obj c _ (hf.csort v.2 ht c hc), hx]
    rw [this]
    rfl

theorem agree_set {D} {Γ : String → Option String} {σ : Asg D} {env : String → D} (h : Scope Γ σ env) (v : String × String) (d : D) :
    Scope (fun y => if y = v.1 then some v.2 else Γ y) (σ.set ⟨v.1, v.2⟩ d) (setEnv env v.1 d) := by
  intro x s hx
  dsimp only at hx
  by_cases hxv : x = v.1
  · rw [if_pos hxv, Option.some.injEq] at hx
    subst hxv hx
    simp [Asg.set, setEnv]
  · rw [if_neg hxv] at hx
    simp only [Asg.set, setEnv, Var.mk.injEq, hxv, false_and, if_false]
    exact h x s hx

theorem envs_one {D} (S : RddlSem D) (v : String × String) (env : String → D) :
    envs S [v] env = (S.objs v.2).map fun c => setEnv env v.1 (S.obj c) := by
  simp only [envs]
  generalize S.objs v.2 = l
  induction l with
  | nil => rfl
  | cons c l ih => simp [ih]

theorem readAgg_sem {D} {L : RddlLang} {S : RddlSem D} {I : Interp D} {cs} (hf : Fits L S I cs) {Γ : String → Option String}
    {v : String × String} (hv : Γ v.1 = none) (ht : v.2 ∈ S.types) {op : String} (ho : op = "sum" ∨ op = "prod" ∨ op = "forall")
    {body : RX} {e r : RRes}
    (he : GoodR (fun y => if y = v.1 then some v.2 else Γ y) e ∧
      ∀ env σ, Scope (fun y => if y = v.1 then some v.2 else Γ y) σ env → e.den I σ = mean S body env)
    (h : readAgg L op ⟨v.1, v.2⟩ e = .ok r) :
    GoodR Γ r ∧ ∀ env σ, Scope Γ σ env → r.den I σ = mean S (.agg op v [] body) env := by
  obtain ⟨hg, hm⟩ := he
  obtain ⟨n1, n2⟩ := asNumber_good hg
  have vals : ∀ env σ, Scope Γ σ env → (S.objs v.2).map (fun c => evalT I (asNumber e) (σ.set ⟨v.1, v.2⟩ (S.obj c))) =
      (envs S [v] env).map fun en => (mean S body en).asValue S := by
    intro env σ hs
    rw [envs_one, List.map_map]
    apply List.map_congr_left
    intro c _
    simp only [Function.comp]
    rw [asNumber_sem hf, hm _ _ (agree_set hs v (S.obj c))]
  unfold readAgg at h
  split at h
  · rename_i hop
    subst hop
    simp only [summation] at h
    cases ha : aggregate L.dom L.agg "+" [.term (.var ⟨v.1, v.2⟩), .term (asNumber e)] with
    | error x => rw [ha] at h; cases h
    | ok t =>
      rw [ha] at h
      cases h
      obtain ⟨a1, a2⟩ := aggregate_sem hf hv ht n1 n2 ha
      refine ⟨a1, fun env σ hs => ?_⟩
      simp only [RRes.den, mean, if_true]
      rw [a2 σ (S.num (.int 0)), vals env σ hs]
      congr 2
      funext a b
      exact hf.arith "+" (by simp) a b
  · split at h
    · rename_i hop
      subst hop
      simp only [product] at h
      cases ha : aggregate L.dom L.agg "*" [.term (.var ⟨v.1, v.2⟩), .term (asNumber e)] with
      | error x => rw [ha] at h; cases h
      | ok t =>
        rw [ha] at h
        cases h
        obtain ⟨a1, a2⟩ := aggregate_sem hf hv ht n1 n2 ha
        refine ⟨a1, fun env σ hs => ?_⟩
        simp only [RRes.den, mean, if_true, show ¬ ("prod" = "sum") by decide, if_false]
        rw [a2 σ (S.num (.int 1)), vals env σ hs]
        congr 2
        funext a b
        exact hf.arith "*" (by simp) a b
    · have hop : op = "forall" := by tauto
      subst hop
      cases e with
      | term t => cases h
      | form f =>
        simp only [quantified] at h
        cases h
        refine ⟨⟨⟨by simp, hg.1⟩, fun w hw => ?_⟩, fun env σ hs => ?_⟩
        · rcases hw with hw | hw
          · simp only [List.mem_singleton, Term.var.injEq] at hw
            rw [hw]; exact hv
          · have := hg.2 w hw
            dsimp only at this
            split at this
            · cases this
            · exact this
        · simp only [RRes.den, Sat, quantBlock, mean, if_true, show ¬ ("forall" = "sum") by decide,
            show ¬ ("forall" = "prod") by decide, if_false]
          congr 1
          rw [envs_one]
          apply propext
          constructor
          · intro h en hen
            obtain ⟨c, hc, rfl⟩ := List.mem_map.1 hen
            rw [← hm _ _ (agree_set hs v (S.obj c))]
            exact h _ ((hf.sort v.2 ht _).2 ⟨c, hc, rfl⟩)
          · intro h d hd
            obtain ⟨c, hc, rfl⟩ := (hf.sort v.2 ht _).1 hd
            have := h _ (List.mem_map.2 ⟨c, hc, rfl⟩)
            rw [← hm _ _ (agree_set hs v (S.obj c))] at this
            exact this

theorem readIte_sem {D} {L : RddlLang} {S : RddlSem D} {I : Interp D} {Γ : String → Option String} {rs : List RRes} {r : RRes}
    (hg : ∀ x ∈ rs, GoodR Γ x) (h : readIte L rs = .ok r) :
    GoodR Γ r ∧ ∃ c a b, rs = [c, a, b] ∧ ∀ σ, r.den I σ = if (c.den I σ).asTruth S then a.den I σ else b.den I σ := by
  unfold readIte at h
  split at h
  · rename_i c a b
    split at h
    · cases h
      have h1 := hg (.form c) (by simp)
      have h2 := hg (.term a) (by simp)
      have h3 := hg (.term b) (by simp)
      refine ⟨⟨⟨h1.1, h2.1, h3.1⟩, fun w hw => ?_⟩, _, _, _, rfl, fun σ => ?_⟩
      · rcases hw with hw | hw | hw
        · exact h1.2 w hw
        · exact h2.2 w hw
        · exact h3.2 w hw
      · by_cases hc : Sat I c σ
        · rw [if_pos (show (RRes.den I σ (.form c)).asTruth S from hc)]
          simp [RRes.den, evalT, hc]
        · rw [if_neg (show ¬ (RRes.den I σ (.form c)).asTruth S from hc)]
          simp [RRes.den, evalT, hc]
    · cases h
  · cases h
  · cases h
  · cases h

theorem guarded_sem {D} {L : RddlLang} {S : RddlSem D} {I : Interp D} {cs} (hf : Fits L S I cs) {Γ : String → Option String}
    {f t r} (h1 : GoodR Γ (.form f)) (h2 : GoodR Γ (.term t)) (h : guarded L f t = .ok r) :
    GoodR Γ r ∧ ∀ σ, r.den I σ = if Sat I f σ then .value (evalT I t σ) else .value (S.num (.int 0)) := by
  unfold guarded at h
  split at h
  · rename_i hz
    obtain ⟨g, c, a, b, hrs, hd⟩ := readIte_sem (S := S) (I := I) (Γ := Γ) (by
      intro x hx
      simp only [List.mem_cons, List.not_mem_nil, or_false] at hx
      rcases hx with rfl | rfl | rfl
      · exact h1
      · exact h2
      · exact ⟨trivial, fun w hw => hw.elim⟩) h
    simp only [List.cons.injEq, and_true] at hrs
    obtain ⟨rfl, rfl, rfl⟩ := hrs
    refine ⟨g, fun σ => ?_⟩
    rw [hd σ]
    simp only [RRes.den, RDen.asTruth, evalT, hf.zeroOf _ hz]
  · cases h

theorem dispatchR_sem {D} {L : RddlLang} {I : Interp D} {Γ : String → Option String} {op : String} {a b r : RRes}
    (h1 : GoodR Γ a) (h2 : GoodR Γ b) (h : dispatchR L op a b = .ok r) :
    GoodR Γ r ∧ ∃ s t, a = .term s ∧ b = .term t ∧ ∀ σ, r.den I σ = .value (I.fn op [evalT I s σ, evalT I t σ]) := by
  unfold dispatchR at h
  split at h
  · rename_i s t
    unfold AggLang.dispatch at h
    split at h
    · cases h
    · split at h
      · cases h
        refine ⟨⟨⟨h1.1, h2.1, trivial⟩, fun w hw => ?_⟩, s, t, rfl, rfl, fun σ => by simp [RRes.den, evalT, evalTs]⟩
        rcases hw with hw | hw | hw
        · exact h1.2 w hw
        · exact h2.2 w hw
        · exact hw.elim
      · cases h
  · cases h

theorem readArith_sem {D} {L : RddlLang} {S : RddlSem D} {I : Interp D} {cs} (hf : Fits L S I cs) {Γ : String → Option String}
    {op : String} (ho : rddlArith op = true) {rs : List RRes} {r : RRes} (hl : rs.length ≤ 2)
    (hg : ∀ x ∈ rs, GoodR Γ x) (h : readArith L op rs = .ok r) :
    GoodR Γ r ∧ ((∃ a, rs = [a] ∧ ∀ σ, r.den I σ = .value (S.minus ((a.den I σ).asValue S))) ∨
      ∃ a b, rs = [a, b] ∧ ∀ σ, r.den I σ = .value (S.arith op ((a.den I σ).asValue S) ((b.den I σ).asValue S))) := by
  have hop : op ∈ ["+", "-", "*", "/"] := by
    simp only [rddlArith, decide_eq_true_eq] at ho
    simp only [List.mem_cons, List.not_mem_nil, or_false]
    tauto
  match rs, hl with
  | [], _ => simp only [readArith] at h; split at h <;> cases h
  | [.form f], _ => simp only [readArith] at h; split at h <;> [cases h; (split at h <;> cases h)]
  | [.term t], _ =>
    simp only [readArith] at h
    split at h
    · cases h
    · split at h
      · obtain ⟨g, s, u, e1, e2, hd⟩ := dispatchR_sem (I := I) (Γ := Γ) (by exact ⟨trivial, fun w hw => hw.elim⟩) (hg _ (by simp)) h
        cases e1; cases e2
        refine ⟨g, .inl ⟨_, rfl, fun σ => ?_⟩⟩
        rw [hd σ, hf.arith "*" (by simp)]
        simp only [RRes.den, RDen.asValue, evalT, hf.lit, hf.minus]
      · cases h
  | [a, b], _ =>
    have ha := hg a (by simp)
    have hb := hg b (by simp)
    have plain : dispatchR L op a b = .ok r → GoodR Γ r ∧ ((∃ a', [a, b] = [a'] ∧ ∀ σ, r.den I σ = .value (S.minus ((a'.den I σ).asValue S))) ∨
        ∃ a' b', [a, b] = [a', b'] ∧ ∀ σ, r.den I σ = .value (S.arith op ((a'.den I σ).asValue S) ((b'.den I σ).asValue S))) := fun h => by
      obtain ⟨g, s, u, e1, e2, hd⟩ := dispatchR_sem (I := I) (Γ := Γ) ha hb h
      refine (⟨g, .inr ⟨a, b, rfl, fun σ => ?_⟩⟩ : GoodR Γ r ∧ ((∃ a', [a, b] = [a'] ∧ ∀ σ, r.den I σ = .value (S.minus ((a'.den I σ).asValue S))) ∨
        ∃ a' b', [a, b] = [a', b'] ∧ ∀ σ, r.den I σ = .value (S.arith op ((a'.den I σ).asValue S) ((b'.den I σ).asValue S))))
      rw [hd σ, hf.arith op hop, e1, e2]
      rfl
    cases a with
    | form f => cases b with
      | form g =>
        simp only [readArith] at h
        split at h <;> cases h
      | term t =>
        simp only [readArith] at h
        split at h
        · rename_i e
          obtain ⟨g, hd⟩ := guarded_sem hf ha hb h
          refine ⟨g, .inr ⟨_, _, rfl, fun σ => ?_⟩⟩
          rw [hd σ, e]
          simp only [RRes.den, RDen.asValue]
          split
          · rw [hf.one_mul]
          · rw [hf.zero_mul]
        · exact plain (by simpa using h)
    | term t => cases b with
      | form f =>
        simp only [readArith] at h
        split at h
        · rename_i e
          obtain ⟨g, hd⟩ := guarded_sem hf hb ha h
          refine ⟨g, .inr ⟨_, _, rfl, fun σ => ?_⟩⟩
          rw [hd σ, e]
          simp only [RRes.den, RDen.asValue]
          split
          · rw [hf.mul_one]
          · rw [hf.mul_zero]
        · exact plain (by simpa using h)
      | term u =>
        simp only [readArith] at h
        exact plain (by simpa using h)

theorem den_terms {D} (S : RddlSem D) (I : Interp D) (σ : Asg D) (ts : List Term) :
    (ts.map fun t => (RRes.den I σ (.term t)).asValue S) = evalTs I ts σ := by
  rw [evalTs_eq_map]; rfl

mutual
theorem readX_sem {D} {L : RddlLang} {S : RddlSem D} {I : Interp D} {cs} (hf : Fits L S I cs) (Γ : String → Option String) (x : RX)
    (r : RRes) (hp : Proper L S.types Γ x) (h : readX L x = .ok r) :
    GoodR Γ r ∧ ∀ env σ, Scope Γ σ env → r.den I σ = mean S x env := by
  match x with
  | .lit n =>
    simp only [readX] at h
    cases h
    exact ⟨⟨trivial, fun w hw => hw.elim⟩, fun env σ _ => by simp only [RRes.den, evalT, mean, hf.lit]⟩
  | .bool b => cases h
  | .pvar f primed args => exact readPvar_sem hf h hp
  | .control args =>
    simp only [readX] at h
    cases hr : readXs L args with
    | error e => simp [hr] at h
    | ok rs =>
      simp only [hr] at h
      obtain ⟨g, hm⟩ := readXs_sem hf Γ args rs hp hr
      obtain ⟨g', c, a, b, rfl, hd⟩ := readIte_sem (S := S) (I := I) g h
      refine ⟨g', fun env σ hs => ?_⟩
      have := hm env σ hs
      rw [hd σ, mean, ← this]
      rfl
  | .rel op args =>
    simp only [readX] at h
    cases ho : rddlRel op with
    | none => simp [ho] at h
    | some c =>
      simp only [ho] at h
      cases hr : readXs L args with
      | error e => simp [hr] at h
      | ok rs =>
        simp only [hr] at h
        obtain ⟨g, hm⟩ := readXs_sem hf Γ args rs hp.2 hr
        have hl : rs.length = 2 := by rw [readXs_length hr]; exact hp.1
        match rs, hl with
        | [a, b], _ =>
          unfold readRel at h
          split at h
          · rename_i s t rest e
            simp only [List.cons.injEq] at e
            obtain ⟨rfl, rfl, rfl⟩ := e
            split at h
            · cases h
            · cases h
              have ga := g (.term s) (by simp)
              have gb := g (.term t) (by simp)
              refine ⟨⟨⟨ga.1, gb.1, trivial⟩, fun w hw => ?_⟩, fun env σ hs => ?_⟩
              · rcases hw with hw | hw | hw
                · exact ga.2 w hw
                · exact gb.2 w hw
                · exact hw.elim
              · rw [mean, ← hm env σ hs]
                simp only [RRes.den, Sat, evalTs, List.map_cons, List.map_nil, RDen.asValue]
                unfold rddlRel at ho
                split at ho
                · cases ho; rw [propext (hf.eq _ _)]
                · cases ho; rw [propext (hf.le _ _)]
                · cases ho; rw [propext (hf.ge _ _)]
                · cases ho
          · cases h
          · cases h
  | .agg op v vs body =>
    obtain ⟨rfl, hv, ht, hb⟩ := hp
    simp only [readX] at h
    split at h
    · rename_i ho
      cases hx : readTyped L v with
      | error e => simp [hx] at h
      | ok y =>
        have hy : y = ⟨v.1, v.2⟩ := by
          unfold readTyped at hx
          split at hx
          · cases hx; rfl
          · cases hx
        subst hy
        simp only [hx] at h
        cases hr : readX L body with
        | error e => simp [hr] at h
        | ok e =>
          simp only [hr] at h
          exact readAgg_sem hf hv ht ho (readX_sem hf _ body e hb hr) h
    · cases h
  | .arith op args =>
    simp only [readX] at h
    split at h
    · rename_i ho
      cases hr : readXs L args with
      | error e => simp [hr] at h
      | ok rs =>
        simp only [hr] at h
        obtain ⟨g, hm⟩ := readXs_sem hf Γ args rs hp.2 hr
        have hl : rs.length ≤ 2 := by rw [readXs_length hr]; exact hp.1
        obtain ⟨g', hd⟩ := readArith_sem (S := S) (I := I) hf ho hl g h
        refine ⟨g', fun env σ hs => ?_⟩
        rw [mean, ← hm env σ hs]
        rcases hd with ⟨a, rfl, hd⟩ | ⟨a, b, rfl, hd⟩ <;> exact hd σ
    · cases h
  | .func f args =>
    simp only [readX] at h
    cases ho : rddlFunc f with
    | none => simp [ho] at h
    | some p =>
      obtain ⟨fn, n⟩ := p
      simp only [ho] at h
      cases hr : readXs L args with
      | error e => simp [hr] at h
      | ok rs =>
        simp only [hr] at h
        obtain ⟨g, hm⟩ := readXs_sem hf Γ args rs hp hr
        unfold readFunc at h
        split at h
        · cases h
        · split at h
          · cases h
          · rename_i ts hts
            split at h
            · cases h
            · cases h
              have := terms_eq hts
              subst this
              refine ⟨⟨?_, ?_⟩, fun env σ hs => ?_⟩
              · have : ∀ ts : List Term, (∀ x ∈ ts.map RRes.term, GoodR Γ x) → VarBindersTs ts := by
                  intro ts
                  induction ts with
                  | nil => intro _; trivial
                  | cons t ts ih => intro h; exact ⟨(h (.term t) (by simp)).1, ih fun x hx => h x (by simp at hx ⊢; exact .inr hx)⟩
                exact this ts g
              · have : ∀ ts : List Term, (∀ x ∈ ts.map RRes.term, GoodR Γ x) → ∀ w, BoundTs w ts → Γ w.sym = none := by
                  intro ts
                  induction ts with
                  | nil => intro _ w hw; exact hw.elim
                  | cons t ts ih =>
                    intro h w hw
                    rcases hw with hw | hw
                    · exact (h (.term t) (by simp)).2 w hw
                    · exact ih (fun x hx => h x (by simp at hx ⊢; exact .inr hx)) w hw
                exact this ts g
              · rw [mean, ← hm env σ hs]
                simp only [RRes.den, evalT, List.map_map]
                congr 1
                have e : List.map (RDen.asValue S ∘ RRes.den I σ ∘ RRes.term) ts = evalTs I ts σ := den_terms S I σ ts
                rw [e]
                unfold rddlFunc at ho
                split at ho <;> first
                  | (cases ho; done)
                  | (simp only [Option.some.injEq, Prod.mk.injEq] at ho; obtain ⟨rfl, -⟩ := ho; exact hf.func (_, _) (by simp) _)
  | .logic op args =>
    simp only [readX] at h
    split at h
    · cases hr : readXs L args with
      | error e => simp [hr] at h
      | ok rs =>
        simp only [hr] at h
        obtain ⟨g, hm⟩ := readXs_sem hf Γ args rs hp.2 hr
        have hl := readXs_length hr
        unfold readLogic at h
        split at h
        · rename_i e
          subst e
          split at h
          · rename_i a b
            cases h
            have ga := g (.form a) (by simp)
            have gb := g (.form b) (by simp)
            refine ⟨⟨⟨⟨ga.1, trivial⟩, gb.1, trivial⟩, fun w hw => ?_⟩, fun env σ hs => ?_⟩
            · rcases hw with (hw | hw) | hw | hw
              · exact ga.2 w hw
              · exact hw.elim
              · exact gb.2 w hw
              · exact hw.elim
            · rw [mean, ← hm env σ hs]
              simp [RRes.den, logicMean, implies, lor, createCompound, toBinaryTree, neg, Sat, SatAny, SatAll, RDen.asTruth, imp_iff_not_or]
          · cases h
          · cases h
        · split at h
          · rename_i e
            subst e
            split at h
            · rename_i a
              cases h
              have ga := g (.form a) (by simp)
              refine ⟨⟨⟨ga.1, trivial⟩, fun w hw => ?_⟩, fun env σ hs => ?_⟩
              · rcases hw with hw | hw
                · exact ga.2 w hw
                · exact hw.elim
              · rw [mean, ← hm env σ hs]
                simp [RRes.den, logicMean, neg, Sat, SatAll, RDen.asTruth]
            · cases h
            · cases h
          · split at h
            · rename_i e
              have hl2 : rs.length = 2 := by rw [hl]; exact hp.1 e
              match rs, hl2 with
              | [a, b], _ =>
                simp only at h
                cases hfs : RRes.forms [a, b] with
                | none => rw [hfs] at h; cases h
                | some fs =>
                  rw [hfs] at h
                  have := forms_eq hfs
                  match fs, this with
                  | [p, q], this =>
                    simp only [List.map_cons, List.map_nil, List.cons.injEq, and_true] at this
                    obtain ⟨rfl, rfl⟩ := this
                    have ga := g (.form p) (by simp)
                    have gb := g (.form q) (by simp)
                    rcases e with rfl | rfl
                    · simp only [if_true] at h
                      cases h
                      refine ⟨⟨⟨ga.1, gb.1, trivial⟩, fun w hw => ?_⟩, fun env σ hs => ?_⟩
                      · rcases hw with hw | hw | hw
                        · exact ga.2 w hw
                        · exact gb.2 w hw
                        · exact hw.elim
                      · rw [mean, ← hm env σ hs]
                        simp [RRes.den, logicMean, land, createCompound, toBinaryTree, Sat, SatAll, RDen.asTruth]
                    · simp only [show ¬ ("|" = "^") by decide, if_false] at h
                      cases h
                      refine ⟨⟨⟨ga.1, gb.1, trivial⟩, fun w hw => ?_⟩, fun env σ hs => ?_⟩
                      · rcases hw with hw | hw | hw
                        · exact ga.2 w hw
                        · exact gb.2 w hw
                        · exact hw.elim
                      · rw [mean, ← hm env σ hs]
                        simp [RRes.den, logicMean, lor, createCompound, toBinaryTree, Sat, SatAny, RDen.asTruth]
            · cases h
    · cases h
theorem readXs_sem {D} {L : RddlLang} {S : RddlSem D} {I : Interp D} {cs} (hf : Fits L S I cs) (Γ : String → Option String) (xs : List RX)
    (rs : List RRes) (hp : Propers L S.types Γ xs) (h : readXs L xs = .ok rs) :
    (∀ r ∈ rs, GoodR Γ r) ∧ ∀ env σ, Scope Γ σ env → rs.map (RRes.den I σ) = means S xs env := by
  match xs with
  | [] => simp only [readXs] at h; cases h; exact ⟨by simp, fun _ _ _ => by simp [means]⟩
  | x :: xs =>
    simp only [readXs] at h
    cases hx : readX L x with
    | error e => simp [hx] at h
    | ok r =>
      simp only [hx] at h
      cases hr : readXs L xs with
      | error e => simp [hr] at h
      | ok us =>
        simp only [hr] at h
        cases h
        obtain ⟨g1, m1⟩ := readX_sem hf Γ x r hp.1 hx
        obtain ⟨g2, m2⟩ := readXs_sem hf Γ xs us hp.2 hr
        refine ⟨fun y hy => ?_, fun env σ hs => ?_⟩
        · rcases List.mem_cons.1 hy with rfl | hy
          · exact g1
          · exact g2 y hy
        · rw [List.map_cons, m1 env σ hs, m2 env σ hs, means]
end

/-! ### Theorems -/

/-- C90: an RDDL expression that is read means in Tarski what it means in RDDL, under all values of the variables in scope.
Proved for expressions in which every variable is declared with exactly the type that the fluents ask for, with one
variable per aggregation (under a new name). -/
theorem C90_meaning_partial {D} {L : RddlLang} {S : RddlSem D} {I : Interp D} {csort} (hf : Fits L S I csort)
    {Γ : String → Option String} {x : RX} {r : RRes} (hp : Proper L S.types Γ x) (h : readX L x = .ok r)
    {env : String → D} {σ : Asg D} (hs : Scope Γ σ env) : r.den I σ = mean S x env :=
  (readX_sem hf Γ x r hp h).2 env σ hs

/-- The sorts and built-in symbols of the languages that the reader creates. -/
structure StdLang (L : RddlLang) : Prop where
  refl : ∀ s, L.sub s s = true
  int : L.sub "Integer" "Real" = true
  intObj : L.sub "Integer" "object" = true
  realObj : L.sub "Real" "object" = true
  parent : L.parent "Integer" = some "Real"
  zeroReal : L.zeroOk "Real" = true
  zeroInt : L.zeroOk "Integer" = true
  builtin : ∀ f ∈ ["+", "-", "*", "/", "abs", "normal", "sqrt", "**", "exp", "max", "gamma"], L.sym f = none

/-- The arguments fit the sorts: variables, or constants of subtypes. -/
def ArgsFit (L : RddlLang) (sorts : List String) (args : List RArg) : Prop :=
  List.Forall₂ (fun a s => (∃ x, a = .var x) ∨ ∃ c s', a = .name c ∧ L.sym c = some (.const s') ∧ L.sub s' s = true) args sorts

/-- The expressions that are read, as formulas (`true`) or as numbers (`false`). -/
inductive Readable (L : RddlLang) : Bool → RX → Prop
  | lit (n : Name) : Readable L false (.lit n)
  | fluent {f d c args} : L.sym f = some (.fn d c) → c = "Real" ∨ c = "Integer" → ArgsFit L d (Option.getD args []) →
      Readable L false (.pvar f false args)
  | pred {f d p args} : L.sym f = some (.pred d) → ArgsFit L d (Option.getD args []) → Readable L true (.pvar f p args)
  | ite {c a b} : Readable L true c → Readable L false a → Readable L false b → Readable L false (.control [c, a, b])
  | rel {op a b} : op ∈ ["==", "<=", ">="] → Readable L false a → Readable L false b → Readable L true (.rel op [a, b])
  | sum {op k cs body} {v : String × String} : op ∈ ["sum", "prod"] → L.sym v.2 = some .sort →
      L.dom v.2 = .ok (cs.map fun c : Name × String => .const c.1 c.2) → cs ≠ [] → Readable L k body → Readable L false (.agg op v [] body)
  | all {v body} : L.sym v.2 = some .sort → Readable L true body → Readable L true (.agg "forall" v [] body)
  | minus {a} : Readable L false a → Readable L false (.arith "-" [a])
  | arith {op a b} : op ∈ ["+", "-", "*", "/"] → Readable L false a → Readable L false b → Readable L false (.arith op [a, b])
  | times {k a b} : Readable L k a → Readable L (!k) b → Readable L false (.arith "*" [a, b])
  | func {f n args} : (f, n) ∈ [("abs", 1), ("Normal", 2), ("sqrt", 1), ("pow", 2), ("exp", 1), ("max", 2), ("Gamma", 2)] →
      args.length = n → (∀ x ∈ args, Readable L false x) → Readable L false (.func f args)
  | not {a} : Readable L true a → Readable L true (.logic "~" [a])
  | imp {a b} : Readable L true a → Readable L true b → Readable L true (.logic "=>" [a, b])
  | and {a b} : Readable L true a → Readable L true b → Readable L true (.logic "^" [a, b])
  | or {a b} : Readable L true a → Readable L true b → Readable L true (.logic "|" [a, b])

def NVT : Term → Prop
  | .var _ => False
  | .ite _ a b => NVT a ∧ NVT b
  | _ => True

def NumTerm (L : RddlLang) (t : Term) : Prop := NVT t ∧ (L.sortOf t = "Real" ∨ L.sortOf t = "Integer")

def KindR (L : RddlLang) : Bool → RRes → Prop
  | true, r => ∃ f, r = .form f
  | false, r => ∃ t, r = .term t ∧ NumTerm L t

theorem sortOf_subT {L : RddlLang} {s : Subst} (hs : KeysVar s) : ∀ t : Term, NVT t →
    NVT (subT s t) ∧ L.sortOf (subT s t) = L.sortOf t
  | .var v, h => h.elim
  | .const n so, _ => by
    rw [subT, visit_nonvar hs (by intro v; simp)]
    exact ⟨trivial, rfl⟩
  | .app f ts, _ => by
    rw [subT, visit_nonvar hs (by intro v; simp)]
    exact ⟨trivial, by simp only [RddlLang.sortOf]⟩
  | .ite c a b, h => by
    rw [subT, visit_nonvar hs (by intro v; simp)]
    obtain ⟨a1, a2⟩ := sortOf_subT (L := L) hs a h.1
    obtain ⟨b1, b2⟩ := sortOf_subT (L := L) hs b h.2
    exact ⟨⟨a1, b1⟩, by simp only [RddlLang.sortOf, a2, b2]⟩

theorem num_sub {L : RddlLang} (hL : StdLang L) {t : Term} (h : NumTerm L t) :
    L.sub (L.sortOf t) "Real" = true ∧ L.sub (L.sortOf t) "object" = true ∧ L.zeroOk (L.sortOf t) = true := by
  rcases h.2 with e | e <;> rw [e]
  · exact ⟨hL.refl _, hL.realObj, hL.zeroReal⟩
  · exact ⟨hL.int, hL.intObj, hL.zeroInt⟩

theorem num_builtin {L : RddlLang} (hL : StdLang L) {f : String} (ts : List Term)
    (hf : f ∈ ["+", "-", "*", "/", "abs", "normal", "sqrt", "**", "exp", "max", "gamma"]) : NumTerm L (.app f ts) := by
  refine ⟨trivial, .inl ?_⟩
  simp only [RddlLang.sortOf, hL.builtin f hf]

theorem ite_ok {L : RddlLang} (hL : StdLang L) {c a b} (ha : NumTerm L a) (hb : NumTerm L b) :
    readIte L [.form c, .term a, .term b] = .ok (.term (.ite c a b)) ∧ NumTerm L (.ite c a b) := by
  have : L.sortOf (.ite c a b) = "Real" ∨ L.sortOf (.ite c a b) = "Integer" := by
    simp only [RddlLang.sortOf]
    split
    · exact hb.2
    · exact ha.2
  refine ⟨?_, ⟨ha.1, hb.1⟩, this⟩
  rw [readIte, if_pos]
  rcases ha.2 with e | e <;> rcases hb.2 with e' | e' <;> rw [e, e']
  · exact .inl rfl
  · exact .inr (.inr hL.parent)
  · exact .inr (.inl hL.parent)
  · exact .inl rfl

theorem dispatch_ok {L : RddlLang} (hL : StdLang L) {op a b} (ho : op ∈ ["+", "-", "*", "/"]) (ha : NumTerm L a) (hb : NumTerm L b) :
    dispatchR L op (.term a) (.term b) = .ok (.term (.app op [a, b])) ∧ NumTerm L (.app op [a, b]) := by
  refine ⟨?_, num_builtin hL _ ?_⟩
  · simp only [dispatchR, AggLang.dispatch, RddlLang.agg, (num_sub hL ha).1, (num_sub hL hb).1]
    rfl
  · simp only [List.mem_cons, List.not_mem_nil, or_false] at ho ⊢
    tauto

theorem args_ok {L : RddlLang} (hL : StdLang L) {sorts : List String} {args : List RArg} (h : ArgsFit L sorts args) :
    ∃ ts, rddlArgs L sorts args = .ok ts ∧ L.checkArgs sorts ts = .ok () := by
  suffices ∃ ts, rddlArgs L sorts args = .ok ts ∧ ts.length = sorts.length ∧
      (ts.zip sorts).all (fun p => L.sub (L.sortOf p.1) p.2) = true by
    obtain ⟨ts, h1, h2, h3⟩ := this
    exact ⟨ts, h1, by simp [RddlLang.checkArgs, h2, h3]⟩
  induction h with
  | nil => exact ⟨[], rfl, rfl, rfl⟩
  | cons ha _ ih =>
    obtain ⟨ts, h1, h2, h3⟩ := ih
    rcases ha with ⟨x, rfl⟩ | ⟨c, s', rfl, hc, hs⟩
    · rename_i so _ _ _
      refine ⟨.var ⟨x, so⟩ :: ts, by simp only [rddlArgs, h1], by simp [h2], ?_⟩
      rw [List.zip_cons_cons, List.all_cons, h3]
      simp [RddlLang.sortOf, hL.refl]
    · refine ⟨.const (.str c) s' :: ts, by simp only [rddlArgs, hc, List.tail_cons, h1], by simp [h2], ?_⟩
      rw [List.zip_cons_cons, List.all_cons, h3]
      simp [RddlLang.sortOf, hs]

theorem chain_shape {A : AggLang} {op : String} (ts : List Term) : ∀ (t r : Term), A.chain op t ts = .ok r →
    (ts = [] ∧ r = t) ∨ ∃ us, r = .app op us := by
  induction ts with
  | nil => intro t r h; cases h; exact .inl ⟨rfl, rfl⟩
  | cons u us ih =>
    intro t r h
    simp only [AggLang.chain, AggLang.dispatch] at h
    split at h
    · cases h
    · rename_i r' hd
      split at hd
      · cases hd
      · split at hd
        · cases hd
          rcases ih _ _ h with ⟨-, rfl⟩ | h
          · exact .inr ⟨_, rfl⟩
          · exact .inr h
        · cases hd

theorem aggregate_accepts {L : RddlLang} (hL : StdLang L) {op : String} (ho : op ∈ ["+", "*"]) {v : Var} {cs : List (Name × String)} {t : Term}
    (hd : L.dom v.sort = .ok (cs.map fun c => .const c.1 c.2)) (hc : cs ≠ []) (ht : NumTerm L t) :
    ∃ r, aggregate L.dom L.agg op [.term (.var v), .term t] = .ok r ∧ NumTerm L r := by
  have hb : op ∈ ["+", "-", "*", "/", "abs", "normal", "sqrt", "**", "exp", "max", "gamma"] := by
    simp only [List.mem_cons, List.not_mem_nil, or_false] at ho ⊢
    tauto
  have hl : ListsDomains L.dom (fun _ => cs) [v] := by
    intro y hy
    simp only [List.mem_singleton] at hy
    subst hy
    exact hd
  have hinst : ∀ values ∈ cart ([v].map fun _ => cs.map fun c => Term.const c.1 c.2), NumTerm L (subT (createSubst ([v].map Term.var) values) t) := by
    intro values hv
    have hk : KeysVar (createSubst ([v].map Term.var) values) := by
      intro kv hkv
      simp only [createSubst, List.map_cons, List.map_nil] at hkv
      have := List.of_mem_zip hkv
      exact ⟨v, by simpa using this.1⟩
    obtain ⟨h1, h2⟩ := sortOf_subT (L := L) hk t ht.1
    exact ⟨h1, by rw [h2]; exact ht.2⟩
  have hex := (C82_returns_iff L.dom L.agg op [v] t (fun _ => cs) hl (fun ts => (num_sub hL (num_builtin hL ts hb)).1)).2
    ⟨by simp [hc], .inr ⟨rfl, fun values hv => (num_sub hL (hinst values hv)).1⟩⟩
  obtain ⟨r, hr⟩ := hex
  refine ⟨r, hr, ?_⟩
  obtain ⟨u, us, hu, hch⟩ := aggregate_ok (vs := [v]) hl hr
  rcases chain_shape us u r hch with ⟨-, rfl⟩ | ⟨ws, rfl⟩
  · have : r ∈ (cart ([v].map fun _ => cs.map fun c => Term.const c.1 c.2)).map fun values => subT (createSubst ([v].map Term.var) values) t := by
      rw [hu]; simp
    obtain ⟨values, hv, rfl⟩ := List.mem_map.1 this
    exact hinst values hv
  · exact num_builtin hL ws hb

theorem asNumber_num {L : RddlLang} {k : Bool} {r : RRes} (h : KindR L k r) : NumTerm L (asNumber r) := by
  cases k with
  | true =>
    obtain ⟨f, rfl⟩ := h
    refine ⟨⟨trivial, trivial⟩, .inr ?_⟩
    simp [asNumber, RddlLang.sortOf]
  | false => obtain ⟨t, rfl, ht⟩ := h; exact ht

theorem readXs_two {L : RddlLang} {a b ra rb} (ha : readX L a = .ok ra) (hb : readX L b = .ok rb) : readXs L [a, b] = .ok [ra, rb] := by
  simp only [readXs, ha, hb]

theorem readXs_all {L : RddlLang} {xs : List RX} (h : ∀ x ∈ xs, ∃ r, readX L x = .ok r ∧ KindR L false r) :
    ∃ ts : List Term, readXs L xs = .ok (ts.map .term) ∧ ts.length = xs.length ∧ ∀ t ∈ ts, NumTerm L t := by
  induction xs with
  | nil => exact ⟨[], by simp [readXs], rfl, by simp⟩
  | cons x xs ih =>
    obtain ⟨r, hr, t, rfl, ht⟩ := h x (by simp)
    obtain ⟨ts, h1, h2, h3⟩ := ih fun y hy => h y (by simp [hy])
    exact ⟨t :: ts, by simp [readXs, hr, h1], by simp [h2], by simp [ht]; exact h3⟩

theorem terms_map (ts : List Term) : RRes.terms (ts.map .term) = some ts := by
  induction ts with
  | nil => rfl
  | cons t ts ih => simp [RRes.terms, ih]

theorem func_ok {L : RddlLang} (hL : StdLang L) {g : String} {ts : List Term} (ht : ∀ t ∈ ts, NumTerm L t)
    (hg : g ∈ ["+", "-", "*", "/", "abs", "normal", "sqrt", "**", "exp", "max", "gamma"]) :
    ∃ r, readFunc L g ts.length (ts.map .term) = .ok r ∧ KindR L false r := by
  have hc : L.checkArgs (ts.map fun _ => "Real") ts = .ok () := by
    rw [RddlLang.checkArgs, if_neg (by simp), if_pos]
    rw [List.all_eq_true]
    rintro ⟨t, s⟩ hp
    have h1 := (List.of_mem_zip hp).1
    have h2 := (List.of_mem_zip hp).2
    simp only [List.mem_map] at h2
    obtain ⟨_, _, rfl⟩ := h2
    exact (num_sub hL (ht t h1)).1
  refine ⟨.term (.app g ts), ?_, _, rfl, num_builtin hL ts hg⟩
  rw [readFunc, if_neg (by simp), terms_map]
  simp only [hc]

/-- C90: which expressions are read: those built from numbers, fluents, if-then-else, `==`, `<=`, `>=`, sums, products and
`forall` with one variable, arithmetic, functions and the connectives, with numbers where numbers are expected and formulas
where formulas are; also a formula times a number. A formula is read as a formula, a number as a term of a numeric sort. -/
theorem C90_reads {L : RddlLang} (hL : StdLang L) {k : Bool} {x : RX} (h : Readable L k x) :
    ∃ r, readX L x = .ok r ∧ match k with
      | true => ∃ f, r = .form f
      | false => ∃ t, r = .term t ∧ (L.sortOf t = "Real" ∨ L.sortOf t = "Integer") := by
  suffices ∃ r, readX L x = .ok r ∧ KindR L k r by
    obtain ⟨r, h1, h2⟩ := this
    refine ⟨r, h1, ?_⟩
    cases k with
    | true => exact h2
    | false => obtain ⟨t, e, ht⟩ := h2; exact ⟨t, e, ht.2⟩
  induction h with
  | lit n => exact ⟨.term (.const n "Real"), by rw [readX], _, rfl, trivial, .inl rfl⟩
  | fluent hs hc ha =>
    rename_i f d c args
    obtain ⟨ts, h1, h2⟩ := args_ok hL ha
    refine ⟨.term (.app f ts), ?_, _, rfl, trivial, ?_⟩
    · simp only [readX, readPvar, hs, h1, h2]
      rfl
    · simp only [RddlLang.sortOf, hs]; exact hc
  | pred hs ha =>
    rename_i f d p args
    obtain ⟨ts, h1, h2⟩ := args_ok hL ha
    refine ⟨.form (.atom (.user (if p then nextName f else f)) ts), ?_, _, rfl⟩
    simp only [readX, readPvar, hs, h1, h2]
  | ite _ _ _ i1 i2 i3 =>
    obtain ⟨_, h1, c, rfl⟩ := i1
    obtain ⟨_, h2, a, rfl, ha⟩ := i2
    obtain ⟨_, h3, b, rfl, hb⟩ := i3
    obtain ⟨h4, h5⟩ := ite_ok (c := c) hL ha hb
    exact ⟨_, by simp only [readX, readXs, h1, h2, h3, h4], _, rfl, h5⟩
  | rel ho _ _ i1 i2 =>
    obtain ⟨_, h1, a, rfl, ha⟩ := i1
    obtain ⟨_, h2, b, rfl, hb⟩ := i2
    obtain ⟨a1, a2, -⟩ := num_sub hL ha
    obtain ⟨b1, b2, -⟩ := num_sub hL hb
    simp only [List.mem_cons, List.not_mem_nil, or_false] at ho
    rcases ho with rfl | rfl | rfl
    · exact ⟨.form (.atom (.cmp .eq) [a, b]), by simp [readX, rddlRel, readXs_two h1 h2, readRel, RddlLang.checkArgs, a2, b2], _, rfl⟩
    · exact ⟨.form (.atom (.cmp .le) [a, b]), by simp [readX, rddlRel, readXs_two h1 h2, readRel, RddlLang.checkArgs, a1, b1], _, rfl⟩
    · exact ⟨.form (.atom (.cmp .ge) [a, b]), by simp [readX, rddlRel, readXs_two h1 h2, readRel, RddlLang.checkArgs, a1, b1], _, rfl⟩
  | sum ho hs hd hc _ ih =>
    rename_i op k cs body v _
    obtain ⟨r, h1, h2⟩ := ih
    simp only [List.mem_cons, List.not_mem_nil, or_false] at ho
    rcases ho with rfl | rfl
    · obtain ⟨t, h3, h4⟩ := aggregate_accepts hL (op := "+") (by simp) (v := ⟨v.1, v.2⟩) hd hc (asNumber_num h2)
      exact ⟨.term t, by simp [readX, readTyped, hs, h1, readAgg, summation, h3, Except.map], _, rfl, h4⟩
    · obtain ⟨t, h3, h4⟩ := aggregate_accepts hL (op := "*") (by simp) (v := ⟨v.1, v.2⟩) hd hc (asNumber_num h2)
      exact ⟨.term t, by simp [readX, readTyped, hs, h1, readAgg, product, h3, Except.map], _, rfl, h4⟩
  | all hs _ ih =>
    obtain ⟨_, h1, f, rfl⟩ := ih
    exact ⟨_, by simp [readX, readTyped, hs, h1, readAgg, quantified, Except.map]; rfl, _, rfl⟩
  | minus _ ih =>
    obtain ⟨_, h1, a, rfl, ha⟩ := ih
    obtain ⟨h2, h3⟩ := dispatch_ok hL (op := "*") (by simp) (a := .const (.int (-1)) "Real") ⟨trivial, .inl rfl⟩ ha
    exact ⟨_, by simp [readX, rddlArith, readXs, h1, readArith, h2], _, rfl, h3⟩
  | arith ho _ _ i1 i2 =>
    rename_i op _ _ _ _
    obtain ⟨_, h1, a, rfl, ha⟩ := i1
    obtain ⟨_, h2, b, rfl, hb⟩ := i2
    obtain ⟨h3, h4⟩ := dispatch_ok hL ho ha hb
    refine ⟨_, ?_, _, rfl, h4⟩
    have : rddlArith op = true := by
      simp only [List.mem_cons, List.not_mem_nil, or_false] at ho
      simp only [rddlArith, decide_eq_true_eq]
      tauto
    simp only [readX, this, if_true, readXs_two h1 h2, readArith, List.isEmpty_nil, h3]
  | times _ _ i1 i2 =>
    rename_i k a b _ _
    obtain ⟨ra, h1, ka⟩ := i1
    obtain ⟨rb, h2, kb⟩ := i2
    cases k with
    | true =>
      obtain ⟨f, rfl⟩ := ka
      obtain ⟨t, rfl, ht⟩ := kb
      obtain ⟨h3, h4⟩ := ite_ok (c := f) (b := .const (.int 0) (L.sortOf t)) hL ht ⟨trivial, ht.2⟩
      exact ⟨_, by simp [readX, rddlArith, readXs_two h1 h2, readArith, guarded, (num_sub hL ht).2.2, h3], _, rfl, h4⟩
    | false =>
      obtain ⟨f, rfl⟩ := kb
      obtain ⟨t, rfl, ht⟩ := ka
      obtain ⟨h3, h4⟩ := ite_ok (c := f) (b := .const (.int 0) (L.sortOf t)) hL ht ⟨trivial, ht.2⟩
      exact ⟨_, by simp [readX, rddlArith, readXs_two h1 h2, readArith, guarded, (num_sub hL ht).2.2, h3], _, rfl, h4⟩
  | func hf hn _ ih =>
    rename_i f n args _
    obtain ⟨ts, h1, h2, h3⟩ := readXs_all ih
    have h4 : n = ts.length := by rw [h2]; exact hn.symm
    have go : ∀ g, rddlFunc f = some (g, n) → g ∈ ["+", "-", "*", "/", "abs", "normal", "sqrt", "**", "exp", "max", "gamma"] →
        ∃ r, readX L (.func f args) = .ok r ∧ KindR L false r := by
      intro g hg hm
      obtain ⟨r, h5, h6⟩ := func_ok hL h3 hm
      exact ⟨r, by simp only [readX, hg, h1, h4, h5], h6⟩
    simp only [List.mem_cons, Prod.mk.injEq, List.not_mem_nil, or_false] at hf
    rcases hf with ⟨rfl, rfl⟩ | ⟨rfl, rfl⟩ | ⟨rfl, rfl⟩ | ⟨rfl, rfl⟩ | ⟨rfl, rfl⟩ | ⟨rfl, rfl⟩ | ⟨rfl, rfl⟩ <;>
      exact go _ rfl (by simp)
  | not _ ih =>
    obtain ⟨_, h1, a, rfl⟩ := ih
    exact ⟨.form (neg a), by simp [readX, readXs, h1, readLogic], _, rfl⟩
  | imp _ _ i1 i2 =>
    obtain ⟨_, h1, a, rfl⟩ := i1
    obtain ⟨_, h2, b, rfl⟩ := i2
    exact ⟨.form (implies a b), by simp [readX, readXs_two h1 h2, readLogic], _, rfl⟩
  | and _ _ i1 i2 =>
    obtain ⟨_, h1, a, rfl⟩ := i1
    obtain ⟨_, h2, b, rfl⟩ := i2
    exact ⟨.form (land [a, b]), by simp [readX, readXs_two h1 h2, readLogic, RRes.forms], _, rfl⟩
  | or _ _ i1 i2 =>
    obtain ⟨_, h1, a, rfl⟩ := i1
    obtain ⟨_, h2, b, rfl⟩ := i2
    exact ⟨.form (lor [a, b]), by simp [readX, readXs_two h1 h2, readLogic, RRes.forms], _, rfl⟩

/-! ### Concrete cases -/

/-- Numbers, and two objects `a` and `b`. -/
def exVal : Name → Int
  | .int n => n
  | .str "a" => 100
  | .str "b" => 101
  | _ => 0

def exFn : String → List Int → Int
  | "+", [a, b] => a + b
  | "-", [a, b] => a - b
  | "*", [a, b] => a * b
  | "/", [a, b] => a / b
  | "max", [a, b] => max a b
  | "level", [d] => d - 98
  | _, _ => 0

def exRel : String → Int → Int → Prop
  | "==", a, b => a = b
  | "<=", a, b => a ≤ b
  | ">=", a, b => a ≥ b
  | _, _, _ => False

def exFunc : String → String
  | "Normal" => "normal"
  | "pow" => "**"
  | "Gamma" => "gamma"
  | f => f

/-- Both objects have the type `loc`, and `a` also the subtype `dock`; `at` is a boolean fluent on locations, true of `b`. -/
def exSem : RddlSem Int where
  num := exVal
  obj c := exVal (.str c)
  types := ["loc", "dock"]
  objs t := if t = "loc" then ["a", "b"] else if t = "dock" then ["a"] else []
  isBool f := f = "at"
  fluent := exFn
  holds f ds := f = "at" ∧ ds = [101]
  holdsNext f ds := f = "at" ∧ ds = [100]
  compare := exRel
  arith op a b := exFn op [a, b]
  minus a := -a
  func f ds := exFn (exFunc f) ds

def exInterp : Interp Int where
  const n _ := exVal n
  fn := exFn
  pred p ds := match p, ds with
    | .user "at", ds => ds = [101]
    | .user "X at", ds => ds = [100]
    | .cmp .eq, [a, b] => a = b
    | .cmp .le, [a, b] => a ≤ b
    | .cmp .ge, [a, b] => a ≥ b
    | _, _ => False
  sort t d := (t = "loc" ∧ (d = 100 ∨ d = 101)) ∨ (t = "dock" ∧ d = 100)

def exCsort (c : String) : String := if c = "a" then "dock" else "loc"

def exRLang : RddlLang where
  sym n := if n = "at" then some (.pred ["loc"]) else if n = "level" then some (.fn ["loc"] "Real")
    else if n = "a" then some (.const "dock") else if n = "b" then some (.const "loc")
    else if n = "loc" ∨ n = "dock" ∨ n = "object" ∨ n = "Real" ∨ n = "void" then some .sort else none
  sub s t := s = t ∨ t = "object" ∨ (s = "Integer" ∧ t = "Real") ∨ (s = "dock" ∧ t = "loc")
  parent s := if s = "Integer" then some "Real" else if s = "dock" then some "loc" else some "object"
  dom t := if t = "loc" then .ok [.const (.str "a") "dock", .const (.str "b") "loc"]
    else if t = "dock" then .ok [.const (.str "a") "dock"] else .ok []
  zeroOk s := s = "Real" ∨ s = "Integer"

theorem exRLang_std : StdLang exRLang where
  refl s := by simp [exRLang]
  int := by simp [exRLang]
  intObj := by simp [exRLang]
  realObj := by simp [exRLang]
  parent := by simp [exRLang]
  zeroReal := by simp [exRLang]
  zeroInt := by simp [exRLang]
  builtin := by decide

theorem exFits : Fits exRLang exSem exInterp exCsort where
  isBool f := by
    simp only [exSem, exRLang, decide_eq_true_eq]
    constructor
    · rintro rfl; exact ⟨_, rfl⟩
    · rintro ⟨ss, h⟩
      by_contra hne
      rw [if_neg hne] at h
      repeat' split at h
      all_goals cases h
  lit n := rfl
  one := rfl
  zero := rfl
  zeroOf s _ := rfl
  obj c s _ := rfl
  fluent f d c _ ds := rfl
  holds p ss h ds := by
    have : p = "at" := by
      by_contra hne
      simp only [exRLang, if_neg hne] at h
      repeat' split at h
      all_goals cases h
    subst this
    simp [exSem, exInterp]
  next p ss h ds := by
    have : p = "at" := by
      by_contra hne
      simp only [exRLang, if_neg hne] at h
      repeat' split at h
      all_goals cases h
    subst this
    have : "X " ++ "at" = "X at" := by decide
    rw [this]
    simp [exSem, exInterp]
  eq a b := Iff.rfl
  le a b := Iff.rfl
  ge a b := Iff.rfl
  arith op _ a b := rfl
  func p hp ds := by
    simp only [List.mem_cons, List.not_mem_nil, or_false] at hp
    rcases hp with rfl | rfl | rfl | rfl | rfl | rfl | rfl <;> rfl
  sort t ht d := by
    simp only [exSem, List.mem_cons, List.not_mem_nil, or_false] at ht
    rcases ht with rfl | rfl <;> simp [exSem, exInterp, exVal, eq_comm]
  dom t ht := by
    simp only [exSem, List.mem_cons, List.not_mem_nil, or_false] at ht
    rcases ht with rfl | rfl <;> rfl
  csort t ht c hc := by
    simp only [exSem, List.mem_cons, List.not_mem_nil, or_false] at ht
    rcases ht with rfl | rfl
    · simp only [exSem, if_true, List.mem_cons, List.not_mem_nil, or_false] at hc
      rcases hc with rfl | rfl <;> rfl
    · simp [exSem] at hc; subst hc; rfl
  one_mul d := by simp [exSem, exFn, exVal]
  mul_one d := by simp [exSem, exFn, exVal]
  zero_mul d := by simp [exSem, exFn, exVal]
  mul_zero d := by simp [exSem, exFn, exVal]
  minus d := by simp [exSem, exFn, exVal]

/-- `(sum_{?x: loc} [level(?x) * at(?x)] >= 3) ^ ~ (forall_{?x: loc} [at'(?x)])` -/
def exRX : RX := .logic "^" [.rel ">=" [.agg "sum" ("?x", "loc") [] (.arith "*" [.pvar "level" false (some [.var "?x"]),
    .pvar "at" false (some [.var "?x"])]), .lit (.int 3)],
  .logic "~" [.agg "forall" ("?x", "loc") [] (.pvar "at" true (some [.var "?x"]))]]

example : Proper exRLang exSem.types (fun _ => none) exRX := by
  simp [exRX, Proper, Propers, exSem, RddlLang.argSorts, exRLang]

example : Readable exRLang true exRX := by
  refine .and (.rel (by simp) (.sum (k := false) (cs := [(.str "a", "dock"), (.str "b", "loc")]) (by simp) rfl rfl (by simp)
    (.times (k := false) (.fluent (d := ["loc"]) (c := "Real") rfl (.inl rfl) ?_) (.pred (d := ["loc"]) rfl ?_))) (.lit _))
    (.not (.all rfl (.pred (d := ["loc"]) rfl ?_)))
  all_goals exact .cons (.inl ⟨_, rfl⟩) .nil

/-! ### Refutations -/

mutual
/-- The legal expressions of RDDL: the variables are in scope, with subtypes of the types that the fluents ask for. -/
def Legal (L : RddlLang) (types : List String) (Γ : String → Option String) : RX → Prop
  | .lit _ => True
  | .bool _ => True
  | .pvar f _ args => (args.getD []).length = (L.argSorts f).length ∧
      ∀ p ∈ (args.getD []).zip (L.argSorts f), ∀ x, p.1 = .var x → ∃ t, Γ x = some t ∧ L.sub t p.2 = true
  | .control args => args.length = 3 ∧ Legals L types Γ args
  | .rel _ args => args.length = 2 ∧ Legals L types Γ args
  | .agg _ v vs body => (∀ w ∈ v :: vs, w.2 ∈ types) ∧
      Legal L types (fun y => match (v :: vs).find? (fun w => w.1 = y) with | some w => some w.2 | none => Γ y) body
  | .arith _ args => (args.length = 1 ∨ args.length = 2) ∧ Legals L types Γ args
  | .func _ args => Legals L types Γ args
  | .logic _ args => (args.length = 1 ∨ args.length = 2) ∧ Legals L types Γ args
def Legals (L : RddlLang) (types : List String) (Γ : String → Option String) : List RX → Prop
  | [] => True
  | x :: xs => Legal L types Γ x ∧ Legals L types Γ xs
end

/-- The full claim: every legal expression without free variables that is read means in Tarski what it means in RDDL. -/
def C90_full : Prop := ∀ (D : Type) (L : RddlLang) (S : RddlSem D) (I : Interp D) (csort : String → String), Fits L S I csort →
  ∀ (x : RX) (r : RRes), Legal L S.types (fun _ => none) x → readX L x = .ok r → ∀ env σ, r.den I σ = mean S x env

/-- `forall_{?x: dock} [at(?x)]`: the variable of the quantifier has the sort `dock` and the one in the atom `loc`, so that
the quantifier does not bind it: the value of the formula depends on a free variable. -/
theorem C90_subtype_refuted : ¬ C90_full ∧
    readX exRLang (.agg "forall" ("?x", "dock") [] (.pvar "at" false (some [.var "?x"]))) =
      .ok (.form (.quant .forall [.var ⟨"?x", "dock"⟩] (.atom (.user "at") [.var ⟨"?x", "loc"⟩]))) := by
  refine ⟨fun h => ?_, rfl⟩
  have := h Int exRLang exSem exInterp exCsort exFits (.agg "forall" ("?x", "dock") [] (.pvar "at" false (some [.var "?x"]))) _
    (by simp [Legal, exSem, RddlLang.argSorts, exRLang]) rfl (fun _ => 0) (fun _ => 101)
  simp [RRes.den, mean, envs, exSem, RArg.value, setEnv, exVal, Sat, quantBlock, evalTs, evalT, exInterp, Asg.set, RDen.asTruth] at this

/-- `sum_{?x: loc, ?y: loc} [level(?x)]`: the second variable is taken for the body; what is summed up are objects of the type
`loc`, which raises. -/
theorem C90_two_variables_refuted :
    readX exRLang (.agg "sum" ("?x", "loc") [("?y", "loc")] (.pvar "level" false (some [.var "?x"]))) = .error .sortMismatch ∧
    readX exRLang (.agg "forall" ("?x", "loc") [("?y", "loc")] (.pvar "at" false (some [.var "?x"]))) = .error .language ∧
    ¬ C90_full := by
  refine ⟨rfl, rfl, fun h => ?_⟩
  have hr : readX exRLang (.agg "sum" ("?x", "dock") [("?y", "loc")] (.lit (.int 1))) = .ok (.term (.var ⟨"?y", "loc"⟩)) := rfl
  have := h Int exRLang exSem exInterp exCsort exFits _ _ (by simp [Legal, exSem]) hr (fun _ => 0) (fun _ => 0)
  simp [RRes.den, mean, envs, exSem, evalT, total, RDen.asValue, exVal, exFn] at this

/-- Legal expressions that are not read: truth values; `<`, `>`, `~=` and `<=>`; `exists`; a formula times a formula or plus a
number; a number as an argument; a formula as a branch of if-then-else; an object as an operand; a sum over a type without
objects; and a primed fluent that is not boolean. -/
theorem C90_reads_refuted :
    readX exRLang (.bool true) = .error .runtime ∧
    readX exRLang (.rel "<" [.lit (.int 1), .lit (.int 2)]) = .error .keyError ∧
    readX exRLang (.rel ">" [.lit (.int 1), .lit (.int 2)]) = .error .keyError ∧
    readX exRLang (.rel "~=" [.lit (.int 1), .lit (.int 2)]) = .error .keyError ∧
    (∀ a b, readX exRLang (.logic "<=>" [a, b]) = .error .keyError) ∧
    (∀ v vs b, readX exRLang (.agg "exists" v vs b) = .error .runtime) ∧
    readX exRLang (.arith "*" [.pvar "at" false (some [.name "a"]), .pvar "at" false (some [.name "b"])]) = .error .attribute ∧
    readX exRLang (.arith "+" [.pvar "at" false (some [.name "a"]), .lit (.int 1)]) = .error .typeError ∧
    readX exRLang (.pvar "level" false (some [.num (.int 1)])) = .error .typeError ∧
    readX exRLang (.control [.pvar "at" false (some [.name "a"]), .pvar "at" false (some [.name "a"]), .pvar "at" false (some [.name "b"])]) =
      .error .attribute ∧
    readX exRLang (.rel "==" [.pvar "a" false none, .pvar "b" false none]) = .error .typeError ∧
    readX exRLang (.agg "sum" ("?x", "void") [] (.lit (.int 1))) = .error .index ∧
    readX exRLang (.pvar "level" true (some [.name "a"])) = .error .language :=
  ⟨rfl, rfl, rfl, rfl, fun _ _ => rfl, fun _ _ _ => rfl, rfl, rfl, rfl, rfl, rfl, rfl, rfl⟩

end Tarski

import Mathlib.Tactic.Common
import Verif.Ply
import Verif.ModelLemmas
import Verif.Props.Constructors
import Verif.Props.Rddl
/-! C92: the meaning of conditions read by the PLY-based PDDL reader. -/
namespace Tarski
open Classical

/-! ### Specification: the meaning of PDDL conditions -/

/-- An interpretation of PDDL. -/
structure YSem (D : Type) where
  nat : Nat → D
  real : String → D
  obj : String → D
  val : String → List D → D
  holds : String → List D → Prop
  cmp : Cmp → D → D → Prop
  arith : String → D → D → D
  neg : D → D
  isType : String → D → Prop

mutual
def YTerm.mean {D} (S : YSem D) (env : String → D) : YTerm → D
  | .id n => S.obj n
  | .var n => env n
  | .fn f args => S.val f (YTerm.means S env args)
def YTerm.means {D} (S : YSem D) (env : String → D) : List YTerm → List D
  | [] => []
  | t :: ts => t.mean S env :: YTerm.means S env ts
end

mutual
def YExp.mean {D} (S : YSem D) (env : String → D) : YExp → D
  | .nat n => S.nat n
  | .real s => S.real s
  | .var n => env n
  | .bin .minus a b => S.arith "-" (a.mean S env) (b.mean S env)
  | .bin .div a b => S.arith "/" (a.mean S env) (b.mean S env)
  | .multi .plus a b rest => (YExp.means S env rest).foldl (S.arith "+") (S.arith "+" (a.mean S env) (b.mean S env))
  | .multi .times a b rest => (YExp.means S env rest).foldl (S.arith "*") (S.arith "*" (a.mean S env) (b.mean S env))
  | .minus a => S.neg (a.mean S env)
  | .head f args => S.val f (YTerm.means S env args)
  | .headId f => S.val f []
def YExp.means {D} (S : YSem D) (env : String → D) : List YExp → List D
  | [] => []
  | t :: ts => t.mean S env :: YExp.means S env ts
end

def YAtom.mean {D} (S : YSem D) (env : String → D) : YAtom → Prop
  | .pred p args => S.holds p (YTerm.means S env args)
  | .eq a b => a.mean S env = b.mean S env

/-- The type of the variables before a position: the next one that is written. -/
def nextType : List VTok → Option String
  | [] => none
  | .type t :: _ => some t
  | .var _ :: ts => nextType ts

/-- The variables of a typed list with their types; the last ones may have none. -/
def typedVars : List VTok → List (String × Option String)
  | [] => []
  | .type _ :: ts => typedVars ts
  | .var x :: ts => (x, nextType ts) :: typedVars ts

/-- A variable without a type ranges over all objects. -/
def YSem.ofType {D} (S : YSem D) (t : Option String) (d : D) : Prop := S.isType (t.getD "object") d

/-- For some (all) values of the variables. -/
def rangeOver {D} (S : YSem D) (q : Quant) : List (String × Option String) → ((String → D) → Prop) → (String → D) → Prop
  | [], P, env => P env
  | (x, t) :: vs, P, env => match q with
    | .exists => ∃ d, S.ofType t d ∧ rangeOver S q vs P (setEnv env x d)
    | .forall => ∀ d, S.ofType t d → rangeOver S q vs P (setEnv env x d)

mutual
/-- The truth of a condition. -/
def YGD.mean {D} (S : YSem D) : YGD → (String → D) → Prop
  | .lit a, env => a.mean S env
  | .notLit a, env => ¬ a.mean S env
  | .and gs, env => YGD.meanAll S gs env
  | .or gs, env => YGD.meanAny S gs env
  | .not g, env => ¬ g.mean S env
  | .imply a b, env => a.mean S env → b.mean S env
  | .quant q toks g, env => rangeOver S q (typedVars toks) (g.mean S) env
  | .comp c a b, env => S.cmp c (a.mean S env) (b.mean S env)
def YGD.meanAll {D} (S : YSem D) : List YGD → (String → D) → Prop
  | [], _ => True
  | g :: gs, env => g.mean S env ∧ YGD.meanAll S gs env
def YGD.meanAny {D} (S : YSem D) : List YGD → (String → D) → Prop
  | [], _ => False
  | g :: gs, env => g.mean S env ∨ YGD.meanAny S gs env
end

/-- The interpretation `I` of the language is the one that `S` describes: a predicate is a function with the values 1 (true)
and 0 (false). -/
structure YFits {D} (L : YLang) (S : YSem D) (I : Interp D) : Prop where
  nat : ∀ n : Nat, I.const (.int n) "Integer" = S.nat n
  real : ∀ s, I.const (.str s) "Real" = S.real s
  obj : ∀ c s, L.base.sym c = some (.const s) → I.const (.str c) s = S.obj c
  val : ∀ f dom cod, L.base.sym f = some (.fn dom cod) → ∀ ds, I.fn f ds = S.val f ds
  holds : ∀ p dom, L.base.sym p = some (.fn dom "Bool") → ∀ ds,
    I.fn p ds = if S.holds p ds then I.const (.int 1) "Bool" else I.const (.int 0) "Bool"
  bools : I.const (.int 0) "Bool" ≠ I.const (.int 1) "Bool"
  eq : ∀ a b, S.cmp .eq a b ↔ a = b
  cmp : ∀ c a b, I.pred (.cmp c) [a, b] ↔ S.cmp c a b
  arith : ∀ op ∈ ["+", "-", "*", "/"], ∀ a b, I.fn op [a, b] = S.arith op a b
  types : ∀ w, primitiveType w ∈ L.types → ∀ d, I.sort (primitiveType w) d ↔ S.isType w d
  object : ∀ d, I.sort "object" d ↔ S.isType "object" d

mutual
/-- Every predicate of the condition is declared as one. -/
def PredsOK (L : YLang) : YGD → Prop
  | .lit (.pred p _) => ∃ dom, L.base.sym p = some (.fn dom "Bool")
  | .notLit (.pred p _) => ∃ dom, L.base.sym p = some (.fn dom "Bool")
  | .lit (.eq _ _) => True
  | .notLit (.eq _ _) => True
  | .and gs => PredsAll L gs
  | .or gs => PredsAll L gs
  | .not g => PredsOK L g
  | .imply a b => PredsOK L a ∧ PredsOK L b
  | .quant _ _ g => PredsOK L g
  | .comp _ _ _ => True
def PredsAll (L : YLang) : List YGD → Prop
  | [] => True
  | g :: gs => PredsOK L g ∧ PredsAll L gs
end

/-- The variables in scope have their values. -/
def AgreeOn {D} (sc : YScope) (σ : Asg D) (env : String → D) : Prop := ∀ x v, dlookup sc x = some v → v.sym = x ∧ σ v = env x

/-! ### Proof -/

mutual
theorem readYTerm_sem {D} {L : YLang} {S : YSem D} {I : Interp D} (hf : YFits L S I) {sc σ env} (ha : AgreeOn sc σ env)
    (t : YTerm) (u : Term) (h : readYTerm L sc t = .ok u) : evalT I u σ = t.mean S env := by
  match t with
  | .id n =>
    simp only [readYTerm] at h
    split at h
    · rename_i s hs
      cases h
      simp only [evalT, YTerm.mean, hf.obj _ _ hs]
    · cases h
    · cases h
  | .var n =>
    simp only [readYTerm] at h
    split at h
    · rename_i v hv
      cases h
      simp only [evalT, YTerm.mean, (ha _ _ hv).2]
    · cases h
  | .fn f args =>
    simp only [readYTerm] at h
    cases hr : readYTerms L sc args with
    | error e => simp [hr] at h
    | ok ts =>
      simp only [hr] at h
      split at h
      · cases h
      · rename_i dom cod hs
        split at h
        · cases h
        · cases h
          simp only [evalT, YTerm.mean, hf.val _ _ _ hs, readYTerms_sem hf ha args ts hr]
      · cases h
theorem readYTerms_sem {D} {L : YLang} {S : YSem D} {I : Interp D} (hf : YFits L S I) {sc σ env} (ha : AgreeOn sc σ env)
    (ts : List YTerm) (us : List Term) (h : readYTerms L sc ts = .ok us) : evalTs I us σ = YTerm.means S env ts := by
  match ts with
  | [] => cases h; simp [evalTs, YTerm.means]
  | t :: ts =>
    simp only [readYTerms] at h
    cases hr : readYTerm L sc t with
    | error e => simp [hr] at h
    | ok u =>
      cases hs : readYTerms L sc ts with
      | error e => simp [hr, hs] at h
      | ok us' =>
        simp only [hr, hs, Except.ok.injEq] at h
        subst h
        simp only [evalTs, YTerm.means, readYTerm_sem hf ha t u hr, readYTerms_sem hf ha ts us' hs]
end

theorem dispatch_app {A : AggLang} {op : String} {t u r : Term} (h : A.dispatch op t u = .ok r) : r = .app op [t, u] := by
  unfold AggLang.dispatch at h
  split at h
  · cases h
  · split at h
    · cases h; rfl
    · cases h

theorem chain_mean {D} {S : YSem D} {I : Interp D} {A : AggLang} {op : String} (hop : ∀ a b, I.fn op [a, b] = S.arith op a b) (σ : Asg D) :
    ∀ (us : List Term) (t r : Term), A.chain op t us = .ok r → evalT I r σ = (evalTs I us σ).foldl (S.arith op) (evalT I t σ) := by
  intro us
  induction us with
  | nil => intro t r h; cases h; simp [evalTs]
  | cons u us ih =>
    intro t r h
    simp only [AggLang.chain] at h
    cases hd : A.dispatch op t u with
    | error e => simp [hd] at h
    | ok q =>
      simp only [hd] at h
      rw [ih q r h, dispatch_app hd]
      simp only [evalTs, List.foldl_cons, evalT, hop]

mutual
theorem readYExp_sem {D} {L : YLang} {S : YSem D} {I : Interp D} (hf : YFits L S I) {sc σ env} (ha : AgreeOn sc σ env)
    (t : YExp) (u : Term) (h : readYExp L sc t = .ok u) : evalT I u σ = t.mean S env := by
  match t with
  | .nat n => cases h; simp only [evalT, YExp.mean, hf.nat]
  | .real s => cases h; simp only [evalT, YExp.mean, hf.real]
  | .var n =>
    simp only [readYExp] at h
    split at h
    · rename_i v hv
      cases h
      simp only [evalT, YExp.mean, (ha _ _ hv).2]
    · cases h
  | .bin op a b =>
    simp only [readYExp] at h
    cases hr : readYExp L sc a with
    | error e => simp [hr] at h
    | ok x =>
      cases hs : readYExp L sc b with
      | error e => simp [hr, hs] at h
      | ok y =>
        simp only [hr, hs] at h
        rw [dispatch_app h]
        have h1 := readYExp_sem hf ha a x hr
        have h2 := readYExp_sem hf ha b y hs
        cases op
        · simp only [evalT, evalTs, YExp.mean, YBin.sym, hf.arith "-" (by simp), h1, h2]
        · simp only [evalT, evalTs, YExp.mean, YBin.sym, hf.arith "/" (by simp), h1, h2]
  | .multi op a b rest =>
    simp only [readYExp] at h
    cases hr : readYExp L sc a with
    | error e => simp [hr] at h
    | ok x =>
      cases hs : readYExp L sc b with
      | error e => simp [hr, hs] at h
      | ok y =>
        cases hq : readYExps L sc rest with
        | error e => simp [hr, hs, hq] at h
        | ok us =>
          simp only [hr, hs, hq] at h
          have h1 := readYExp_sem hf ha a x hr
          have h2 := readYExp_sem hf ha b y hs
          have h3 := readYExps_sem hf ha rest us hq
          cases op
          · rw [chain_mean (hf.arith "+" (by simp)) σ _ _ _ h]
            simp only [evalTs, List.foldl_cons, YExp.mean, h1, h2, h3]
          · rw [chain_mean (hf.arith "*" (by simp)) σ _ _ _ h]
            simp only [evalTs, List.foldl_cons, YExp.mean, h1, h2, h3]
  | .minus a =>
    simp only [readYExp] at h
    split at h <;> cases h
  | .head f args =>
    rw [readYExp] at h
    rw [readYTerm_sem hf ha _ u h, YTerm.mean, YExp.mean]
  | .headId f =>
    rw [readYExp] at h
    rw [readYTerm_sem hf ha _ u h, YTerm.mean, YExp.mean, YTerm.means]
theorem readYExps_sem {D} {L : YLang} {S : YSem D} {I : Interp D} (hf : YFits L S I) {sc σ env} (ha : AgreeOn sc σ env)
    (ts : List YExp) (us : List Term) (h : readYExps L sc ts = .ok us) : evalTs I us σ = YExp.means S env ts := by
  match ts with
  | [] => cases h; simp [evalTs, YExp.means]
  | t :: ts =>
    simp only [readYExps] at h
    cases hr : readYExp L sc t with
    | error e => simp [hr] at h
    | ok u =>
      cases hs : readYExps L sc ts with
      | error e => simp [hr, hs] at h
      | ok us' =>
        simp only [hr, hs, Except.ok.injEq] at h
        subst h
        simp only [evalTs, YExp.means, readYExp_sem hf ha t u hr, readYExps_sem hf ha ts us' hs]
end

/-- The sort that the reader gives to a typed variable. -/
def typeSort : Option String → String
  | none => "object"
  | some w => primitiveType w

theorem normalizeVars_ok {L : YLang} : ∀ (toks : List VTok) (pending : List String) (vs : List Var), normalizeVars L pending toks = .ok vs →
    vs = pending.map (⟨·, typeSort (nextType toks)⟩) ++ (typedVars toks).map (fun p => ⟨p.1, typeSort p.2⟩) ∧
      (∀ w, nextType toks = some w → primitiveType w ∈ L.types) ∧ ∀ p ∈ typedVars toks, ∀ w, p.2 = some w → primitiveType w ∈ L.types := by
  intro toks
  induction toks with
  | nil =>
    intro pending vs h
    simp only [normalizeVars] at h
    split at h
    · cases h; simp [typedVars, nextType, typeSort]
    · cases h
  | cons tok toks ih =>
    intro pending vs h
    cases tok with
    | var n =>
      simp only [normalizeVars] at h
      obtain ⟨h1, h2, h3⟩ := ih _ _ h
      refine ⟨?_, ?_, ?_⟩
      · rw [h1]; simp [typedVars, nextType]
      · simpa [nextType] using h2
      · intro p hp w hw
        simp only [typedVars, List.mem_cons] at hp
        rcases hp with rfl | hp
        · exact h2 w hw
        · exact h3 p hp w hw
    | type t =>
      simp only [normalizeVars] at h
      split at h
      · rename_i ht
        cases hr : normalizeVars L [] toks with
        | error e => simp [hr] at h
        | ok us =>
          simp only [hr, Except.ok.injEq] at h
          obtain ⟨h1, h2, h3⟩ := ih _ _ hr
          refine ⟨?_, ?_, ?_⟩
          · rw [← h, h1]; simp [typedVars, nextType, typeSort]
          · intro w hw; simp only [nextType, Option.some.injEq] at hw; subst hw; exact ht
          · exact h3
      · cases h

theorem agree_enter {D} {sc : YScope} {σ : Asg D} {env : String → D} (h : AgreeOn sc σ env) (v : Var) (d : D) :
    AgreeOn (dinsert sc v.sym v) (σ.set v d) (setEnv env v.sym d) := by
  intro x w hw
  rw [dlookup_dinsert] at hw
  split at hw
  · rename_i hx
    cases hw
    subst hx
    exact ⟨rfl, by simp [Asg.set, setEnv]⟩
  · rename_i hx
    obtain ⟨h1, h2⟩ := h x w hw
    refine ⟨h1, ?_⟩
    have : w ≠ v := by rintro rfl; exact hx h1
    simp only [Asg.set, setEnv, this, if_false, h2]
    rw [if_neg (fun e => hx (Eq.symm e))]

theorem yblock_sem {D} {L : YLang} {S : YSem D} {I : Interp D} (hf : YFits L S I) {q : Quant} {P : Asg D → Prop} {Q : (String → D) → Prop} :
    ∀ (tvs : List (String × Option String)) (sc : YScope) (σ : Asg D) (env : String → D), AgreeOn sc σ env →
      (∀ p ∈ tvs, ∀ w, p.2 = some w → primitiveType w ∈ L.types) →
      (∀ σ' env', AgreeOn (enterScope sc (tvs.map (fun p => ⟨p.1, typeSort p.2⟩))) σ' env' → (P σ' ↔ Q env')) →
      (quantBlock I q ((tvs.map (fun p => (⟨p.1, typeSort p.2⟩ : Var))).map .var) P σ ↔ rangeOver S q tvs Q env) := by
  intro tvs
  induction tvs with
  | nil => intro sc σ env ha _ h; exact h σ env ha
  | cons p tvs ih =>
    obtain ⟨x, t⟩ := p
    intro sc σ env ha hw h
    have hs : ∀ d, I.sort (typeSort t) d ↔ S.ofType t d := by
      intro d
      cases t with
      | none => simpa [typeSort, YSem.ofType] using hf.object d
      | some w => simpa [typeSort, YSem.ofType] using hf.types w (hw (x, some w) (by simp) w rfl) d
    have hrec : ∀ d, quantBlock I q ((tvs.map (fun p => (⟨p.1, typeSort p.2⟩ : Var))).map .var) P (σ.set ⟨x, typeSort t⟩ d) ↔
        rangeOver S q tvs Q (setEnv env x d) := by
      intro d
      refine ih (dinsert sc x ⟨x, typeSort t⟩) _ _ (agree_enter ha ⟨x, typeSort t⟩ d) (fun p hp => hw p (by simp [hp])) ?_
      intro σ' env' h'
      exact h σ' env' (by simpa [enterScope] using h')
    cases q with
    | «exists» => simp only [List.map_cons, quantBlock, rangeOver, hs, hrec]
    | «forall» => simp only [List.map_cons, quantBlock, rangeOver, hs, hrec]

/-- Nothing new is in scope. -/
def ScopeSub (sc' sc : YScope) : Prop := ∀ x v, dlookup sc' x = some v → dlookup sc x = some v

theorem enter_other {vs : List Var} {x : String} (hx : x ∉ vs.map (·.sym)) : ∀ sc, dlookup (enterScope sc vs) x = dlookup sc x := by
  induction vs with
  | nil => intro sc; rfl
  | cons v vs ih =>
    intro sc
    simp only [List.map_cons, List.mem_cons, not_or] at hx
    have := ih hx.2 (dinsert sc v.sym v)
    simp only [enterScope, List.foldl_cons] at this ⊢
    rw [this, dlookup_dinsert, if_neg (fun e => hx.1 e.symm)]

theorem leave_lookup : ∀ (vs : List Var) (sc sc' : YScope), leaveScope sc vs = .ok sc' →
    ∀ x, dlookup sc' x = if x ∈ vs.map (·.sym) then none else dlookup sc x := by
  intro vs
  induction vs with
  | nil => intro sc sc' h x; cases h; simp
  | cons v vs ih =>
    intro sc sc' h x
    simp only [leaveScope] at h
    split at h
    · rw [ih _ _ h x, dlookup_ddelete]
      by_cases h1 : x ∈ vs.map (·.sym) <;> by_cases h2 : x = v.sym <;> simp_all
    · cases h

mutual
theorem readGD_scope {L : YLang} (g : YGD) (sc : YScope) (f : Formula) (sc' : YScope) (h : readGD L g sc = .ok (f, sc')) : ScopeSub sc' sc := by
  match g with
  | .lit a =>
    simp only [readGD] at h
    split at h <;> cases h
    exact fun _ _ h => h
  | .notLit a =>
    simp only [readGD] at h
    split at h <;> cases h
    exact fun _ _ h => h
  | .and gs =>
    simp only [readGD] at h
    split at h
    · cases h
    · rename_i fs sc1 hr
      cases h
      exact readGDs_scope gs sc fs _ hr
  | .or gs =>
    simp only [readGD] at h
    split at h
    · cases h
    · rename_i fs sc1 hr
      cases h
      exact readGDs_scope gs sc fs _ hr
  | .not g =>
    simp only [readGD] at h
    split at h
    · cases h
    · rename_i f1 sc1 hr
      cases h
      exact readGD_scope g sc f1 _ hr
  | .imply a b =>
    simp only [readGD] at h
    split at h
    · cases h
    · rename_i f1 sc1 hr
      split at h
      · cases h
      · rename_i f2 sc2 hs
        cases h
        exact fun x v hx => readGD_scope a sc f1 _ hr x v (readGD_scope b _ f2 _ hs x v hx)
  | .quant q toks g =>
    simp only [readGD] at h
    split at h
    · cases h
    · rename_i vs hv
      split at h
      · cases h
      · rename_i f1 sc1 hr
        split at h
        · cases h
        · rename_i sc2 hl
          cases h
          intro x v hx
          rw [leave_lookup _ _ _ hl x] at hx
          split at hx
          · cases hx
          · rename_i hn
            have := readGD_scope g _ f1 _ hr x v hx
            rwa [enter_other hn] at this
  | .comp c a b =>
    simp only [readGD] at h
    split at h
    · cases h
    · split at h
      · cases h
      · split at h <;> cases h
        exact fun _ _ h => h
theorem readGDs_scope {L : YLang} (gs : List YGD) (sc : YScope) (fs : List Formula) (sc' : YScope) (h : readGDs L gs sc = .ok (fs, sc')) : ScopeSub sc' sc := by
  match gs with
  | [] => cases h; exact fun _ _ h => h
  | g :: gs =>
    simp only [readGDs] at h
    split at h
    · cases h
    · rename_i f1 sc1 hr
      split at h
      · cases h
      · rename_i fs2 sc2 hs
        cases h
        exact fun x v hx => readGD_scope g sc f1 _ hr x v (readGDs_scope gs _ fs2 _ hs x v hx)
end

theorem AgreeOn.sub {D} {sc sc' : YScope} {σ : Asg D} {env} (h : AgreeOn sc σ env) (hs : ScopeSub sc' sc) : AgreeOn sc' σ env :=
  fun x v hx => h x v (hs x v hx)

theorem compareTerms_ok {L : YLang} {c t u f} (h : compareTerms L c t u = .ok f) : f = .atom (.cmp c) [t, u] := by
  unfold compareTerms at h
  split at h
  · cases h
  · cases h; rfl

theorem eqNumber_ok {L : YLang} {t n f} (h : eqNumber L t n = .ok f) : f = .atom (.cmp .eq) [t, .const (.int n) (L.base.sortOf t)] := by
  unfold eqNumber at h
  split at h
  · split at h
    · cases h
    · cases h; rfl
  · cases h

theorem readYLit_sem {D} {L : YLang} {S : YSem D} {I : Interp D} (hf : YFits L S I) {sc σ env} (ha : AgreeOn sc σ env)
    (a : YAtom) (b : Bool) (f : Formula) (hp : PredsOK L (.lit a)) (h : readYLit L sc a b = .ok f) : Sat I f σ ↔ (if b then a.mean S env else ¬ a.mean S env) := by
  cases a with
  | pred p args =>
    obtain ⟨dom, hs⟩ : ∃ dom, L.base.sym p = some (.fn dom "Bool") := by simpa only [PredsOK] using hp
    simp only [readYLit, readYAtom] at h
    cases hr : readYTerms L sc args with
    | error e => simp [hr] at h
    | ok ts =>
      simp only [hr, hs] at h
      cases hc : L.base.checkArgs dom ts with
      | error e => simp [hc] at h
      | ok _ =>
        simp only [hc] at h
        have hsort : L.base.sortOf (.app p ts) = "Bool" := by simp [RddlLang.sortOf, hs]
        rw [eqNumber_ok h, hsort]
        simp only [Sat, evalTs, evalT, hf.cmp, hf.eq, hf.holds p dom hs, readYTerms_sem hf ha args ts hr, YAtom.mean]
        by_cases hh : S.holds p (YTerm.means S env args)
        · cases b
          · simpa [hh] using hf.bools.symm
          · simp [hh]
        · cases b
          · simp [hh]
          · simpa [hh] using hf.bools
  | eq x y =>
    simp only [readYLit, readYAtom] at h
    cases hr : readYTerm L sc x with
    | error e => simp [hr] at h
    | ok t =>
      cases hs : readYTerm L sc y with
      | error e => simp [hr, hs] at h
      | ok u =>
        simp only [hr, hs] at h
        cases hc : compareTerms L .eq t u with
        | error e => simp [hc] at h
        | ok g =>
          simp only [hc, Except.ok.injEq] at h
          subst h
          rw [compareTerms_ok hc]
          have h1 := readYTerm_sem hf ha x t hr
          have h2 := readYTerm_sem hf ha y u hs
          cases b <;> simp [neg, Sat, SatAll, evalTs, hf.cmp, hf.eq, h1, h2, YAtom.mean]

theorem meanAll_iff {D} {S : YSem D} (env : String → D) (gs : List YGD) : YGD.meanAll S gs env ↔ ∀ g ∈ gs, g.mean S env := by
  induction gs with
  | nil => simp [YGD.meanAll]
  | cons g gs ih => simp [YGD.meanAll, ih]

mutual
theorem readGD_sem {D} {L : YLang} {S : YSem D} {I : Interp D} (hf : YFits L S I) (g : YGD) (hp : PredsOK L g) (sc : YScope) (f : Formula) (sc' : YScope)
    (h : readGD L g sc = .ok (f, sc')) (σ : Asg D) (env : String → D) (ha : AgreeOn sc σ env) : Sat I f σ ↔ g.mean S env := by
  match g with
  | .lit a =>
    simp only [readGD] at h
    split at h
    · cases h
    · rename_i f1 hr
      cases h
      simpa [YGD.mean] using readYLit_sem hf ha a true _ hp hr
  | .notLit a =>
    have hp' : PredsOK L (.lit a) := by cases a <;> simpa only [PredsOK] using hp
    simp only [readGD] at h
    split at h
    · cases h
    · rename_i f1 hr
      cases h
      simpa [YGD.mean] using readYLit_sem hf ha a false _ hp' hr
  | .and gs =>
    simp only [readGD] at h
    split at h
    · cases h
    · rename_i fs sc1 hr
      cases h
      rw [C11_land, YGD.mean, ← (readGDs_sem hf gs (by simpa only [PredsOK] using hp) sc fs _ hr σ env ha).1, satAll_iff]
  | .or gs =>
    simp only [readGD] at h
    split at h
    · cases h
    · rename_i fs sc1 hr
      cases h
      rw [C11_lor, YGD.mean, ← (readGDs_sem hf gs (by simpa only [PredsOK] using hp) sc fs _ hr σ env ha).2, satAny_iff]
  | .not g =>
    simp only [readGD] at h
    split at h
    · cases h
    · rename_i f1 sc1 hr
      cases h
      have := readGD_sem hf g (by simpa only [PredsOK] using hp) sc f1 _ hr σ env ha
      simp [neg, Sat, SatAll, this, YGD.mean]
  | .imply a b =>
    obtain ⟨hp1, hp2⟩ : PredsOK L a ∧ PredsOK L b := by simpa only [PredsOK] using hp
    simp only [readGD] at h
    split at h
    · cases h
    · rename_i f1 sc1 hr
      split at h
      · cases h
      · rename_i f2 sc2 hs
        cases h
        have h1 := readGD_sem hf a hp1 sc f1 _ hr σ env ha
        have h2 := readGD_sem hf b hp2 _ f2 _ hs σ env (ha.sub (readGD_scope a sc f1 _ hr))
        rw [C11_lor]
        simp only [List.mem_cons, List.not_mem_nil, or_false, exists_eq_or_imp, exists_eq_left, neg, Sat, SatAll, h1, h2, YGD.mean, and_true]
        tauto
  | .quant q toks g =>
    simp only [readGD] at h
    split at h
    · cases h
    · rename_i vs hv
      split at h
      · cases h
      · rename_i f1 sc1 hr
        split at h
        · cases h
        · rename_i sc2 hl
          cases h
          obtain ⟨h1, -, h3⟩ := normalizeVars_ok _ _ _ hv
          simp only [List.map_nil, List.nil_append] at h1
          subst h1
          rw [Sat, YGD.mean]
          exact yblock_sem hf _ sc σ env ha h3 fun σ' env' h' => readGD_sem hf g (by simpa only [PredsOK] using hp) _ f1 _ hr σ' env' h'
  | .comp c a b =>
    simp only [readGD] at h
    cases hr : readYExp L sc a with
    | error e => simp [hr] at h
    | ok t =>
      cases hs : readYExp L sc b with
      | error e => simp [hr, hs] at h
      | ok u =>
        simp only [hr, hs] at h
        cases hc : compareTerms L c t u with
        | error e => simp [hc] at h
        | ok f1 =>
          simp only [hc] at h
          cases h
          rw [compareTerms_ok hc]
          simp only [Sat, evalTs, hf.cmp, readYExp_sem hf ha a t hr, readYExp_sem hf ha b u hs, YGD.mean]
theorem readGDs_sem {D} {L : YLang} {S : YSem D} {I : Interp D} (hf : YFits L S I) (gs : List YGD) (hp : PredsAll L gs) (sc : YScope) (fs : List Formula) (sc' : YScope)
    (h : readGDs L gs sc = .ok (fs, sc')) (σ : Asg D) (env : String → D) (ha : AgreeOn sc σ env) :
    (SatAll I fs σ ↔ YGD.meanAll S gs env) ∧ (SatAny I fs σ ↔ YGD.meanAny S gs env) := by
  match gs with
  | [] => cases h; simp [SatAll, SatAny, YGD.meanAll, YGD.meanAny]
  | g :: gs =>
    obtain ⟨hp1, hp2⟩ : PredsOK L g ∧ PredsAll L gs := by simpa only [PredsAll] using hp
    simp only [readGDs] at h
    split at h
    · cases h
    · rename_i f1 sc1 hr
      split at h
      · cases h
      · rename_i fs2 sc2 hs
        cases h
        have h1 := readGD_sem hf g hp1 sc f1 _ hr σ env ha
        have h2 := readGDs_sem hf gs hp2 _ fs2 _ hs σ env (ha.sub (readGD_scope g sc f1 _ hr))
        simp only [SatAll, SatAny, YGD.meanAll, YGD.meanAny, h1, h2, and_self]
end

/-! ### Specification: legal conditions -/

mutual
/-- The type of a legal term, given the types of the variables in scope. -/
def YTerm.typ (L : YLang) (Γ : String → Option String) : YTerm → Option String
  | .id n => match L.base.sym n with
    | some (.const s) => some s
    | _ => none
  | .var n => Γ n
  | .fn f args => match L.base.sym f, YTerm.typs L Γ args with
    | some (.fn dom cod), some ss => if ss.length = dom.length ∧ ∀ p ∈ ss.zip dom, L.base.sub p.1 p.2 = true then some cod else none
    | _, _ => none
def YTerm.typs (L : YLang) (Γ : String → Option String) : List YTerm → Option (List String)
  | [] => some []
  | t :: ts => match t.typ L Γ, YTerm.typs L Γ ts with
    | some s, some ss => some (s :: ss)
    | _, _ => none
end

/-- The type is a number type. -/
def NumT (L : YLang) (t : Option String) : Prop := ∃ s, t = some s ∧ L.base.sub s "Real" = true

mutual
/-- The type of a legal numeric expression (without unary minus). -/
noncomputable def YExp.typ (L : YLang) (Γ : String → Option String) : YExp → Option String
  | .nat _ => some "Integer"
  | .real _ => some "Real"
  | .var n => Γ n
  | .bin _ a b => if NumT L (a.typ L Γ) ∧ NumT L (b.typ L Γ) then some "Real" else none
  | .multi _ a b rest => if NumT L (a.typ L Γ) ∧ NumT L (b.typ L Γ) ∧ ExpsNum L Γ rest then some "Real" else none
  | .minus _ => none
  | .head f args => (YTerm.fn f args).typ L Γ
  | .headId f => (YTerm.fn f []).typ L Γ
noncomputable def ExpsNum (L : YLang) (Γ : String → Option String) : List YExp → Prop
  | [] => True
  | e :: es => NumT L (e.typ L Γ) ∧ ExpsNum L Γ es
end

/-- A legal atom. -/
def YAtom.Legal (L : YLang) (Γ : String → Option String) : YAtom → Prop
  | .pred p args => (YTerm.fn p args).typ L Γ = some "Bool"
  | .eq a b => ∃ s t, a.typ L Γ = some s ∧ b.typ L Γ = some t ∧ L.base.sub s "object" = true ∧ L.base.sub t "object" = true

/-- The types after the declaration of variables. -/
def declare (Γ : String → Option String) (vs : List (String × Option String)) : String → Option String :=
  vs.foldl (fun Γ p => fun x => if x = p.1 then some (typeSort p.2) else Γ x) Γ

mutual
/-- A legal condition in which no quantifier declares a variable that is in scope already. -/
def YGD.Legal (L : YLang) : YGD → (String → Option String) → Prop
  | .lit a, Γ => a.Legal L Γ
  | .notLit a, Γ => a.Legal L Γ
  | .and gs, Γ => YGD.Legals L gs Γ
  | .or gs, Γ => YGD.Legals L gs Γ
  | .not g, Γ => g.Legal L Γ
  | .imply a b, Γ => a.Legal L Γ ∧ b.Legal L Γ
  | .quant _ toks g, Γ => ((typedVars toks).map Prod.fst).Nodup ∧ (∀ x ∈ (typedVars toks).map Prod.fst, Γ x = none) ∧
      (∀ t, VTok.type t ∈ toks → primitiveType t ∈ L.types) ∧ g.Legal L (declare Γ (typedVars toks))
  | .comp c a b, Γ => ∃ s t, a.typ L Γ = some s ∧ b.typ L Γ = some t ∧
      L.base.sub s (if c = .eq ∨ c = .ne then "object" else "Real") = true ∧ L.base.sub t (if c = .eq ∨ c = .ne then "object" else "Real") = true
def YGD.Legals (L : YLang) : List YGD → (String → Option String) → Prop
  | [], _ => True
  | g :: gs, Γ => g.Legal L Γ ∧ YGD.Legals L gs Γ
end

/-- The language of the reader: 0 and 1 are the truth values, which are objects of the language; the operators are not declared
by the user. -/
structure YStd (L : YLang) : Prop where
  cast0 : L.castOk "Bool" 0 = true
  cast1 : L.castOk "Bool" 1 = true
  bool : L.base.sub "Bool" "object" = true
  real : L.base.sub "Real" "Real" = true
  ops : ∀ op ∈ ["+", "-", "*", "/"], L.base.sym op = none
  object : "object" ∈ L.types

/-! ### Proof -/

/-- The types of the variables in scope. -/
def YScope.types (sc : YScope) : String → Option String := fun x => (dlookup sc x).map (·.sort)

theorem checkArgs_ok {L : RddlLang} {sorts : List String} {ts : List Term} (h1 : ts.length = sorts.length) (h2 : ∀ p ∈ (ts.map L.sortOf).zip sorts, L.sub p.1 p.2 = true) :
    L.checkArgs sorts ts = .ok () := by
  unfold RddlLang.checkArgs
  rw [if_neg (by simpa using h1), if_pos]
  simp only [List.all_eq_true]
  intro p hp
  refine h2 (L.sortOf p.1, p.2) ?_
  rw [List.zip_map_left]
  exact List.mem_map.2 ⟨p, hp, rfl⟩

mutual
theorem readYTerm_typ {L : YLang} {sc : YScope} (t : YTerm) (s : String) (h : t.typ L sc.types = some s) :
    ∃ u, readYTerm L sc t = .ok u ∧ L.base.sortOf u = s := by
  match t with
  | .id n =>
    simp only [YTerm.typ] at h
    split at h
    · rename_i s' hs
      cases h
      exact ⟨_, by simp only [readYTerm, hs]; rfl, rfl⟩
    · cases h
  | .var n =>
    simp only [YTerm.typ, YScope.types, Option.map_eq_some_iff] at h
    obtain ⟨v, hv, rfl⟩ := h
    exact ⟨.var v, by simp only [readYTerm, hv], rfl⟩
  | .fn f args =>
    simp only [YTerm.typ] at h
    split at h
    · rename_i dom cod ss hs ha
      split at h
      · rename_i hc
        cases h
        obtain ⟨us, hu, rfl⟩ := readYTerms_typ args ss ha
        refine ⟨.app f us, ?_, by simp [RddlLang.sortOf, hs]⟩
        simp only [readYTerm, hu, hs, checkArgs_ok (by simpa using hc.1) hc.2]
      · cases h
    · cases h
theorem readYTerms_typ {L : YLang} {sc : YScope} (ts : List YTerm) (ss : List String) (h : YTerm.typs L sc.types ts = some ss) :
    ∃ us, readYTerms L sc ts = .ok us ∧ us.map L.base.sortOf = ss := by
  match ts with
  | [] => cases h; exact ⟨[], rfl, rfl⟩
  | t :: ts =>
    simp only [YTerm.typs] at h
    split at h
    · rename_i s ss' h1 h2
      cases h
      obtain ⟨u, hu, rfl⟩ := readYTerm_typ t s h1
      obtain ⟨us, hus, rfl⟩ := readYTerms_typ ts ss' h2
      exact ⟨u :: us, by simp only [readYTerms, hu, hus], rfl⟩
    · cases h
end

theorem dispatch_num {L : YLang} (hL : YStd L) {op : String} (hop : op ∈ ["+", "-", "*", "/"]) {t u : Term}
    (ht : L.base.sub (L.base.sortOf t) "Real" = true) (hu : L.base.sub (L.base.sortOf u) "Real" = true) :
    L.base.agg.dispatch op t u = .ok (.app op [t, u]) ∧ L.base.sortOf (.app op [t, u]) = "Real" := by
  constructor
  · simp [AggLang.dispatch, RddlLang.agg, ht, hu]
  · simp [RddlLang.sortOf, hL.ops op hop]

theorem chain_numOK {L : YLang} (hL : YStd L) {op : String} (hop : op ∈ ["+", "-", "*", "/"]) : ∀ (us : List Term) (t u : Term),
    L.base.sub (L.base.sortOf t) "Real" = true → (∀ x ∈ u :: us, L.base.sub (L.base.sortOf x) "Real" = true) →
    ∃ r, L.base.agg.chain op t (u :: us) = .ok r ∧ L.base.sortOf r = "Real" := by
  intro us
  induction us with
  | nil =>
    intro t u ht hu
    obtain ⟨h1, h2⟩ := dispatch_num hL hop ht (hu u (by simp))
    exact ⟨_, by simp only [AggLang.chain, h1], h2⟩
  | cons w us ih =>
    intro t u ht hu
    obtain ⟨h1, h2⟩ := dispatch_num hL hop ht (hu u (by simp))
    obtain ⟨r, h3, h4⟩ := ih (.app op [t, u]) w (by rw [h2]; exact hL.real) (fun x hx => hu x (by simp only [List.mem_cons] at hx ⊢; tauto))
    exact ⟨r, by rw [AggLang.chain, h1]; exact h3, h4⟩

mutual
theorem readYExp_typ {L : YLang} (hL : YStd L) {sc : YScope} (t : YExp) (s : String) (h : t.typ L sc.types = some s) :
    ∃ u, readYExp L sc t = .ok u ∧ L.base.sortOf u = s := by
  match t with
  | .nat n => simp only [YExp.typ, Option.some.injEq] at h; subst h; exact ⟨.const (.int n) "Integer", by rw [readYExp], rfl⟩
  | .real r => simp only [YExp.typ, Option.some.injEq] at h; subst h; exact ⟨.const (.str r) "Real", by rw [readYExp], rfl⟩
  | .var n =>
    simp only [YExp.typ, YScope.types, Option.map_eq_some_iff] at h
    obtain ⟨v, hv, rfl⟩ := h
    exact ⟨.var v, by simp only [readYExp, hv], rfl⟩
  | .bin op a b =>
    simp only [YExp.typ] at h
    split at h
    · rename_i hc
      cases h
      obtain ⟨⟨s1, e1, n1⟩, ⟨s2, e2, n2⟩⟩ := hc
      obtain ⟨u, hu, rfl⟩ := readYExp_typ hL a s1 e1
      obtain ⟨w, hw, rfl⟩ := readYExp_typ hL b s2 e2
      obtain ⟨h1, h2⟩ := dispatch_num hL (op := op.sym) (by cases op <;> simp [YBin.sym]) n1 n2
      exact ⟨_, by simp only [readYExp, hu, hw, h1], h2⟩
    · cases h
  | .multi op a b rest =>
    simp only [YExp.typ] at h
    split at h
    · rename_i hc
      cases h
      obtain ⟨⟨s1, e1, n1⟩, ⟨s2, e2, n2⟩, hr⟩ := hc
      obtain ⟨u, hu, rfl⟩ := readYExp_typ hL a s1 e1
      obtain ⟨w, hw, rfl⟩ := readYExp_typ hL b s2 e2
      obtain ⟨us, hus, hn⟩ := readYExps_typ hL rest hr
      obtain ⟨r, h1, h2⟩ := chain_numOK hL (op := op.sym) (by cases op <;> simp [YMulti.sym]) us u w n1 (by
        intro x hx
        simp only [List.mem_cons] at hx
        rcases hx with rfl | hx
        · exact n2
        · exact hn x hx)
      exact ⟨r, by simp only [readYExp, hu, hw, hus, h1], h2⟩
    · cases h
  | .minus a => simp [YExp.typ] at h
  | .head f args =>
    rw [YExp.typ] at h
    rw [readYExp]
    exact readYTerm_typ _ s h
  | .headId f =>
    rw [YExp.typ] at h
    rw [readYExp]
    exact readYTerm_typ _ s h
theorem readYExps_typ {L : YLang} (hL : YStd L) {sc : YScope} (ts : List YExp) (h : ExpsNum L sc.types ts) :
    ∃ us, readYExps L sc ts = .ok us ∧ ∀ x ∈ us, L.base.sub (L.base.sortOf x) "Real" = true := by
  match ts with
  | [] => exact ⟨[], rfl, by simp⟩
  | t :: ts =>
    simp only [ExpsNum] at h
    obtain ⟨⟨s, e, n⟩, h2⟩ := h
    obtain ⟨u, hu, rfl⟩ := readYExp_typ hL t s e
    obtain ⟨us, hus, hn⟩ := readYExps_typ hL ts h2
    exact ⟨u :: us, by simp only [readYExps, hu, hus], by simpa using ⟨n, hn⟩⟩
end

theorem compareTerms_typ {L : YLang} {c : Cmp} {t u : Term} (h1 : L.base.sub (L.base.sortOf t) (if c = .eq ∨ c = .ne then "object" else "Real") = true)
    (h2 : L.base.sub (L.base.sortOf u) (if c = .eq ∨ c = .ne then "object" else "Real") = true) : compareTerms L c t u = .ok (.atom (.cmp c) [t, u]) := by
  unfold compareTerms
  have : L.base.checkArgs (if c = .eq ∨ c = .ne then ["object", "object"] else ["Real", "Real"]) [t, u] = .ok () := by
    apply checkArgs_ok
    · split <;> rfl
    · split at h1 <;> rename_i hc <;> simp only [hc, if_true, if_false] at h1 h2 ⊢ <;> simp [h1, h2]
  rw [this]

theorem readYLit_typ {L : YLang} (hL : YStd L) {sc : YScope} (a : YAtom) (b : Bool) (h : a.Legal L sc.types) : ∃ f, readYLit L sc a b = .ok f := by
  cases a with
  | pred p args =>
    simp only [YAtom.Legal, YTerm.typ] at h
    split at h
    · rename_i dom cod ss hs ha
      split at h
      · rename_i hc
        simp only [Option.some.injEq] at h
        subst h
        obtain ⟨us, hu, rfl⟩ := readYTerms_typ args ss ha
        have hsort : L.base.sortOf (.app p us) = "Bool" := by simp [RddlLang.sortOf, hs]
        simp only [readYLit, readYAtom, hu, hs, checkArgs_ok (by simpa using hc.1) hc.2, eqNumber, hsort]
        have h1 : L.castOk "Bool" (if b then 1 else 0) = true := by cases b; exact hL.cast0; exact hL.cast1
        rw [if_pos h1, checkArgs_ok rfl (by simp [hs, RddlLang.sortOf, hL.bool])]
        exact ⟨_, rfl⟩
      · cases h
    · cases h
  | eq x y =>
    obtain ⟨s, t, h1, h2, h3, h4⟩ := h
    obtain ⟨u, hu, rfl⟩ := readYTerm_typ x s h1
    obtain ⟨w, hw, rfl⟩ := readYTerm_typ y t h2
    simp only [readYLit, readYAtom, hu, hw, compareTerms_typ (c := .eq) (by simpa using h3) (by simpa using h4)]
    exact ⟨_, rfl⟩

theorem normalizeVars_typ {L : YLang} (hL : YStd L) : ∀ (toks : List VTok) (pending : List String), (∀ t, VTok.type t ∈ toks → primitiveType t ∈ L.types) →
    ∃ vs, normalizeVars L pending toks = .ok vs := by
  intro toks
  induction toks with
  | nil => intro pending _; exact ⟨_, by rw [normalizeVars, if_pos hL.object]⟩
  | cons tok toks ih =>
    intro pending h
    cases tok with
    | var n => exact (ih (pending ++ [n]) (fun t ht => h t (by simp [ht]))).imp fun vs hv => by rw [normalizeVars, hv]
    | type t =>
      obtain ⟨vs, hv⟩ := ih [] (fun t ht => h t (by simp [ht]))
      exact ⟨_, by rw [normalizeVars, if_pos (h t (by simp)), hv]⟩

theorem types_enter : ∀ (tvs : List (String × Option String)) (sc : YScope),
    (enterScope sc (tvs.map (fun p => ⟨p.1, typeSort p.2⟩))).types = declare sc.types tvs := by
  intro tvs
  induction tvs with
  | nil => intro sc; rfl
  | cons p tvs ih =>
    intro sc
    simp only [List.map_cons, enterScope, List.foldl_cons, declare]
    have := ih (dinsert sc p.1 ⟨p.1, typeSort p.2⟩)
    simp only [enterScope, declare] at this
    rw [this]
    congr 1
    funext x
    simp only [YScope.types, dlookup_dinsert]
    by_cases hx : x = p.1
    · simp [hx]
    · rw [if_neg (fun e => hx e.symm), if_neg hx]

theorem leave_enter : ∀ (vs : List Var) (sc : YScope), (vs.map (·.sym)).Nodup → (∀ x ∈ vs.map (·.sym), dlookup sc x = none) →
    leaveScope (enterScope sc vs) vs = .ok sc := by
  intro vs sc hn hd
  have h1 : ∀ (vs : List Var) (sc : YScope), (vs.map (·.sym)).Nodup → (∀ x ∈ vs.map (·.sym), dlookup sc x = none) →
      enterScope sc vs = sc ++ vs.map (fun v => (v.sym, v)) := by
    intro vs
    induction vs with
    | nil => intro sc _ _; simp [enterScope]
    | cons v vs ih =>
      intro sc hn hd
      simp only [List.map_cons, List.nodup_cons] at hn
      have h2 := hd v.sym (by simp)
      simp only [enterScope, List.foldl_cons]
      have h3 := ih (dinsert sc v.sym v) hn.2 (by
        intro x hx
        rw [dlookup_dinsert, if_neg (by rintro rfl; exact hn.1 hx)]
        exact hd x (by simp [hx]))
      simp only [enterScope] at h3
      rw [h3, dinsert_new sc v.sym v h2]
      simp
  rw [h1 vs sc hn hd]
  clear h1
  induction vs with
  | nil => simp [leaveScope]
  | cons v vs ih =>
    simp only [List.map_cons, List.nodup_cons] at hn
    have hv : (dlookup (sc ++ (v.sym, v) :: vs.map (fun v => (v.sym, v))) v.sym).isSome = true := by
      rw [Option.isSome_iff_ne_none, Ne, dlookup_none]
      simp
    have hdel : ddelete (sc ++ (v.sym, v) :: vs.map (fun v => (v.sym, v))) v.sym = sc ++ vs.map (fun v => (v.sym, v)) := by
      have h2 : v.sym ∉ sc.map (·.1) := by
        have := hd v.sym (by simp)
        rwa [dlookup_none] at this
      simp only [ddelete, List.filter_append, List.filter_cons, ne_eq, not_true_eq_false, decide_false, Bool.false_eq_true, if_false]
      congr 1
      · apply List.filter_eq_self.2
        intro kv hkv
        simp only [decide_eq_true_eq]
        rintro e
        exact h2 (e ▸ List.mem_map_of_mem (f := (·.1)) hkv)
      · apply List.filter_eq_self.2
        intro kv hkv
        simp only [decide_eq_true_eq]
        obtain ⟨w, hw, rfl⟩ := List.mem_map.1 hkv
        rintro e
        exact hn.1 (e ▸ List.mem_map_of_mem (f := (·.sym)) hw)
    simp only [List.map_cons, leaveScope, hv, if_true, hdel]
    exact ih hn.2 fun x hx => hd x (by simp only [List.map_cons, List.mem_cons]; exact .inr hx)

mutual
theorem readGD_typ {L : YLang} (hL : YStd L) (g : YGD) (sc : YScope) (h : g.Legal L sc.types) : ∃ f, readGD L g sc = .ok (f, sc) := by
  match g with
  | .lit a =>
    obtain ⟨f, hf⟩ := readYLit_typ hL a true (by simpa only [YGD.Legal] using h)
    exact ⟨f, by simp only [readGD, hf]⟩
  | .notLit a =>
    obtain ⟨f, hf⟩ := readYLit_typ hL a false (by simpa only [YGD.Legal] using h)
    exact ⟨f, by simp only [readGD, hf]⟩
  | .and gs =>
    obtain ⟨f, hf⟩ := readGDs_typ hL gs sc (by simpa only [YGD.Legal] using h)
    exact ⟨land f, by simp only [readGD, hf]⟩
  | .or gs =>
    obtain ⟨f, hf⟩ := readGDs_typ hL gs sc (by simpa only [YGD.Legal] using h)
    exact ⟨lor f, by simp only [readGD, hf]⟩
  | .not g =>
    obtain ⟨f, hf⟩ := readGD_typ hL g sc (by simpa only [YGD.Legal] using h)
    exact ⟨neg f, by simp only [readGD, hf]⟩
  | .imply a b =>
    obtain ⟨h1, h2⟩ : a.Legal L sc.types ∧ b.Legal L sc.types := by simpa only [YGD.Legal] using h
    obtain ⟨f, hf⟩ := readGD_typ hL a sc h1
    obtain ⟨f', hf'⟩ := readGD_typ hL b sc h2
    exact ⟨lor [neg f, f'], by simp only [readGD, hf, hf']⟩
  | .quant q toks g =>
    simp only [YGD.Legal] at h
    obtain ⟨h1, h2, h3, h4⟩ := h
    obtain ⟨vs, hv⟩ := normalizeVars_typ hL toks [] h3
    obtain ⟨e, -, -⟩ := normalizeVars_ok _ _ _ hv
    simp only [List.map_nil, List.nil_append] at e
    obtain ⟨f, hf⟩ := readGD_typ hL g (enterScope sc vs) (by rw [e, types_enter]; exact h4)
    have hl : leaveScope (enterScope sc vs) vs = .ok sc := by
      have em : vs.map (·.sym) = (typedVars toks).map Prod.fst := by rw [e, List.map_map]; rfl
      refine leave_enter vs sc (by rw [em]; exact h1) ?_
      rw [em]
      intro x hx
      simpa [YScope.types] using h2 x hx
    exact ⟨.quant q (vs.map .var) f, by simp only [readGD, hv, hf, hl]⟩
  | .comp c a b =>
    simp only [YGD.Legal] at h
    obtain ⟨s, t, h1, h2, h3, h4⟩ := h
    obtain ⟨u, hu, rfl⟩ := readYExp_typ hL a s h1
    obtain ⟨w, hw, rfl⟩ := readYExp_typ hL b t h2
    exact ⟨.atom (.cmp c) [u, w], by simp only [readGD, hu, hw, compareTerms_typ h3 h4]⟩
theorem readGDs_typ {L : YLang} (hL : YStd L) (gs : List YGD) (sc : YScope) (h : YGD.Legals L gs sc.types) : ∃ fs, readGDs L gs sc = .ok (fs, sc) := by
  match gs with
  | [] => exact ⟨[], rfl⟩
  | g :: gs =>
    obtain ⟨h1, h2⟩ : g.Legal L sc.types ∧ YGD.Legals L gs sc.types := by simpa only [YGD.Legals] using h
    obtain ⟨f, hf⟩ := readGD_typ hL g sc h1
    obtain ⟨fs, hfs⟩ := readGDs_typ hL gs sc h2
    exact ⟨f :: fs, by simp only [readGDs, hf, hfs]⟩
end

/-! ### Theorems -/

/-- C92: a condition that is read has the meaning that PDDL gives it, in every interpretation and for all values of the
variables in scope. -/
theorem C92_meaning {D} {L : YLang} {S : YSem D} {I : Interp D} (hf : YFits L S I) (g : YGD) (hp : PredsOK L g) (sc : YScope) (f : Formula) (sc' : YScope)
    (h : readGD L g sc = .ok (f, sc')) (σ : Asg D) (env : String → D) (ha : AgreeOn sc σ env) : Sat I f σ ↔ g.mean S env :=
  readGD_sem hf g hp sc f sc' h σ env ha

/-- C92: reading a condition leaves no variable in scope that was not there before. -/
theorem C92_scope {L : YLang} (g : YGD) (sc : YScope) (f : Formula) (sc' : YScope) (h : readGD L g sc = .ok (f, sc')) (x : String) (v : Var)
    (hx : dlookup sc' x = some v) : dlookup sc x = some v := readGD_scope g sc f sc' h x v hx

/-- C92: every legal condition in which no quantifier declares a variable that is in scope is accepted, and the scope is as
before. -/
theorem C92_accepts_partial {L : YLang} (hL : YStd L) (g : YGD) (sc : YScope) (h : g.Legal L (fun x => (dlookup sc x).map (·.sort))) :
    ∃ f, readGD L g sc = .ok (f, sc) := readGD_typ hL g sc h

/-- An instance with the types `object` and `truck`, the constants `t1` and `home`, a predicate and a numeric function. -/
def exYLang : YLang where
  base := {
    sym := fun n => if n = "t1" then some (.const "truck") else if n = "home" then some (.const "object")
      else if n = "at" then some (.fn ["truck", "object"] "Bool") else if n = "fuel" then some (.fn ["truck"] "Real") else none
    sub := fun a b => a == b || b == "object" || (a == "Integer" && b == "Real")
    parent := fun _ => none
    dom := fun _ => .ok []
    zeroOk := fun _ => true }
  types := ["object", "truck"]
  castOk := fun s _ => s == "Bool" || s == "Integer" || s == "Real"

theorem exYLang_std : YStd exYLang where
  cast0 := by simp [exYLang]
  cast1 := by simp [exYLang]
  bool := by simp [exYLang]
  real := by simp [exYLang]
  ops := by simp [exYLang]
  object := by simp [exYLang]

/-- `(forall (?x ?y - truck ?l) (imply (and (at ?x ?l) (not (= ?x ?y))) (>= (+ (fuel ?y) (fuel t1) 1) 2.5)))` -/
def exYGD : YGD := .quant .forall [.var "?x", .var "?y", .type "truck", .var "?l"]
  (.imply (.and [.lit (.pred "at" [.var "?x", .var "?l"]), .notLit (.eq (.var "?x") (.var "?y"))])
    (.comp .ge (.multi .plus (.head "fuel" [.var "?y"]) (.head "fuel" [.id "t1"]) [.nat 1]) (.real "2.5")))

theorem exYGD_legal : exYGD.Legal exYLang (fun _ => none) := by
  simp [exYGD, YGD.Legal, YGD.Legals, typedVars, nextType, primitiveType, exYLang, YAtom.Legal, YTerm.typ, YTerm.typs, declare, typeSort, YExp.typ, NumT, ExpsNum]

/-- It is accepted. -/
example : ∃ f, readGD exYLang exYGD [] = .ok (f, []) := C92_accepts_partial exYLang_std exYGD [] exYGD_legal

/-- What is read. -/
example : readGD exYLang exYGD [] = .ok (.quant .forall [.var ⟨"?x", "truck"⟩, .var ⟨"?y", "truck"⟩, .var ⟨"?l", "object"⟩]
    (.comp .tuple .or [.comp .list .not [.comp .tuple .and [
        .atom (.cmp .eq) [.app "at" [.var ⟨"?x", "truck"⟩, .var ⟨"?l", "object"⟩], .const (.int 1) "Bool"],
        .comp .list .not [.atom (.cmp .eq) [.var ⟨"?x", "truck"⟩, .var ⟨"?y", "truck"⟩]]]],
      .atom (.cmp .ge) [.app "+" [.app "+" [.app "fuel" [.var ⟨"?y", "truck"⟩], .app "fuel" [.const (.str "t1") "truck"]], .const (.int 1) "Integer"],
        .const (.str "2.5") "Real"]]), []) := by
  simp [exYGD, readGD, readGDs, normalizeVars, primitiveType, exYLang, enterScope, dinsert, readYLit, readYAtom, readYTerms, readYTerm, dlookup,
    RddlLang.checkArgs, RddlLang.sortOf, eqNumber, compareTerms, readYExp, readYExps, YMulti.sym, AggLang.chain, AggLang.dispatch, RddlLang.agg, leaveScope, ddelete, land, lor, neg, createCompound, toBinaryTree]

/-- Two objects, a truck that is the number 3 and a place that is the number 4. -/
def exYSem : YSem Int where
  nat n := n
  real _ := 2
  obj n := if n = "t1" then 3 else 4
  val f ds := if f = "at" then (if ds = [3, 4] then 1 else 0) else 1
  holds _ ds := ds = [3, 4]
  cmp c a b := match c with
    | .eq => a = b
    | .ne => a ≠ b
    | .lt => a < b
    | .le => a ≤ b
    | .gt => a > b
    | .ge => a ≥ b
  arith op a b := if op = "+" then a + b else if op = "-" then a - b else if op = "*" then a * b else a / b
  neg a := -a
  isType t d := if t = "truck" then d = 3 else if t = "number" then True else d = 3 ∨ d = 4

def exYInterp : Interp Int where
  const c s := if s = "Real" then 2 else match c with
    | .int n => n
    | .str n => if n = "t1" then 3 else 4
    | .pyNone => 4
  fn f ds := match ds with
    | [a, b] => if f = "at" then (if a = 3 ∧ b = 4 then 1 else 0) else if f = "fuel" then 1 else exYSem.arith f a b
    | _ => if f = "at" then 0 else 1
  pred p ds := match p, ds with
    | .cmp c, [a, b] => exYSem.cmp c a b
    | _, _ => False
  sort s d := if s = "truck" then d = 3 else d = 3 ∨ d = 4

theorem exYFits : YFits exYLang exYSem exYInterp where
  nat n := by simp [exYInterp, exYSem]
  real s := by simp [exYInterp, exYSem]
  obj c s h := by
    have : s = "truck" ∨ s = "object" := by
      simp only [exYLang] at h
      repeat' split at h
      all_goals first | (cases h; simp) | cases h
    rcases this with rfl | rfl <;> simp [exYInterp, exYSem]
  val f dom cod h ds := by
    have : f = "at" ∨ f = "fuel" := by
      simp only [exYLang] at h
      repeat' split at h
      all_goals simp_all
    rcases this with rfl | rfl
    · match ds with
      | [] => simp [exYInterp, exYSem]
      | [_] => simp [exYInterp, exYSem]
      | [a, b] => simp [exYInterp, exYSem]
      | _ :: _ :: _ :: _ => simp [exYInterp, exYSem]
    · match ds with
      | [] => simp [exYInterp, exYSem]
      | [_] => simp [exYInterp, exYSem]
      | [a, b] => simp [exYInterp, exYSem]
      | _ :: _ :: _ :: _ => simp [exYInterp, exYSem]
  holds p dom h ds := by
    have : p = "at" := by
      simp only [exYLang] at h
      repeat' split at h
      all_goals simp_all
    subst this
    match ds with
    | [] => simp [exYInterp, exYSem]
    | [_] => simp [exYInterp, exYSem]
    | [a, b] => simp [exYInterp, exYSem]
    | _ :: _ :: _ :: _ => simp [exYInterp, exYSem]
  bools := by simp [exYInterp]
  eq a b := Iff.rfl
  cmp c a b := Iff.rfl
  arith op h a b := by
    have h1 : op ≠ "at" := by rintro rfl; simp at h
    have h2 : op ≠ "fuel" := by rintro rfl; simp at h
    simp [exYInterp, h1, h2]
  types w h d := by
    have : w = "truck" := by
      simp only [exYLang, primitiveType, List.mem_cons, List.not_mem_nil, or_false] at h
      repeat' split at h
      all_goals simp_all
    subst this
    simp [exYInterp, exYSem, primitiveType]
  object d := by simp [exYInterp, exYSem]

/-- The theorem about the meaning applies to the example. -/
example (f : Formula) (sc' : YScope) (h : readGD exYLang exYGD [] = .ok (f, sc')) (σ : Asg Int) : Sat exYInterp f σ ↔ exYGD.mean exYSem (fun _ => 0) :=
  C92_meaning exYFits exYGD (by simp [exYGD, PredsOK, PredsAll, exYLang]) [] f sc' h σ (fun _ => 0) (by intro x v hx; simp [dlookup] at hx)

/-- C92 refuted in general: a quantifier may not declare a variable again that an outer quantifier has declared, although PDDL
allows it. -/
theorem C92_shadow_refuted : ∃ g : YGD, (∀ {D} (S : YSem D) env, g.mean S env) ∧ readGD exYLang g [] = .error .keyError := by
  refine ⟨.quant .forall [.var "?x", .type "truck"] (.quant .forall [.var "?x", .type "truck"] (.lit (.eq (.var "?x") (.var "?x")))), ?_, ?_⟩
  · intro D S env
    simp [YGD.mean, typedVars, nextType, rangeOver, YAtom.mean]
  · simp [readGD, normalizeVars, primitiveType, exYLang, enterScope, dinsert, readYLit, readYAtom, readYTerm, dlookup, RddlLang.checkArgs, RddlLang.sortOf,
      compareTerms, leaveScope, ddelete]

/-- C92 refuted in general: the negative of an expression is never read. -/
theorem C92_minus_refuted (L : YLang) (sc : YScope) (a : YExp) : ∀ t, readYExp L sc (.minus a) ≠ .ok t := by
  intro t h
  rw [readYExp] at h
  split at h <;> cases h

/-- C92 refuted in general: a variable that is explicitly of the type `object` is rejected, although without a type it is
accepted. -/
theorem C92_object_refuted : readGD exYLang (.quant .exists [.var "?x", .type "object"] (.lit (.eq (.var "?x") (.id "home")))) [] = .error .semantic ∧
    ∃ f, readGD exYLang (.quant .exists [.var "?x"] (.lit (.eq (.var "?x") (.id "home")))) [] = .ok (f, []) := by
  constructor
  · simp [readGD, normalizeVars, primitiveType, exYLang]
  · refine C92_accepts_partial exYLang_std _ [] ?_
    simp [YGD.Legal, typedVars, nextType, YAtom.Legal, YTerm.typ, declare, typeSort, exYLang, dlookup]

/-- C92: with the other derivation that the grammar has for `(= ?x home)`, as a comparison of numeric expressions, the constant
would be read as the name of a function, and rejected. -/
theorem C92_constant_refuted : ∃ e, readGD exYLang (.quant .exists [.var "?x"] (.comp .eq (.var "?x") (.headId "home"))) [] = .error e := by
  refine ⟨.typeError, ?_⟩
  simp [readGD, normalizeVars, exYLang, enterScope, dinsert, readYExp, readYTerm, readYTerms, dlookup]

end Tarski

import Verif.PddlDecl
import Verif.PddlEffSpec
import Verif.PddlInitSpec
import Verif.PddlSem
/-! Specification side of the round trip of whole problems through PDDL text: which problems PDDL can express, and when two
problems are the same. -/
namespace Tarski

/-- A sort that the user declared, or `object`. -/
def UserSort (D : PDecls) (s : String) : Prop := s = "object" ∨ ∃ d ∈ D.sorts, d.name = s

/-- The parent of a sort, declared after the sorts `pre`: a sort without bounds lies below `object` or an earlier sort; an
interval lies below `Integer`, with bounds within those of `Integer`. -/
def OkParent (D : PDecls) (pre : List SDecl) (d : SDecl) : Prop :=
  (d.bounds = none ∧ (d.parent = "object" ∨ ∃ e ∈ pre, e.name = d.parent)) ∨
  (D.numeric = true ∧ d.parent = "Integer" ∧ ∃ l u : Int, d.bounds = some (l, u) ∧ -(2 ^ 31 - 1) ≤ l ∧ u ≤ 2 ^ 31 - 1)

/-- The declarations can be written in PDDL: lower-case identifiers, all different, intervals of integers, objects of sorts
without bounds, signatures without the builtin sorts. -/
structure OkDecls (D : PDecls) : Prop where
  sorts : ∀ d ∈ D.sorts, PName d.name ∧ d.name ≠ "real"
  parents : ∀ pre d post, D.sorts = pre ++ d :: post → OkParent D pre d
  consts : ∀ c ∈ D.consts, (∃ n, c.1 = .str n ∧ PName n) ∧ UserSort D c.2 ∧ D.bounds c.2 = none
  preds : ∀ p ∈ D.preds, PName p.1 ∧ ∀ s ∈ p.2, UserSort D s
  funs : ∀ f ∈ D.funs, PName f.1 ∧ (∀ s ∈ f.2.1, UserSort D s) ∧ UserSort D f.2.2
  distinct : ((D.sorts.map (fun d => Name.str d.name)) ++ D.consts.map (·.1) ++ D.preds.map (fun p => Name.str p.1) ++
    D.funs.map (fun f => Name.str f.1)).Nodup
  noIte : D.arithmetic = true → Name.str "ite" ∉ (D.sorts.map (fun d => Name.str d.name)) ++ D.consts.map (·.1) ++
    D.preds.map (fun p => Name.str p.1) ++ D.funs.map (fun f => Name.str f.1)
  cost : D.numeric = true ∨ dlookup D.funs "total-cost" = none

/-- The domain part of a problem can be written in PDDL, with the constants `dom` in the domain file. -/
structure OkDomain (p : PProblem) (dom : List (Name × String)) : Prop where
  domainName : AName p.domainName
  decls : OkDecls p.lang
  domSub : dom ⊆ p.lang.consts
  domNodup : dom.Nodup
  actions : ∀ a ∈ p.actions, OkAction ({ p.lang with consts := dom } : PDecls).rlang p.lang.real a
  actionNames : (p.actions.map PAction.name).Nodup
  noDerived : p.derived = []

/-- The problem can be written in PDDL, with the constants `dom` in the domain file and the others in the instance file. -/
structure OkProblem (p : PProblem) (dom : List (Name × String)) : Prop where
  domain : OkDomain p dom
  name : AName p.name
  init : ∃ ops, p.init = MState.empty.run p.lang.mlang ops
  facts : ∀ q pt, p.init.holds p.lang.mlang q pt = true → AtomExpressible p.lang.mlang p.lang.rlang q pt
  values : ∀ f pt v, p.init.value p.lang.mlang f pt = .ok v → ValueExpressible p.lang.mlang p.lang.rlang f pt v
  goal : ∃ g, p.goal = some g ∧ OkF p.lang.rlang p.lang.real [] g
  metric : ∀ mn t, p.metric = some (mn, t) → (∃ f ts, t = .app f ts) ∧ OkT p.lang.rlang p.lang.real [] t

/-- Two languages with the same theories, the same sorts with the same parents and bounds, the same predicates and functions
with the same signatures, and the same constants. -/
structure SameDecls (D D' : PDecls) : Prop where
  equality : D'.equality = D.equality
  arithmetic : D'.arithmetic = D.arithmetic
  special : D'.special = D.special
  sorts : D'.sorts = D.sorts
  preds : D'.preds = D.preds
  funs : D'.funs = D.funs
  consts : D'.consts.Perm D.consts

/-- Two actions with the same name, the same parameters up to their PDDL names and, in every interpretation that gives `=`,
`!=` and 0 and 1 their meaning and for all values of the parameters, the same truth value of the precondition, effects that
demand the same changes one by one, and the same cost, where the cost of the first one is given separately. -/
def SameAction (a : PAction) (cost : Option Term) (a' : PAction) : Prop :=
  a'.name = a.name ∧ a'.params = a.params.map pvar ∧
  ∀ (D : Type) (I : Interp D), EqMeaning I → ∀ (σ τ : Asg D), (∀ v ∈ a.params, σ v = τ (pvar v)) →
    (Sat I a.pre σ ↔ Sat I a'.pre τ) ∧
    List.Forall₂ (fun e e' => ∀ ch, Demands I e σ ch ↔ Demands I e' τ ch) a.effs a'.effs ∧
    cost.map (fun t => evalT I t σ) = a'.cost.map (fun t => evalT I t τ)

/-- The cost of an action in a problem: an action without cost is free if some action of the problem has a cost. -/
def costIn (as : List PAction) (a : PAction) : Option Term :=
  match a.cost with
  | some t => some t
  | none => if as.any (fun b => b.cost.isSome) then some (.const (.int 0) "Integer") else none

/-- The domain that was read has the theories, sorts, predicates and functions of the problem, the given constants, and the
same actions; the bounds of the intervals are not in the domain file, they are those of `Integer` so far. -/
structure SameDomain (p : PProblem) (dom : List (Name × String)) (P : PDomain) : Prop where
  name : P.name = p.domainName
  equality : P.lang.equality = p.lang.equality
  arithmetic : P.lang.arithmetic = p.lang.arithmetic
  special : P.lang.special = p.lang.special
  sorts : P.lang.sorts = p.lang.sorts.map
    (fun d => { d with bounds := d.bounds.map (fun _ => ((-2147483647 : Int), (2147483647 : Int))) })
  preds : P.lang.preds = p.lang.preds
  funs : P.lang.funs = p.lang.funs
  consts : P.lang.consts.Perm dom
  actions : List.Forall₂ (fun a a' => SameAction a (costIn p.actions a) a') p.actions P.actions

/-- Two problems that are the same but for the names of variables and the order of the constants: the same names and
language, the same initial state, goals with the same truth value, the same actions, the same metric. -/
structure SameProblem (p p' : PProblem) : Prop where
  name : p'.name = p.name
  domainName : p'.domainName = p.domainName
  lang : SameDecls p.lang p'.lang
  holds : ∀ q pt, p'.init.holds p'.lang.mlang q pt = p.init.holds p.lang.mlang q pt
  value : ∀ f pt, p'.init.value p'.lang.mlang f pt = p.init.value p.lang.mlang f pt
  goal : ∃ g g', p.goal = some g ∧ p'.goal = some g' ∧
    ∀ (D : Type) (I : Interp D), EqMeaning I → ∀ (σ τ : Asg D), (Sat I g σ ↔ Sat I g' τ)
  actions : List.Forall₂ (fun a a' => SameAction a (costIn p.actions a) a') p.actions p'.actions
  metric : ∀ (D : Type) (I : Interp D), EqMeaning I → ∀ (σ τ : Asg D),
    p.metric.map (fun m => (m.1, evalT I m.2 σ)) = p'.metric.map (fun m => (m.1, evalT I m.2 τ))

end Tarski

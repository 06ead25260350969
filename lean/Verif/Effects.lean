import Verif.QE
import Verif.Evaluator
import Verif.Flatten
/-! Model of action effects and state progression: /repo/src/tarski/fstrips/fstrips.py (effect classes),
/repo/src/tarski/search/operations.py, and the substitution of effects in
/repo/src/tarski/fstrips/representation.py:560-593. -/
namespace Tarski

/-- Effects: models `AddEffect`, `DelEffect`, `LiteralEffect`, `FunctionalEffect`, `UniversalEffect`
(fstrips.py:30-103). The atom of an add/delete effect is given by its predicate and subterms, the left-hand side of a
functional effect by its function symbol and subterms (line 69 checks it is a compound term). The variables of a
universal effect are variables (asserted in substitutions.py:40). Not modelled: procedural, choice, vectorised, linear
and black-box effects (fstrips.py:123-276), on which `apply_effect` raises like on literal effects. -/
inductive Effect where
  | add (cond : Formula) (p : PSym) (ts : List Term)
  | del (cond : Formula) (p : PSym) (ts : List Term)
  | lit (cond : Formula) (l : Formula)
  | assign (cond : Formula) (f : String) (ts : List Term) (rhs : Term)
  | univ (cond : Formula) (vs : List Var) (es : List Effect)

instance : Inhabited Effect := ⟨.add .top (.user "") []⟩

/-- `effect.condition` (fstrips.py:13-14). -/
def Effect.cond : Effect → Formula
  | .add c _ _ => c
  | .del c _ _ => c
  | .lit c _ => c
  | .assign c _ _ _ => c
  | .univ c _ _ => c

/-- `isinstance(eff, DelEffect)` -/
def Effect.isDel : Effect → Bool
  | .del _ _ _ => true
  | _ => false

mutual
/-- Nesting depth of universal effects, the bound on the recursion of `apply_effect`. -/
def edepth : Effect → Nat
  | .univ _ _ es => edepths es + 1
  | _ => 0
def edepths : List Effect → Nat
  | [] => 0
  | e :: es => max (edepth e) (edepths es)
end

mutual
/-- Models `substitute_expression` on effects (representation.py:560-593), for substitutions whose keys are variables
(those made by `enumerate_substitutions`), so that the head of the left-hand side of a functional effect is kept.
The condition of a universal effect is substituted twice (lines 574, 588). -/
def subE (s : Subst) : Effect → Effect
  | .add c p ts => .add (subF s c) p (subTs s ts)
  | .del c p ts => .del (subF s c) p (subTs s ts)
  | .lit c l => .lit (subF s c) (subF s l)
  | .assign c f ts r => .assign (subF s c) f (subTs s ts) (subT s r)
  | .univ c vs es => .univ (subF s (subF s c)) (vs.filter (fun v => (s.get? (.var v)).isNone)) (subEs s es)
def subEs (s : Subst) : List Effect → List Effect
  | [] => []
  | e :: es => subE s e :: subEs s es
end

/-- The domains of a list of variables: `[var.sort.domain() for var in variables]` (substitutions.py:41). -/
def domainsOf (dom : Domains) : List Var → Except Err (List (List Term))
  | [] => .ok []
  | v :: vs => match dom v.sort with
    | .error e => .error e
    | .ok d => match domainsOf dom vs with
      | .error e => .error e
      | .ok ds => .ok (d :: ds)

/-- Models `enumerate_substitutions` (substitutions.py:38-43). -/
def enumSubsts (dom : Domains) (vs : List Var) : Except Err (List Subst) :=
  match domainsOf dom vs with
  | .error e => .error e
  | .ok ds => .ok ((cart ds).map (createSubst (vs.map Term.var)))

/-- How `model.add`/`model.discard`/`model.set` see a subterm of an effect (model.py:21, 93). -/
def termArg : Term → Arg
  | .var v => .var v
  | .const n s => .const ⟨n, s⟩
  | .app _ _ => .term
  | .ite _ _ _ => .term

/-- The empty assignment used by `evaluate` when none is given (simple.py:29, 49): terms are unhashable
(terms.py:127), so the lookup raises TypeError. -/
def noSigma : Var → Except Err Const := fun _ => .error .typeError

/-- The names of builtin functions (builtins.py:22-50). -/
def builtinFunctionNames : List String :=
  ["+", "-", "*", "@", "/", "**", "%", "min", "max", "abs", "sin", "cos", "tan", "atan", "asin", "exp", "log", "erf",
   "erfc", "sgn", "sqrt", "normal", "gamma", "kron", "dirac", "bernoulli", "discrete", "poisson"]

/-- A call that mutates a model in a `for` loop: the exception, if any, propagates. -/
def raising (r : MState × Option Err) : Except Err MState :=
  match r.2 with
  | none => .ok r.1
  | some e => .error e

/-- Sequential execution of a list of steps, the first exception propagates. -/
def seqApply {α} (f : MState → α → Except Err MState) : MState → List α → Except Err MState
  | m, [] => .ok m
  | m, a :: as => match f m a with
    | .error e => .error e
    | .ok m' => seqApply f m' as

/-- Models `model.discard(effect.atom.predicate, ...)`; extensions never contain a builtin predicate, as `add` refuses
them, so discarding on a builtin predicate does nothing (model.py:123-128). -/
def MState.discardP (L : MLang) (m : MState) (p : PSym) (args : List Arg) : MState × Option Err :=
  match p with
  | .user n => m.discard L n args
  | .cmp _ => (m, none)

/-- Models `apply_effect` (operations.py:18-38); the first argument bounds the nesting of universal effects. -/
def applyFuel (L : MLang) (dom : Domains) : Nat → MState → Effect → Except Err MState
  | n, m, e =>
    match evFormula L m noSigma e.cond with
    | .error er => .error er
    | .ok false => .ok m
    | .ok true =>
      match e with
      | .add _ p ts => raising (m.add L p (ts.map termArg))
      | .del _ p ts => raising (m.discardP L p (ts.map termArg))
      | .lit _ _ => .error .runtime
      | .assign _ f ts r =>
        match evTerm L m noSigma .eval r with
        | .error er => .error er
        | .ok c => raising (m.set L f (builtinFunctionNames.contains f) (ts.map termArg) (.const c))
      | .univ _ vs es =>
        match enumSubsts dom vs with
        | .error er => .error er
        | .ok ss =>
          match n with
          | 0 => .error .runtime
          | n + 1 => seqApply (fun m s => seqApply (fun m e => applyFuel L dom n m (subE s e)) m es) m ss

/-- Models `apply_effect` (operations.py:18-38). -/
def applyEffect (L : MLang) (dom : Domains) (m : MState) (e : Effect) : Except Err MState :=
  applyFuel L dom (edepth e) m e

/-- Models `sorted(effects, key=lambda e: 0 if isinstance(e, DelEffect) else 1)` (operations.py:50): a stable sort. -/
def delsFirst (es : List Effect) : List Effect := es.filter (·.isDel) ++ es.filter (fun e => !e.isDel)

/-- Models `progress` (operations.py:41-53): works on a deep copy of the state. -/
def progress (L : MLang) (dom : Domains) (m : MState) (es : List Effect) : Except Err MState :=
  seqApply (applyEffect L dom) m (delsFirst es)

/-- A ground operator (action.py:55-63) or parameterless action. -/
structure Operator where
  pre : Formula
  effs : List Effect

/-- Models `is_applicable` (operations.py:9-11). -/
def isApplicable (L : MLang) (m : MState) (o : Operator) : Except Err Bool := evFormula L m noSigma o.pre

/-- Executing a sequence of operators: each must be applicable in the state it is applied to
(search/model.py:35-41). -/
def execPlan (L : MLang) (dom : Domains) : MState → List Operator → Except Err (Option MState)
  | m, [] => .ok (some m)
  | m, o :: os => match isApplicable L m o with
    | .error e => .error e
    | .ok false => .ok none
    | .ok true => match progress L dom m o.effs with
      | .error e => .error e
      | .ok m' => execPlan L dom m' os

/-- A lifted action (action.py:4-13). -/
structure Schema where
  params : List Var
  pre : Formula
  effs : List Effect

/-- The check of lines 12-17 and the construction of the operator's name in line 19 of action_grounding.py, which
joins the names of the constants and raises TypeError if one of them is not a string. -/
def checkBinding (s : Subst) : List Var → Except Err Unit
  | [] => .ok ()
  | v :: vs => match s.get? (.var v) with
    | none => .error .runtime
    | some (.const _ _) => checkBinding s vs
    | some _ => .error .runtime

/-- Line 19 of action_grounding.py. -/
def checkNames (s : Subst) : List Var → Except Err Unit
  | [] => .ok ()
  | v :: vs => match s.get? (.var v) with
    | some (.const (.str _) _) => checkNames s vs
    | _ => .error .typeError

/-- Models `ground_schema_into_plain_operator` (/repo/src/tarski/syntax/transform/action_grounding.py:6-24) with the
`PlainOperator` constructor (action.py:59-62), which flattens the precondition. -/
def groundSchema (a : Schema) (s : Subst) : Except Err Operator :=
  match checkBinding s a.params with
  | .error e => .error e
  | .ok _ => match checkNames s a.params with
    | .error e => .error e
    | .ok _ => .ok ⟨flatten (subF s a.pre), subEs s a.effs⟩

mutual
/-- Models `AffectedSymbolWalker` on one effect (fstrips/ops.py:63-102 with walker.py:103-123): symbols of the atoms of
add and delete effects and of the left-hand sides of functional effects, at any nesting depth; other effects raise. -/
def affectedE : Effect → Except Err (List PSym × List String)
  | .add _ p _ => .ok ([p], [])
  | .del _ p _ => .ok ([p], [])
  | .assign _ f _ _ => .ok ([], [f])
  | .lit _ _ => .error .runtime
  | .univ _ _ es => affectedEs es
/-- Models `collect_affected_symbols` (fstrips/ops.py:31-38) on the concatenated effects of all actions. -/
def affectedEs : List Effect → Except Err (List PSym × List String)
  | [] => .ok ([], [])
  | e :: es => match affectedE e with
    | .error er => .error er
    | .ok (ps, fs) => match affectedEs es with
      | .error er => .error er
      | .ok (ps', fs') => .ok (ps ++ ps', fs ++ fs')
end

end Tarski

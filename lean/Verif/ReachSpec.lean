import Verif.Reach
import Verif.Semantics
/-! Specification for the reachability logic program: the least model of a logic program, the states a planning
problem can reach, and the relaxed problem in which nothing is ever deleted and negations are ignored. -/
namespace Tarski

/-! ### Logic programs -/

/-- Whether the ASP solver reads a string as a variable: the first character that is not an underscore is an upper case
letter. -/
def isAspVar (s : String) : Bool :=
  match s.toList.dropWhile (· == '_') with
  | [] => false
  | c :: _ => c.isUpper

/-- An argument of a rule under a valuation of its variables. -/
def lpInst (θ : String → String) (a : String) : String := if isAspVar a then θ a else a

/-- The comparison relations on objects: equality is equality, complementary symbols are complementary. -/
structure CmpRel where
  rel : Cmp → String → String → Prop
  eq_iff : ∀ a b, rel .eq a b ↔ a = b
  compl : ∀ c a b, rel c.complement a b ↔ ¬ rel c a b

/-- Truth of an instance of a body literal, given the true ground atoms. -/
def LitTrue (R : CmpRel) (M : LPSym → List String → Prop) (θ : String → String) : LPLit → Prop
  | .pred s args => M s (args.map (lpInst θ))
  | .cmp c a b => R.rel c (lpInst θ a) (lpInst θ b)
  | .taut => True

/-- The least model of a logic program. -/
inductive LPDer (R : CmpRel) (P : List LPRule) : LPSym → List String → Prop where
  | rule (r : LPRule) (θ : String → String) (s : LPSym) (args : List String) : r ∈ P → r.head = .pred s args →
      (∀ s' as, LPLit.pred s' as ∈ r.body → LPDer R P s' (as.map (lpInst θ))) →
      (∀ c a b, LPLit.cmp c a b ∈ r.body → R.rel c (lpInst θ a) (lpInst θ b)) →
      LPDer R P s (args.map (lpInst θ))

/-! ### Planning -/

/-- A state: which ground atoms are true. Objects are given by the text of their name. -/
abbrev PState := String → List String → Prop

/-- The objects of a sort. -/
def OfSort (dom : Domains) (s d : String) : Prop :=
  ∃ cs n so, dom s = .ok cs ∧ Term.const n so ∈ cs ∧ nameText n = d

/-- The first-order interpretation given by a state. Function symbols, which the compiler refuses, are given no
meaning. -/
def stateInterp (dom : Domains) (R : CmpRel) (S : PState) : Interp String where
  const n _ := nameText n
  fn _ _ := ""
  pred p ds := match p with
    | .user n => S n ds
    | .cmp c => match ds with
      | [a, b] => R.rel c a b
      | _ => False
  sort := OfSort dom

/-- The ground atoms that an effect adds (`b = true`) or deletes (`b = false`) when executed under an assignment to the
parameters of the action. -/
inductive Causes (I : Interp String) (b : Bool) : Effect → Asg String → String → List String → Prop where
  | add c p ts σ : b = true → Sat I c σ → Causes I b (.add c (.user p) ts) σ p (evalTs I ts σ)
  | del c p ts σ : b = false → Sat I c σ → Causes I b (.del c (.user p) ts) σ p (evalTs I ts σ)
  | univ c vs es e σ τ p as : Sat I c σ → e ∈ es → (∀ v, v ∉ vs → τ v = σ v) → (∀ v ∈ vs, I.sort v.sort (τ v)) →
      Causes I b e τ p as → Causes I b (.univ c vs es) σ p as

/-- The action is applicable under the assignment `σ` to its parameters. -/
def ApplicableIn (I : Interp String) (a : Schema) (σ : Asg String) : Prop :=
  (∀ v ∈ a.params, I.sort v.sort (σ v)) ∧ Sat I a.pre σ

/-- The states that can be reached from the initial state: an atom is true after an action if it is added, or was true
and is not deleted. -/
inductive PReach (X : LPInput) (R : CmpRel) : PState → Prop where
  | init (S : PState) : (∀ p as, S p as ↔ ∃ ts, (p, ts) ∈ X.initAtoms ∧ as = evalTs (stateInterp X.dom R S) ts (fun _ => "")) →
      PReach X R S
  | step (S S' : PState) (n : String) (a : Schema) (σ : Asg String) : PReach X R S → (n, a) ∈ X.actions →
      ApplicableIn (stateInterp X.dom R S) a σ →
      (∀ p as, S' p as ↔ (∃ e ∈ a.effs, Causes (stateInterp X.dom R S) true e σ p as) ∨
        (S p as ∧ ¬ ∃ e ∈ a.effs, Causes (stateInterp X.dom R S) false e σ p as)) →
      PReach X R S'

/-! ### The relaxed problem -/

mutual
/-- The formula with its negations replaced by truth; with `incl`, negated comparisons are kept. -/
def dropNeg (incl : Bool) : Formula → Formula
  | .top => .top
  | .bot => .bot
  | .atom p ts => .atom p ts
  | .comp k .and fs => .comp k .and (dropNegs incl fs)
  | .comp k .or fs => .comp k .or (dropNegs incl fs)
  | .comp k .not fs =>
    if incl then match fs with
      | [.atom (.cmp c) ts] => .comp k .not [.atom (.cmp c) ts]
      | _ => .top
    else .top
  | .quant q vs f => .quant q vs (dropNeg incl f)
def dropNegs (incl : Bool) : List Formula → List Formula
  | [] => []
  | f :: fs => dropNeg incl f :: dropNegs incl fs
end

mutual
/-- Effects with the negations of their conditions dropped. -/
def dropNegE (incl : Bool) : Effect → Effect
  | .add c p ts => .add (dropNeg incl c) p ts
  | .del c p ts => .del (dropNeg incl c) p ts
  | .lit c l => .lit (dropNeg incl c) l
  | .assign c f ts r => .assign (dropNeg incl c) f ts r
  | .univ c vs es => .univ (dropNeg incl c) vs (dropNegEs incl es)
def dropNegEs (incl : Bool) : List Effect → List Effect
  | [] => []
  | e :: es => dropNegE incl e :: dropNegEs incl es
end

/-- A set of atoms is closed under the relaxed problem: it contains the initial atoms, and every atom added by an action
whose precondition, without negations, holds in it. -/
def RelaxClosed (X : LPInput) (R : CmpRel) (incl : Bool) (S : PState) : Prop :=
  (∀ p ts, (p, ts) ∈ X.initAtoms → S p (evalTs (stateInterp X.dom R S) ts (fun _ => ""))) ∧
  ∀ n a σ, (n, a) ∈ X.actions → ApplicableIn (stateInterp X.dom R S) ⟨a.params, dropNeg incl a.pre, a.effs⟩ σ →
    ∀ e ∈ a.effs, ∀ p as, Causes (stateInterp X.dom R S) true (dropNegE incl e) σ p as → S p as

/-- The atoms that can be reached in the relaxed problem: the least closed set. -/
def RelaxReach (X : LPInput) (R : CmpRel) (incl : Bool) : PState :=
  fun p as => ∀ S, RelaxClosed X R incl S → S p as

/-! ### Problems the compilation is meant for -/

/-- A term without function symbols, whose variable, if it is one, belongs to `V`, and whose constant, if it is one, is
not read as a variable by the solver. -/
def FlatT (V : Var → Prop) : Term → Prop
  | .var v => V v
  | .const n _ => isAspVar (nameText n) = false
  | _ => False

mutual
/-- A formula without function symbols, all of whose variables, free or bound, belong to `V`. -/
def FlatF (V : Var → Prop) : Formula → Prop
  | .top => True
  | .bot => True
  | .atom _ ts => ∀ t ∈ ts, FlatT V t
  | .comp _ _ fs => FlatFs V fs
  | .quant _ vs f => (∀ t ∈ vs, ∃ v, t = Term.var v ∧ V v) ∧ FlatF V f
def FlatFs (V : Var → Prop) : List Formula → Prop
  | [] => True
  | f :: fs => FlatF V f ∧ FlatFs V fs
end

/-- The constant is declared with sort `s` or with a sort below it in the hierarchy (of sorts that are not intervals). -/
inductive UnderSort (X : LPInput) (n : Name) : String → Prop where
  | base s : (n, s) ∈ X.consts → UnderSort X n s
  | step s p : UnderSort X n s → s ∈ X.sorts → X.interval s = false → X.parent s = some p → UnderSort X n p

/-- The variables of one action: they have different names in the logic program, which the solver reads as variables,
and their sorts are not intervals. -/
structure VarScope (X : LPInput) (V : Var → Prop) : Prop where
  name : ∀ v, V v → ∃ x, makeVarName v.sym = .ok x ∧ isAspVar x = true
  inj : ∀ v w, V v → V w → makeVarName v.sym = makeVarName w.sym → v = w
  sort : ∀ v, V v → v.sort ∈ X.sorts ∧ X.interval v.sort = false

/-- A condition of an action with parameters `ps`. -/
structure CondOK (V : Var → Prop) (ps : List Var) (f : Formula) : Prop where
  flat : FlatF V f
  rebind : NoRebind f
  free : ∀ v, FreeF v f → v ∈ ps

/-- An add effect of an action with parameters `ps`. -/
structure AddOK (V : Var → Prop) (ps : List Var) (c : Formula) (ts : List Term) : Prop where
  cond : CondOK V ps c
  args : ∀ t ∈ ts, FlatT V t
  free : ∀ v, Term.var v ∈ ts → v ∈ ps

/-- An effect of an action with parameters `ps`: the conditions of the adds are well-formed, and those under a universal
effect do not bind its variables again. -/
def EffOK (V : Var → Prop) (ps : List Var) : Effect → Prop
  | .add c _ ts => AddOK V ps c ts
  | .univ _ vs es => (∀ v ∈ vs, V v) ∧ ∀ c p ts, Effect.add c p ts ∈ es →
      AddOK V (ps ++ vs) c ts ∧ ∀ v ∈ vs, ¬ BoundF v c
  | _ => True

/-- Problems for which the compilation is faithful. -/
structure LPWellFormed (X : LPInput) : Prop where
  consts : ∀ n s, (n, s) ∈ X.consts → ∃ t, n = .str t ∧ uncapitalize t = .ok t ∧ isAspVar t = false
  constDoms : ConstDoms X.dom
  doms : ∀ s ∈ X.sorts, X.interval s = false →
    ∃ cs, X.dom s = .ok cs ∧ ∀ n, (∃ so, Term.const n so ∈ cs) ↔ UnderSort X n s
  init : ∀ p ts, (p, ts) ∈ X.initAtoms → ∀ t ∈ ts, ∃ n so, t = Term.const n so ∧ isAspVar (nameText n) = false
  actions : ∀ n a, (n, a) ∈ X.actions → ∃ V, VarScope X V ∧ (∀ v ∈ a.params, V v) ∧ CondOK V a.params a.pre ∧
    ∀ e ∈ a.effs, EffOK V a.params e
  goal : ∃ V, VarScope X V ∧ CondOK V [] X.goal

/-! ### Problems for which the program is exact -/

mutual
/-- Every negation is applied to an atom. -/
def NegAtoms : Formula → Prop
  | .top => True
  | .bot => True
  | .atom _ _ => True
  | .comp _ .not fs => ∃ p ts, fs = [.atom p ts]
  | .comp _ _ fs => NegAtomsL fs
  | .quant _ _ f => NegAtoms f
def NegAtomsL : List Formula → Prop
  | [] => True
  | f :: fs => NegAtoms f ∧ NegAtomsL fs
end

mutual
/-- The free variables of every existential subformula satisfy `U`, or are bound by a universal quantifier around it. -/
def ClosedEx : (Var → Prop) → Formula → Prop
  | _, .top => True
  | _, .bot => True
  | _, .atom _ _ => True
  | U, .comp _ _ fs => ClosedExs U fs
  | U, .quant .exists vs f => (∀ v, FreeF v f → Term.var v ∈ vs ∨ U v) ∧ ClosedEx U f
  | U, .quant .forall vs f => ClosedEx (fun v => U v ∨ Term.var v ∈ vs) f
def ClosedExs : (Var → Prop) → List Formula → Prop
  | _, [] => True
  | U, f :: fs => ClosedEx U f ∧ ClosedExs U fs
end

/-- A condition that is compiled without loss: no existential subformula has free variables other than those in `U`, which
are replaced by constants before; with `incl`, negations are applied to atoms. -/
def TightCond (incl : Bool) (U : Var → Prop) (f : Formula) : Prop := ClosedEx U f ∧ (incl = true → NegAtoms f)

/-- An effect whose conditions are compiled without loss. -/
def TightEff (incl : Bool) : Effect → Prop
  | .add c _ _ => TightCond incl (fun _ => False) c
  | .univ _ vs es => ∀ c p ts, Effect.add c p ts ∈ es → TightCond incl (fun v => v ∈ vs) c
  | _ => True

/-- Problems that are compiled without loss. -/
structure LPTight (X : LPInput) (incl : Bool) : Prop where
  names : (X.actions.map Prod.fst).Nodup
  actions : ∀ n a, (n, a) ∈ X.actions → TightCond incl (fun _ => False) a.pre ∧ ∀ e ∈ a.effs, TightEff incl e
  goal : TightCond incl (fun _ => False) X.goal

end Tarski

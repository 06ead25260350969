import Mathlib.Data.List.Forall2
import Verif.CompileNeg
import Verif.Props.Effects
import Verif.Props.Simplify
/-! Specification for C30: when the original and the compiled problem behave the same way. -/
namespace Tarski

/-- The tuple is made of elements enumerated for the argument sorts of the predicate. -/
def InSig (L : MLang) (dom : Domains) (p : String) (pt : List Const) : Prop :=
  List.Forall₂ (fun c s => ∃ d, dom s = .ok d ∧ c.toTerm ∈ d) pt (L.psorts p)

/-- The two states agree on all symbols but the complementary ones, which are complementary. -/
structure Complementary (L : MLang) (dom : Domains) (negs : List String) (m m' : MState) : Prop where
  same : ∀ x, (∀ p ∈ negs, x ≠ .pred (negName p)) → SameOn L m m' x
  neg : ∀ p ∈ negs, ∀ pt, InSig L dom p pt → m'.holds L (negName p) pt = !m.holds L p pt

/-- The literal `not p(ts)` occurs as a conjunct of the formula. -/
inductive NegConjunct (p : String) (ts : List Term) : Formula → Prop
  | here {k fs} : NegConjunct p ts (.comp k .not (.atom (.user p) ts :: fs))
  | sub {k fs f} : f ∈ fs → NegConjunct p ts f → NegConjunct p ts (.comp k .and fs)

/-- Predicates of the formula are declared. -/
def KnownF (used : List String) (f : Formula) : Prop := ∀ p, UsesF (.pred p) f → p ∈ used

/-- Not a disjunction. -/
def NotOr (f : Formula) : Prop := ∀ k fs, f ≠ .comp k .or fs

/-- Neither the precondition nor an effect condition is a disjunction. -/
def NoOrAct (a : Schema) : Prop := NotOr a.pre ∧ ∀ e ∈ a.effs, NotOr e.cond
/-- The conditions of the action mention declared predicates only. -/
def KnownAct (used : List String) (a : Schema) : Prop := KnownF used a.pre ∧ ∀ e ∈ a.effs, KnownF used e.cond

/-- The head of every add and delete is declared. -/
def KnownHeads (used : List String) (a : Schema) : Prop := ∀ e ∈ a.effs, ∀ p, e.Writes (.pred p) → p ∈ used

/-- All effects are adds and deletes whose instance is a well-typed ground atom. -/
def GroundEffs (L : MLang) (s : Subst) (es : List Effect) : Prop :=
  ∀ e ∈ es, ∃ c p ts pt, (e = .add c (.user p) ts ∨ e = .del c (.user p) ts) ∧ subTs s ts = pt.map Const.toTerm ∧ WellTyped L p pt

/-- A well-formed ground instance: constants for the parameters, adds and deletes of well-typed ground atoms, and the
arguments of negated literals denote elements of the argument sorts (`m0` is the initial state, functions are never
changed). -/
structure StepWF (L : MLang) (dom : Domains) (m0 : MState) (a : Schema) (s : Subst) : Prop where
  vals : ValsConst s
  ground : GroundEffs L s a.effs
  typed : ∀ f, (f = a.pre ∨ ∃ e ∈ a.effs, f = e.cond) → ∀ p ts, NegConjunct p ts f → ∀ m, (∀ g pt, m.value L g pt = m0.value L g pt) →
    ∀ pt, evTerms L m noSigma .eval (subTs s ts) = .ok pt → InSig L dom p pt

/-- What the proved part needs further: no disjunctions, no effect writes a symbol that some effect condition of the
action reads, and no atom of a complemented predicate is both added and deleted. -/
structure StepOK (L : MLang) (dom : Domains) (negs : List String) (m0 : MState) (a : Schema) (s : Subst) : Prop
    extends StepWF L dom m0 a s where
  noOr : NoOrAct a
  flow : ∀ e ∈ a.effs, ∀ e' ∈ a.effs, NoFlow e e'
  noBoth : ∀ p ∈ negs, ∀ c ts c' ts', .add c (.user p) ts ∈ a.effs → .del c' (.user p) ts' ∈ a.effs → subTs s ts ≠ subTs s ts'

/-- The steps of a plan given by positions in the list of actions and bindings. -/
def stepsOf (acts : List Schema) (plan : List (Nat × Subst)) : List (Schema × Subst) :=
  plan.map (fun is => (acts.getD is.1 ⟨[], .top, []⟩, is.2))

/-- Two executions have the same outcome: both raise, both meet an inapplicable operator, or both reach states that are
complementary and agree on the goal. -/
inductive SameRun (L : MLang) (dom : Domains) (negs : List String) (goal goal' : Formula) :
    Except Err (Option MState) → Except Err (Option MState) → Prop
  | raise {e e'} : SameRun L dom negs goal goal' (.error e) (.error e')
  | stuck : SameRun L dom negs goal goal' (.ok none) (.ok none)
  | reached {m m'} : Complementary L dom negs m m' → evFormula L m' noSigma goal' = evFormula L m noSigma goal →
      SameRun L dom negs goal goal' (.ok (some m)) (.ok (some m'))

/-- The problem mentions declared predicates only. -/
structure ProblemWF (used : List String) (acts : List Schema) (goal : Formula) : Prop where
  acts : ∀ a ∈ acts, KnownAct used a ∧ KnownHeads used a
  goal : KnownF used goal

/-- An atom, or a negated comparison. -/
def PosLit (l : Formula) : Prop := (∃ p ts, l = .atom p ts) ∨ ∃ k c ts fs, l = .comp k .not (.atom (.cmp c) ts :: fs)

/-- True, or a conjunction of atoms and negated comparisons. -/
def NegFree (g : Formula) : Prop := g = .top ∨ PosLit g ∨ ∃ k fs, g = .comp k .and fs ∧ ∀ l ∈ fs, PosLit l

end Tarski

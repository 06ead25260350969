import Mathlib.Tactic.Common
import Mathlib.Order.Basic
import Verif.Visitors
/-! C107: visitors of expressions and effects. -/
namespace Tarski

/-! ### Specification -/

mutual
/-- The number of occurrences of an expression in a term. -/
def countT (x : XExpr) : Term → Nat
  | .var v => if XExpr.term (.var v) = x then 1 else 0
  | .const n s => if XExpr.term (.const n s) = x then 1 else 0
  | .app f ts => (if XExpr.term (.app f ts) = x then 1 else 0) + countTs x ts
  | .ite c a b => (if XExpr.term (.ite c a b) = x then 1 else 0) + (countF x c + countT x a + countT x b)
def countTs (x : XExpr) : List Term → Nat
  | [] => 0
  | t :: ts => countT x t + countTs x ts
/-- The number of occurrences of an expression in a formula, those among the variables of quantifiers included. -/
def countF (x : XExpr) : Formula → Nat
  | .top => if XExpr.form .top = x then 1 else 0
  | .bot => if XExpr.form .bot = x then 1 else 0
  | .atom p ts => (if XExpr.form (.atom p ts) = x then 1 else 0) + countTs x ts
  | .comp k c fs => (if XExpr.form (.comp k c fs) = x then 1 else 0) + countFs x fs
  | .quant q vs f => (if XExpr.form (.quant q vs f) = x then 1 else 0) + (countTs x vs + countF x f)
def countFs (x : XExpr) : List Formula → Nat
  | [] => 0
  | f :: fs => countF x f + countFs x fs
end

/-- Atoms, compound and quantified formulas, and applications of function symbols: what `MatchExpression` can find. -/
def XExpr.Composite : XExpr → Prop
  | .term (.app _ _) => True
  | .form (.atom _ _) => True
  | .form (.comp _ _ _) => True
  | .form (.quant _ _ _) => True
  | _ => False

mutual
/-- The terms after a quantifier are variables, and no if-then-else term occurs. -/
def QPlainF : Formula → Prop
  | .top => True
  | .bot => True
  | .atom _ ts => NoIteTs ts
  | .comp _ _ fs => QPlainFs fs
  | .quant _ vs f => (∀ t ∈ vs, ∃ v, t = Term.var v) ∧ QPlainF f
def QPlainFs : List Formula → Prop
  | [] => True
  | f :: fs => QPlainF f ∧ QPlainFs fs
end

mutual
/-- A variable occurs in the term, outside of if-then-else terms. -/
def HasVarT : Term → Bool
  | .var _ => true
  | .const _ _ => false
  | .app _ ts => HasVarTs ts
  | .ite _ _ _ => false
def HasVarTs : List Term → Bool
  | [] => false
  | t :: ts => HasVarT t || HasVarTs ts
end

mutual
/-- A variable occurs in an atom of the formula, outside of if-then-else terms. -/
def HasVarF : Formula → Bool
  | .top => false
  | .bot => false
  | .atom _ ts => HasVarTs ts
  | .comp _ _ fs => HasVarFs fs
  | .quant _ _ f => HasVarF f
def HasVarFs : List Formula → Bool
  | [] => false
  | f :: fs => HasVarF f || HasVarFs fs
end

mutual
/-- The equality atoms of a formula, quantified or not. -/
def EqAtomOf (a : Formula) : Formula → Prop
  | .top => False
  | .bot => False
  | .atom p ts => p = .cmp .eq ∧ a = .atom p ts
  | .comp _ _ fs => EqAtomOfs a fs
  | .quant _ _ f => EqAtomOf a f
def EqAtomOfs (a : Formula) : List Formula → Prop
  | [] => False
  | f :: fs => EqAtomOf a f ∨ EqAtomOfs a fs
end

mutual
/-- Without quantifiers. -/
def OpenF : Formula → Prop
  | .comp _ _ fs => OpenFs fs
  | .quant _ _ _ => False
  | _ => True
def OpenFs : List Formula → Prop
  | [] => True
  | f :: fs => OpenF f ∧ OpenFs fs
end

mutual
/-- An effect and the effects nested in it, from the outside in and from left to right. -/
def subEffects : Effect → List Effect
  | .add c p ts => [.add c p ts]
  | .del c p ts => [.del c p ts]
  | .lit c l => [.lit c l]
  | .assign c f ts r => [.assign c f ts r]
  | .univ c vs es => .univ c vs es :: subEffectss es
def subEffectss : List Effect → List Effect
  | [] => []
  | e :: es => subEffects e ++ subEffectss es
end

/-- The expressions an effect itself consists of. -/
def effectExprs : Effect → List XExpr
  | .add _ p ts => [.form (.atom p ts)]
  | .del _ p ts => [.form (.atom p ts)]
  | .lit _ l => [.form l]
  | .assign _ f ts r => [.term (.app f ts), .term r]
  | .univ _ vs _ => vs.map fun v => .term (.var v)

/-! ### MatchExpression -/

theorem refEq_iff (a b : XExpr) : refEq a b = true ↔ a = b := by
  cases a <;> cases b <;> simp [refEq, termEq_iff, formulaEq_iff]

/-- Size of an expression. -/
noncomputable def XExpr.sz : XExpr → Nat
  | .term t => sizeOf t
  | .form f => sizeOf f

mutual
theorem countT_size (x : XExpr) : ∀ t : Term, sizeOf t < x.sz → countT x t = 0
  | .var v, h => by
    have : XExpr.term (.var v) ≠ x := fun e => by subst e; simp [XExpr.sz] at h
    simp [countT, this]
  | .const n s, h => by
    have : XExpr.term (.const n s) ≠ x := fun e => by subst e; simp [XExpr.sz] at h
    simp [countT, this]
  | .app f ts, h => by
    have : XExpr.term (.app f ts) ≠ x := fun e => by subst e; simp [XExpr.sz] at h
    simp only [Term.app.sizeOf_spec] at h
    simp [countT, this, countTs_size x ts (by omega)]
  | .ite c a b, h => by
    have : XExpr.term (.ite c a b) ≠ x := fun e => by subst e; simp [XExpr.sz] at h
    simp only [Term.ite.sizeOf_spec] at h
    simp [countT, this, countF_size x c (by omega), countT_size x a (by omega), countT_size x b (by omega)]
theorem countTs_size (x : XExpr) : ∀ ts : List Term, sizeOf ts < x.sz → countTs x ts = 0
  | [], _ => rfl
  | t :: ts, h => by
    simp only [List.cons.sizeOf_spec] at h
    simp [countTs, countT_size x t (by omega), countTs_size x ts (by omega)]
theorem countF_size (x : XExpr) : ∀ f : Formula, sizeOf f < x.sz → countF x f = 0
  | .top, h => by
    have : XExpr.form .top ≠ x := fun e => by subst e; simp [XExpr.sz] at h
    simp [countF, this]
  | .bot, h => by
    have : XExpr.form .bot ≠ x := fun e => by subst e; simp [XExpr.sz] at h
    simp [countF, this]
  | .atom p ts, h => by
    have : XExpr.form (.atom p ts) ≠ x := fun e => by subst e; simp [XExpr.sz] at h
    simp only [Formula.atom.sizeOf_spec] at h
    simp [countF, this, countTs_size x ts (by omega)]
  | .comp k c fs, h => by
    have : XExpr.form (.comp k c fs) ≠ x := fun e => by subst e; simp [XExpr.sz] at h
    simp only [Formula.comp.sizeOf_spec] at h
    simp [countF, this, countFs_size x fs (by omega)]
  | .quant q vs f, h => by
    have : XExpr.form (.quant q vs f) ≠ x := fun e => by subst e; simp [XExpr.sz] at h
    simp only [Formula.quant.sizeOf_spec] at h
    simp [countF, this, countTs_size x vs (by omega), countF_size x f (by omega)]
theorem countFs_size (x : XExpr) : ∀ fs : List Formula, sizeOf fs < x.sz → countFs x fs = 0
  | [], _ => rfl
  | f :: fs, h => by
    simp only [List.cons.sizeOf_spec] at h
    simp [countFs, countF_size x f (by omega), countFs_size x fs (by omega)]
end

theorem composite_var {x : XExpr} (hx : x.Composite) (v : Var) : XExpr.term (.var v) ≠ x := by
  rintro rfl; exact hx

mutual
theorem matchT_count {x : XExpr} (hx : x.Composite) : ∀ (t : Term) (h : Nat), NoIteT t → matchT x t h = h + countT x t
  | .var v, h, _ => by simp [matchT, countT, composite_var hx v]
  | .const n s, h, _ => by
    have : XExpr.term (.const n s) ≠ x := by rintro rfl; exact hx
    simp [matchT, countT, this]
  | .app f ts, h, hn => by
    simp only [matchT, countT]
    by_cases e : XExpr.term (.app f ts) = x
    · rw [if_pos ((refEq_iff _ _).2 e), if_pos e, countTs_size x ts (by subst e; simp [XExpr.sz]; omega)]
    · rw [if_neg (fun h => e ((refEq_iff _ _).1 h)), if_neg e, matchTs_count hx ts h hn]
      omega
  | .ite c a b, h, hn => by cases hn
theorem matchTs_count {x : XExpr} (hx : x.Composite) : ∀ (ts : List Term) (h : Nat), NoIteTs ts → matchTs x ts h = h + countTs x ts
  | [], h, _ => by simp [matchTs, countTs]
  | t :: ts, h, hn => by
    simp only [matchTs, countTs]
    rw [matchT_count hx t h hn.1, matchTs_count hx ts _ hn.2]
    omega
end

theorem countTs_vars {x : XExpr} (hx : x.Composite) : ∀ vs : List Term, (∀ t ∈ vs, ∃ v, t = Term.var v) → countTs x vs = 0
  | [], _ => rfl
  | t :: vs, h => by
    obtain ⟨v, rfl⟩ := h t (by simp)
    simp [countTs, countT, composite_var hx v, countTs_vars hx vs fun t ht => h t (by simp [ht])]

mutual
theorem matchF_count {x : XExpr} (hx : x.Composite) : ∀ (f : Formula) (h : Nat), QPlainF f → matchF x f h = h + countF x f
  | .top, h, _ => by
    have : XExpr.form .top ≠ x := by rintro rfl; exact hx
    simp [matchF, countF, this]
  | .bot, h, _ => by
    have : XExpr.form .bot ≠ x := by rintro rfl; exact hx
    simp [matchF, countF, this]
  | .atom p ts, h, hn => by
    simp only [matchF, countF]
    by_cases e : XExpr.form (.atom p ts) = x
    · rw [if_pos ((refEq_iff _ _).2 e), if_pos e, countTs_size x ts (by subst e; simp [XExpr.sz]; omega)]
    · rw [if_neg (fun h => e ((refEq_iff _ _).1 h)), if_neg e, matchTs_count hx ts h hn]
      omega
  | .comp k c fs, h, hn => by
    simp only [matchF, countF]
    by_cases e : XExpr.form (.comp k c fs) = x
    · rw [if_pos ((refEq_iff _ _).2 e), if_pos e, countFs_size x fs (by subst e; simp [XExpr.sz]; omega)]
    · rw [if_neg (fun h => e ((refEq_iff _ _).1 h)), if_neg e, matchFs_count hx fs h hn]
      omega
  | .quant q vs f, h, hn => by
    simp only [matchF, countF, countTs_vars hx vs hn.1]
    by_cases e : XExpr.form (.quant q vs f) = x
    · rw [if_pos ((refEq_iff _ _).2 e), if_pos e, countF_size x f (by subst e; simp [XExpr.sz]; omega)]
    · rw [if_neg (fun h => e ((refEq_iff _ _).1 h)), if_neg e, matchF_count hx f h hn.2]
      omega
theorem matchFs_count {x : XExpr} (hx : x.Composite) : ∀ (fs : List Formula) (h : Nat), QPlainFs fs → matchFs x fs h = h + countFs x fs
  | [], h, _ => by simp [matchFs, countFs]
  | f :: fs, h, hn => by
    simp only [matchFs, countFs]
    rw [matchF_count hx f h hn.1, matchFs_count hx fs _ hn.2]
    omega
end

/-- The full statement: visiting an expression adds the number of occurrences of the target to `hits`. -/
def C107_match_full : Prop := ∀ (x : XExpr) (f : Formula) (h : Nat), matchF x f h = h + countF x f

/-- C107, `MatchExpression`, proved part: although it does not look inside a match, it counts every occurrence of the target, for targets
that are atoms, compound or quantified formulas or applications of function symbols, in formulas without if-then-else terms. -/
theorem C107_match_partial (x : XExpr) (hx : x.Composite) (f : Formula) (hf : QPlainF f) (h : Nat) : matchF x f h = h + countF x f :=
  matchF_count hx f h hf

/-- … and likewise in terms. -/
theorem C107_match_term_partial (x : XExpr) (hx : x.Composite) (t : Term) (ht : NoIteT t) (h : Nat) : matchT x t h = h + countT x t :=
  matchT_count hx t h ht

/-- Variables are never found, and nothing is found in an if-then-else term. -/
theorem C107_match_refuted : ¬ C107_match_full ∧
    (let t := Term.app "f" []; matchT (.term t) (.ite .top t t) 0 = 0 ∧ countT (.term t) (.ite .top t t) = 2) := by
  refine ⟨fun h => ?_, by decide⟩
  have := h (.term (.var ⟨"x", "object"⟩)) (.atom (.user "p") [.var ⟨"x", "object"⟩]) 0
  exact absurd this (by decide)

example : matchF (.term (.app "f" [.const (.str "a") "s"])) (.comp .tuple .and
    [.atom (.user "p") [.app "f" [.const (.str "a") "s"], .app "g" [.app "f" [.const (.str "a") "s"]]],
     .quant .exists [.var ⟨"x", "s"⟩] (.atom (.user "q") [.app "f" [.var ⟨"x", "s"⟩]])]) 0 = 2 := by decide

/-! ### CollectVariables -/

mutual
theorem collectVarsT_eq : ∀ (t : Term) (s : List Var), collectVarsT t s = if HasVarT t then .error .typeError else .ok s
  | .var v, s => by simp [collectVarsT, HasVarT]
  | .const n so, s => by simp [collectVarsT, HasVarT]
  | .app f ts, s => by simp only [collectVarsT, HasVarT]; exact collectVarsTs_eq ts s
  | .ite c a b, s => by simp [collectVarsT, HasVarT]
theorem collectVarsTs_eq : ∀ (ts : List Term) (s : List Var), collectVarsTs ts s = if HasVarTs ts then .error .typeError else .ok s
  | [], s => by simp [collectVarsTs, HasVarTs]
  | t :: ts, s => by
    simp only [collectVarsTs, HasVarTs, collectVarsT_eq t s]
    by_cases h : HasVarT t = true
    · simp [h]
    · simp [h, collectVarsTs_eq ts s]
end

mutual
theorem collectVarsF_eq : ∀ (f : Formula) (s : List Var), collectVarsF f s = if HasVarF f then .error .typeError else .ok s
  | .top, s => by simp [collectVarsF, HasVarF]
  | .bot, s => by simp [collectVarsF, HasVarF]
  | .atom p ts, s => by simp only [collectVarsF, HasVarF]; exact collectVarsTs_eq ts s
  | .comp k c fs, s => by simp only [collectVarsF, HasVarF]; exact collectVarsFs_eq fs s
  | .quant q vs f, s => by simp only [collectVarsF, HasVarF]; exact collectVarsF_eq f s
theorem collectVarsFs_eq : ∀ (fs : List Formula) (s : List Var), collectVarsFs fs s = if HasVarFs fs then .error .typeError else .ok s
  | [], s => by simp [collectVarsFs, HasVarFs]
  | f :: fs, s => by
    simp only [collectVarsFs, HasVarFs, collectVarsF_eq f s]
    by_cases h : HasVarF f = true
    · simp [h]
    · simp [h, collectVarsFs_eq fs s]
end

/-- The full statement: the visitor collects the variables that occur in the formula. -/
def C107_variables_full : Prop := ∀ f : Formula, ∃ s, collectVarsF f [] = .ok s ∧ ∀ v, v ∈ s ↔ 0 < countF (.term (.var v)) f

/-- C107, `CollectVariables`, what is true: it returns (with the empty set) exactly on the expressions without variables below atoms, and
raises TypeError on all others. -/
theorem C107_variables_partial (f : Formula) : collectVarsF f [] = if HasVarF f then .error .typeError else .ok [] := collectVarsF_eq f []

/-- Its first variable raises TypeError, as terms are not hashable. -/
theorem C107_variables_refuted : ¬ C107_variables_full := by
  intro h
  obtain ⟨s, h1, -⟩ := h (.atom (.user "p") [.var ⟨"x", "object"⟩])
  cases h1

example : collectVarsF (.atom (.user "p") [.const (.str "a") "s"]) [] = .ok [] := rfl

/-! ### CollectEqualityAtoms -/

mutual
theorem eqAtomsF_mem (a : Formula) : ∀ (f : Formula) (s : List Formula), OpenF f → (a ∈ eqAtomsF f s ↔ a ∈ s ∨ EqAtomOf a f)
  | .top, s, _ => by simp [eqAtomsF, EqAtomOf]
  | .bot, s, _ => by simp [eqAtomsF, EqAtomOf]
  | .atom p ts, s, _ => by
    simp only [eqAtomsF, EqAtomOf]
    cases p with
    | user n => simp [isEqAtom]
    | cmp c =>
      by_cases hc : c = .eq
      · subst hc
        simp only [isEqAtom, if_true, true_and, setAdd]
        split
        · rename_i hm
          constructor
          · exact .inl
          · rintro (h | rfl)
            · exact h
            · exact hm
        · rw [List.mem_cons]; tauto
      · have : isEqAtom (.atom (.cmp c) ts) = false := by cases c <;> simp_all [isEqAtom]
        simp [this, hc]
  | .comp k c fs, s, h => eqAtomsFs_mem a fs s h
  | .quant q vs f, s, h => by cases h
theorem eqAtomsFs_mem (a : Formula) : ∀ (fs : List Formula) (s : List Formula), OpenFs fs → (a ∈ eqAtomsFs fs s ↔ a ∈ s ∨ EqAtomOfs a fs)
  | [], s, _ => by simp [eqAtomsFs, EqAtomOfs]
  | f :: fs, s, h => by
    simp only [eqAtomsFs, EqAtomOfs]
    rw [eqAtomsFs_mem a fs _ h.2, eqAtomsF_mem a f s h.1]
    tauto
end

mutual
theorem eqAtomsF_nodup : ∀ (f : Formula) (s : List Formula), s.Nodup → (eqAtomsF f s).Nodup
  | .top, s, h => h
  | .bot, s, h => h
  | .atom p ts, s, h => by
    simp only [eqAtomsF]
    split
    · simp only [setAdd]
      split
      · exact h
      · rename_i hm; exact List.nodup_cons.2 ⟨hm, h⟩
    · exact h
  | .comp k c fs, s, h => eqAtomsFs_nodup fs s h
  | .quant q vs f, s, h => h
theorem eqAtomsFs_nodup : ∀ (fs : List Formula) (s : List Formula), s.Nodup → (eqAtomsFs fs s).Nodup
  | [], s, h => h
  | f :: fs, s, h => eqAtomsFs_nodup fs _ (eqAtomsF_nodup f s h)
end

/-- The full statement: the visitor collects the equality atoms of the formula. -/
def C107_equality_full : Prop := ∀ f a, a ∈ eqAtomsF f [] ↔ EqAtomOf a f

/-- C107, `CollectEqualityAtoms`, proved part: it collects each equality atom once, in formulas without quantifiers. -/
theorem C107_equality_partial (f : Formula) (hf : OpenF f) : (eqAtomsF f []).Nodup ∧ ∀ a, a ∈ eqAtomsF f [] ↔ EqAtomOf a f :=
  ⟨eqAtomsF_nodup f [] List.nodup_nil, fun a => by simp [eqAtomsF_mem a f [] hf]⟩

/-- It does not look below quantifiers. -/
theorem C107_equality_refuted : ¬ C107_equality_full := by
  intro h
  have := (h (.quant .exists [.var ⟨"x", "s"⟩] (.atom (.cmp .eq) [.var ⟨"x", "s"⟩, .var ⟨"x", "s"⟩]))
    (.atom (.cmp .eq) [.var ⟨"x", "s"⟩, .var ⟨"x", "s"⟩])).2 (by simp [EqAtomOf])
  simp [eqAtomsF] at this

example : OpenF (.comp .tuple .not [.atom (.cmp .eq) [.var ⟨"x", "s"⟩, .const (.str "a") "s"]]) ∧
    eqAtomsF (.comp .tuple .not [.atom (.cmp .eq) [.var ⟨"x", "s"⟩, .const (.str "a") "s"]]) [] =
      [.atom (.cmp .eq) [.var ⟨"x", "s"⟩, .const (.str "a") "s"]] := ⟨by simp [OpenF, OpenFs], rfl⟩

/-! ### visit_effect -/

/-- The calls for one effect: the effect, its condition and its own expressions. -/
def ownCalls (e : Effect) : List VNode := .eff e :: .expr (.form e.cond) :: (effectExprs e).map .expr

mutual
/-- C107, `visit_effect` calls back for the effect and every effect nested in it, from the outside in and from left to right, and for each
of them with the effect, its condition and its expressions, in this order and once each. -/
theorem C107_visit_effect : ∀ e : Effect, visitEffect e = (subEffects e).flatMap ownCalls
  | .add c p ts => by simp [visitEffect, subEffects, ownCalls, effectExprs, Effect.cond]
  | .del c p ts => by simp [visitEffect, subEffects, ownCalls, effectExprs, Effect.cond]
  | .lit c l => by simp [visitEffect, subEffects, ownCalls, effectExprs, Effect.cond]
  | .assign c f ts r => by simp [visitEffect, subEffects, ownCalls, effectExprs, Effect.cond]
  | .univ c vs es => by
    simp [visitEffect, subEffects, ownCalls, effectExprs, Effect.cond, visitEffects_eq es, Function.comp_def]
theorem visitEffects_eq : ∀ es : List Effect, visitEffects es = (subEffectss es).flatMap ownCalls
  | [] => rfl
  | e :: es => by simp [visitEffects, subEffectss, C107_visit_effect e, visitEffects_eq es]
end

example : (visitEffect (.univ .top [⟨"x", "s"⟩] [.add .top (.user "p") [.var ⟨"x", "s"⟩]])).length = 6 := rfl

end Tarski

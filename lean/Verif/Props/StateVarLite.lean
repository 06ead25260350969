import Verif.StateVarLite
import Verif.Props.StrategyVars
import Verif.PddlDeclWide
/-! C129: expressions with the shape of a state variable, and the state variables that grounding records. -/
namespace Tarski

/-! ### Specification -/

/-- An atom or a functional term whose arguments are constants. -/
def GroundExpr (e : XExpr) : Prop :=
  ∃ cs : List Const, (∃ q, e = .form (.atom q (cs.map Const.toTerm))) ∨ ∃ f, e = .term (.app f (cs.map Const.toTerm))

/-- The language declares the symbol with these sorts of arguments. -/
def DeclaresSym (D : PDecls) : Sym → List String → Prop
  | .pred q, ss => (q, ss) ∈ D.preds
  | .fn f, ss => ∃ s, (f, ss, s) ∈ D.funs

/-- No two symbols of the language have the same name. -/
def UniqueNames (D : PDecls) : Prop := (D.preds.map Prod.fst ++ D.funs.map Prod.fst).Nodup

/-- Constants of the sorts, or of sorts below them. -/
def ConstArgs (D : PDecls) (ts : List Term) (ss : List String) : Prop :=
  List.Forall₂ (fun t s => ∃ n so, t = .const n so ∧ D.isSub so s = true) ts ss

/-- The symbol applied to the arguments. -/
def applied : Sym → List Term → XExpr
  | .pred q, ts => .form (.atom (.user q) ts)
  | .fn f, ts => .term (.app f ts)

/-- The keys of the substitution are variables. -/
def VarKeys (s : Subst) : Prop := ∀ kv ∈ s, ∃ v, kv.1 = Term.var v

/-! ### Proof -/

theorem allConst_iff (ts : List Term) : ts.all Term.isConstant = true ↔ ∃ cs : List Const, ts = cs.map Const.toTerm := by
  induction ts with
  | nil => exact ⟨fun _ => ⟨[], rfl⟩, fun _ => rfl⟩
  | cons t ts ih =>
    simp only [List.all_cons, Bool.and_eq_true, ih]
    constructor
    · rintro ⟨h, cs, rfl⟩
      match t, h with
      | .const n s, _ => exact ⟨⟨n, s⟩ :: cs, rfl⟩
    · rintro ⟨_ | ⟨c, cs⟩, h⟩
      · cases h
      · obtain ⟨rfl, rfl⟩ := List.cons.inj h
        exact ⟨rfl, cs, rfl⟩

theorem visit_of_varKeys {s : Subst} (hs : VarKeys s) {t : Term} (ht : ∀ v, t ≠ .var v) : s.visit t = t := by
  have : s.get? t = none := by
    simp only [Subst.get?, Option.map_eq_none_iff, List.find?_eq_none, List.mem_reverse]
    intro kv hkv h
    obtain ⟨v, hv⟩ := hs kv hkv
    exact ht v (by rw [← hv]; exact (beq_iff_eq.1 h).symm)
  simp [Subst.visit, this]

theorem subTs_toTerms {s : Subst} (hs : VarKeys s) (cs : List Const) : subTs s (cs.map Const.toTerm) = cs.map Const.toTerm := by
  induction cs with
  | nil => rfl
  | cons c cs ih =>
    have : subT s (Const.toTerm c) = Const.toTerm c := visit_of_varKeys hs (by intro v h; cases h)
    simp only [List.map_cons, subTs, this, ih]

theorem evalTs_toTerms {D} (I : Interp D) (cs : List Const) (σ : Asg D) :
    evalTs I (cs.map Const.toTerm) σ = cs.map fun c => I.const c.name c.sort := by
  induction cs with
  | nil => rfl
  | cons c cs ih => simp only [List.map_cons, evalTs, ih, Const.toTerm, evalT]

theorem symSorts_declared {D : PDecls} (hu : UniqueNames D) {x : Sym} {ss : List String} (h : DeclaresSym D x ss) : symSorts D x = ss := by
  have hu' := List.nodup_append.1 hu
  cases x with
  | pred q => simp only [symSorts, dlookup_mem_nodup hu'.1 h, Option.getD_some]
  | fn f =>
    obtain ⟨s, h⟩ := h
    simp only [symSorts, dlookup_mem_nodup hu'.2.1 h]

theorem checkArgSorts_consts {D : PDecls} {ts : List Term} {ss : List String} (h : ConstArgs D ts ss) :
    checkArgSorts D ts ss = .ok () ∧ ts.length = ss.length ∧ ts.all Term.isConstant = true := by
  induction h with
  | nil => exact ⟨rfl, rfl, rfl⟩
  | cons h _ ih =>
    obtain ⟨n, so, rfl, h⟩ := h
    obtain ⟨i1, i2, i3⟩ := ih
    refine ⟨by simp only [checkArgSorts, RLang.sortOf, h, if_true, i1], by simp [i2], by simp only [List.all_cons, Term.isConstant, i3, Bool.and_self]⟩

theorem consts_checkArgSorts {D : PDecls} : ∀ (ts : List Term) (ss : List String), ts.all Term.isConstant = true →
    checkArgSorts D ts ss = .ok () → ConstArgs D ts ss
  | [], [], _, _ => .nil
  | [], _ :: _, _, h => by simp [checkArgSorts] at h
  | _ :: _, [], _, h => by simp [checkArgSorts] at h
  | t :: ts, s :: ss, hc, h => by
    simp only [List.all_cons, Bool.and_eq_true] at hc
    simp only [checkArgSorts] at h
    split at h
    · rename_i hs
      match t, hc.1, hs with
      | .const n so, _, hs => exact .cons ⟨n, so, rfl, hs⟩ (consts_checkArgSorts ts ss hc.2 h)
    · cases h

theorem toAtom_ok {D : PDecls} {x : Sym} {ts : List Term} (h : ConstArgs D ts (symSorts D x)) :
    mkLiteVar x ts = .ok ⟨x, ts⟩ ∧ LiteVar.toAtom D ⟨x, ts⟩ = .ok (applied x ts) := by
  obtain ⟨h1, h2, h3⟩ := checkArgSorts_consts h
  refine ⟨by simp [mkLiteVar, h3], ?_⟩
  simp only [LiteVar.toAtom, h2, ne_eq, not_true_eq_false, if_false, h1]
  cases x <;> rfl

theorem applied_inj {x y : Sym} {ts us : List Term} (h : applied x ts = applied y us) : x = y ∧ ts = us := by
  cases x <;> cases y <;> simp_all [applied]

theorem applied_shape {x : Sym} {ts : List Term} : hasStateVarShape (applied x ts) = ts.all Term.isConstant := by cases x <;> rfl

theorem inDom_const {D : PDecls} {t : Term} {s : String} (h : InDom D.listDomain t s) : ∃ n so, t = .const n so ∧ D.isSub so s = true := by
  obtain ⟨d, hd, ht⟩ := h
  simp only [PDecls.listDomain] at hd
  split at hd
  · cases hd
    simp only [List.mem_map, List.mem_filter] at ht
    obtain ⟨c, ⟨-, h⟩, rfl⟩ := ht
    exact ⟨c.1, c.2, rfl, h⟩
  · split at hd
    · cases hd
    · cases hd
      simp only [List.mem_map] at ht
      obtain ⟨k, -, rfl⟩ := ht
      exact ⟨_, s, rfl, isSub_refl _ _⟩

theorem groundSymbolsLoop_doms {α γ} [DecidableEq α] [DecidableEq γ] (dom : String → Except Err (List α)) (sig : γ → List String) :
    ∀ (gs : List γ) (s : SymIndex (γ × List α)) idx, groundSymbolsLoop dom sig s gs = .ok idx → ∀ g ∈ gs, ∀ so ∈ sig g, ∃ d, dom so = .ok d
  | [], _, _, _ => by simp
  | g :: gs, s, idx, h => by
    simp only [groundSymbolsLoop] at h
    split at h
    · cases h
    · rename_i bs hbs
      split at h
      · cases h
      · rename_i s' _
        intro g' hg'
        rcases List.mem_cons.1 hg' with rfl | hg'
        · exact (C40_tuples dom (sig g')).1.1 ⟨bs, hbs⟩
        · exact groundSymbolsLoop_doms dom sig gs s' idx h g' hg'

/-- What an index of grounded symbols contains. -/
theorem groundSymbols_objects {α γ} [DecidableEq α] [DecidableEq γ] (dom : String → Except Err (List α)) (sig : γ → List String) (gs : List γ)
    (idx : SymIndex (γ × List α)) (h : groundSymbols dom sig gs = .ok idx) (i : Nat) (x : γ × List α) (hi : idx.getObject i = .ok x) :
    x.1 ∈ gs ∧ WellSorted dom x.2 (sig x.1) := by
  have hd := groundSymbolsLoop_doms dom sig gs _ _ h
  have e := groundSymbolsLoop_eq dom sig gs hd SymIndex.empty
  rw [show groundSymbolsLoop dom sig SymIndex.empty gs = .ok idx from h] at e
  rcases addVarsRaising_cases (allStateVars dom sig gs) SymIndex.empty [] siInv_empty (by simp) with ⟨h1, -, h3⟩ | ⟨h1, -⟩
  · rw [h1] at e
    cases e
    obtain ⟨⟨e1, e2, -⟩, -⟩ := indexesExactly_of_nodup (by simpa using h3)
    exact (mem_allStateVars dom sig gs hd x).1 ((e1 x).1 ⟨i, (e2 x i).2 hi⟩)
  · rw [h1] at e
    cases e

/-! ### Theorems -/

/-- C129: the expressions with the shape of a state variable are the atoms and functional terms whose arguments are all constants; the test answers for every
expression. -/
theorem C129_shape (e : XExpr) : hasStateVarShape e = true ↔ GroundExpr e := by
  constructor
  · intro h
    match e, h with
    | .form (.atom q ts), h =>
      obtain ⟨cs, rfl⟩ := (allConst_iff ts).1 h
      exact ⟨cs, .inl ⟨q, rfl⟩⟩
    | .term (.app f ts), h =>
      obtain ⟨cs, rfl⟩ := (allConst_iff ts).1 h
      exact ⟨cs, .inr ⟨f, rfl⟩⟩
  · rintro ⟨cs, ⟨q, rfl⟩ | ⟨f, rfl⟩⟩
    · exact (allConst_iff _).2 ⟨cs, rfl⟩
    · exact (allConst_iff _).2 ⟨cs, rfl⟩

/-- C129: substitutions of variables do not change such an atom, and its truth value does not depend on the assignment. -/
theorem C129_atom_value (f : Formula) (h : hasStateVarShape (.form f) = true) (s : Subst) (hs : VarKeys s) :
    subF s f = f ∧ ∀ (D : Type) (I : Interp D) (σ σ' : Asg D), Sat I f σ ↔ Sat I f σ' := by
  obtain ⟨cs, ⟨q, e⟩ | ⟨_, e⟩⟩ := (C129_shape _).1 h
  · cases e
    refine ⟨by simp only [subF, subTs_toTerms hs], fun D I σ σ' => ?_⟩
    simp only [Sat, evalTs_toTerms]
  · cases e

/-- C129: the same for functional terms. -/
theorem C129_term_value (t : Term) (h : hasStateVarShape (.term t) = true) (s : Subst) (hs : VarKeys s) :
    subT s t = t ∧ ∀ (D : Type) (I : Interp D) (σ σ' : Asg D), evalT I t σ = evalT I t σ' := by
  obtain ⟨cs, ⟨_, e⟩ | ⟨g, e⟩⟩ := (C129_shape _).1 h
  · cases e
  · cases e
    refine ⟨by simp only [subT, subTs_toTerms hs, visit_of_varKeys hs (t := .app g (cs.map Const.toTerm)) (by intro v h; cases h)], fun D I σ σ' => ?_⟩
    simp only [evalT, evalTs_toTerms]

/-- C129: an atom of a declared predicate becomes a state variable just when it has the shape, and an atom over constants of the right sorts is got back from
its state variable; nothing but an atom becomes a state variable. -/
theorem C129_from_atom (D : PDecls) (hu : UniqueNames D) :
    (∀ q ts, (∃ v, liteFromAtom (.form (.atom (.user q) ts)) = .ok v) ↔ hasStateVarShape (.form (.atom (.user q) ts)) = true) ∧
    (∀ q ss ts, DeclaresSym D (.pred q) ss → ConstArgs D ts ss →
      ∃ v, liteFromAtom (.form (.atom (.user q) ts)) = .ok v ∧ v.toAtom D = .ok (.form (.atom (.user q) ts))) ∧
    ∀ e v, liteFromAtom e = .ok v → ∃ q ts, e = .form (.atom (.user q) ts) ∧ v = ⟨.pred q, ts⟩ := by
  refine ⟨fun q ts => ?_, fun q ss ts hd ha => ?_, fun e v h => ?_⟩
  · simp only [liteFromAtom, mkLiteVar, hasStateVarShape]
    split
    · simp_all
    · simp_all
  · rw [← symSorts_declared hu hd] at ha
    obtain ⟨h1, h2⟩ := toAtom_ok ha
    exact ⟨_, h1, h2⟩
  · match e, h with
    | .form (.atom (.user q) ts), h =>
      simp only [liteFromAtom, mkLiteVar] at h
      split at h
      · cases h
        exact ⟨q, ts, rfl, rfl⟩
      · cases h

/-- C129: the expression of a state variable exists just when the constants have the right number and sorts, and then it has the shape. -/
theorem C129_to_atom (D : PDecls) (hu : UniqueNames D) (x : Sym) (ss : List String) (hd : DeclaresSym D x ss) (ts : List Term) (v : LiteVar)
    (hv : mkLiteVar x ts = .ok v) (e : XExpr) :
    v.toAtom D = .ok e ↔ ConstArgs D ts ss ∧ e = applied x ts ∧ hasStateVarShape e = true := by
  have hc : ts.all Term.isConstant = true ∧ v = ⟨x, ts⟩ := by
    simp only [mkLiteVar] at hv
    split at hv
    · rename_i h; cases hv; exact ⟨h, rfl⟩
    · cases hv
  obtain ⟨hc, rfl⟩ := hc
  have hs := symSorts_declared hu hd
  constructor
  · intro h
    simp only [LiteVar.toAtom, hs] at h
    split at h
    · cases h
    · split at h
      · cases h
      · rename_i h2
        have ha := consts_checkArgSorts ts ss hc h2
        have h3 := (toAtom_ok (x := x) (hs ▸ ha)).2
        have : e = applied x ts := by
          cases x <;> · cases h; rfl
        exact ⟨ha, this, by rw [this, applied_shape, hc]⟩
  · rintro ⟨ha, rfl, -⟩
    exact (toAtom_ok (hs ▸ ha)).2

/-- C129: state variables of declared symbols are equal just when symbol and constants are the same, hence when their expressions are the same. -/
theorem C129_eq (D : PDecls) (hu : UniqueNames D) (v w : LiteVar) (sv sw : List String) (hv : DeclaresSym D v.symbol sv) (hw : DeclaresSym D w.symbol sw) :
    (v.eq D w = true ↔ v = w) ∧ ∀ a b, v.toAtom D = .ok a → w.toAtom D = .ok b → (v.eq D w = true ↔ a = b) := by
  have hname : ∀ (x y : Sym) sx sy, DeclaresSym D x sx → DeclaresSym D y sy → symIdent x = symIdent y → x = y := by
    have h3 := (List.nodup_append.1 hu).2.2
    intro x y sx sy hx hy e
    cases x <;> cases y
    · cases e; rfl
    · obtain ⟨s, hy⟩ := hy
      exact absurd e (h3 _ (List.mem_map_of_mem hx) _ (List.mem_map_of_mem hy))
    · obtain ⟨s, hx⟩ := hx
      exact absurd e.symm (h3 _ (List.mem_map_of_mem hy) _ (List.mem_map_of_mem hx))
    · cases e; rfl
  have key : v.eq D w = true ↔ v = w := by
    simp only [LiteVar.eq, Bool.and_eq_true, beq_iff_eq, termsEq_iff]
    constructor
    · rintro ⟨h1, h2⟩
      have := hname _ _ _ _ hv hw (List.cons.inj h1).1
      obtain ⟨x, ts⟩ := v
      obtain ⟨y, us⟩ := w
      cases this
      cases h2
      rfl
    · rintro rfl
      exact ⟨rfl, rfl⟩
  refine ⟨key, fun a b ha hb => key.trans ?_⟩
  have happ : ∀ (u : LiteVar) c, u.toAtom D = .ok c → c = applied u.symbol u.binding := by
    rintro ⟨x, ts⟩ c h
    simp only [LiteVar.toAtom] at h
    split at h
    · cases h
    · split at h
      · cases h
      · cases x <;> · cases h; rfl
  rw [happ v a ha, happ w b hb]
  constructor
  · rintro rfl; rfl
  · intro h
    obtain ⟨h1, h2⟩ := applied_inj h
    obtain ⟨x, ts⟩ := v
    obtain ⟨y, us⟩ := w
    cases h1
    cases h2
    rfl

/-- C129: for every problem, each state variable that the naive strategy records has an expression, with the shape of a state variable; state variables with
different indices have different expressions. -/
theorem C129_strategy (p : PProblem) (ign : List String) (idx : SymIndex (Sym × List Term)) (h : strategyVars p ign = .ok idx) :
    (∀ (i : Nat) x ts, idx.getObject i = .ok (x, ts) →
      ∃ v, mkLiteVar x ts = .ok v ∧ v.toAtom p.lang = .ok (applied x ts) ∧ hasStateVarShape (applied x ts) = true) ∧
    ∀ (i j : Nat) x ts y us, idx.getObject i = .ok (x, ts) → idx.getObject j = .ok (y, us) → applied x ts = applied y us → i = j := by
  simp only [strategyVars] at h
  split at h
  · cases h
  · rename_i fl st _
    refine ⟨fun i x ts hi => ?_, fun i j x ts y us hi hj e => ?_⟩
    · have hw := (groundSymbols_objects _ _ _ _ h i (x, ts) hi).2
      have ha : ConstArgs p.lang ts (symSorts p.lang x) := hw.imp fun _ _ => inDom_const
      obtain ⟨h1, h2⟩ := toAtom_ok ha
      refine ⟨_, h1, h2, ?_⟩
      rw [applied_shape]
      exact (checkArgSorts_consts ha).2.2
    · obtain ⟨rfl, rfl⟩ := applied_inj e
      have hd := groundSymbolsLoop_doms _ _ fl _ _ h
      have e := groundSymbolsLoop_eq p.lang.listDomain (symSorts p.lang) fl hd SymIndex.empty
      rw [show groundSymbolsLoop p.lang.listDomain (symSorts p.lang) SymIndex.empty fl = .ok idx from h] at e
      rcases addVarsRaising_cases (allStateVars p.lang.listDomain (symSorts p.lang) fl) SymIndex.empty [] siInv_empty (by simp) with ⟨h1, -, h3⟩ | ⟨h1, -⟩
      · rw [h1] at e
        cases e
        obtain ⟨⟨-, e2, -⟩, -⟩ := indexesExactly_of_nodup (by simpa using h3)
        have k1 := (e2 _ i).2 hi
        rw [(e2 _ j).2 hj] at k1
        exact (Except.ok.inj k1).symm
      · rw [h1] at e
        cases e

/-! ### Examples -/

/-- `on(b1, b2)` has the shape, `on(x, b2)` has not, `weight(b1)` has, `weight(weight(b1))` has not. -/
example : let b : String → Term := fun n => .const (.str n) "block"
    hasStateVarShape (.form (.atom (.user "on") [b "b1", b "b2"])) = true ∧
    hasStateVarShape (.form (.atom (.user "on") [.var ⟨"?x", "block"⟩, b "b2"])) = false ∧
    hasStateVarShape (.term (.app "weight" [b "b1"])) = true ∧
    hasStateVarShape (.term (.app "weight" [.app "weight" [b "b1"]])) = false :=
  ⟨rfl, rfl, rfl, rfl⟩

/-- The hypotheses of `C129_from_atom` and `C129_eq` are met in the language of the problem of `Props/TaskPlan.lean`. -/
example : UniqueNames flipProblem.lang ∧ (∃ ss, DeclaresSym flipProblem.lang (.pred "p") ss ∧ ConstArgs flipProblem.lang [flipObj.toTerm] ss) ∧
    ∃ v, liteFromAtom (.form (.atom (.user "p") [flipObj.toTerm])) = .ok v ∧
      v.toAtom flipProblem.lang = .ok (.form (.atom (.user "p") [flipObj.toTerm])) := by
  refine ⟨?_, ⟨["object"], ?_, .cons ⟨_, _, rfl, ?_⟩ .nil⟩, _, rfl, rfl⟩
  · unfold UniqueNames; decide +kernel
  · unfold DeclaresSym; decide +kernel
  · decide +kernel

/-- The strategy records a state variable for this problem. -/
example : ∃ idx, strategyVars flipProblem [] = .ok idx ∧ ∃ x ts, idx.getObject 0 = .ok (x, ts) := ⟨_, rfl, _, _, rfl⟩

end Tarski

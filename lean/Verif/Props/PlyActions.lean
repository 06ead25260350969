import Mathlib.Tactic.Common
import Verif.PlyActions
import Verif.Props.Ply
/-! C93: actions read by the PLY-based PDDL reader. -/
namespace Tarski
open Classical

/-! ### Specification: the updates of PDDL effects -/

/-- A new value: a truth value or an element of the domain. -/
inductive YNew (D : Type) where
  | truth (b : Bool)
  | value (d : D)

/-- The symbol, the values of the arguments and the new value. -/
structure YUpdate (D : Type) where
  sym : String
  args : List D
  new : YNew D

/-- The new value of a numeric fluent, from the old one and the value of the expression. -/
def YAssign.apply {D} (S : YSem D) : YAssign → D → D → D
  | .assign, _, d => d
  | .scaleUp, old, d => S.arith "*" old d
  | .scaleDown, old, d => S.arith "/" old d
  | .increase, old, d => S.arith "+" old d
  | .decrease, old, d => S.arith "-" old d

/-- What an effect changes; equalities and `undefined` give no update. -/
def YEff.update {D} (S : YSem D) (env : String → D) : YEff → Option (YUpdate D)
  | .add (.pred p args) => some ⟨p, YTerm.means S env args, .truth true⟩
  | .del (.pred p args) => some ⟨p, YTerm.means S env args, .truth false⟩
  | .num op f args e => some ⟨f, YTerm.means S env args, .value (op.apply S (S.val f (YTerm.means S env args)) (e.mean S env))⟩
  | .obj f args t => some ⟨f, YTerm.means S env args, .value (t.mean S env)⟩
  | _ => none

/-- Effects with conditions and quantifiers are not a single update. -/
def YCEff.update {D} (S : YSem D) (env : String → D) : YCEff → Option (YUpdate D)
  | .eff e => e.update S env
  | _ => none

/-- What the recorded assignment changes. -/
noncomputable def YAssignment.update {D} (I : Interp D) (σ : Asg D) (a : YAssignment) : Option (YUpdate D) :=
  match a.lhs, a.rhs with
  | .app f ts, .num 1 => some ⟨f, evalTs I ts σ, .truth true⟩
  | .app f ts, .num 0 => some ⟨f, evalTs I ts σ, .truth false⟩
  | .app f ts, .term t => some ⟨f, evalTs I ts σ, .value (evalT I t σ)⟩
  | _, _ => none

/-- Effects for which the claim holds: no `scale-down`, no equality. -/
def YEff.Plain : YEff → Prop
  | .add (.eq _ _) => False
  | .num .scaleDown _ _ _ => False
  | _ => True

def YCEff.Plain : YCEff → Prop
  | .eff e => e.Plain
  | _ => True

/-! ### Proof -/

theorem readYAtom_pred {L : YLang} {sc p args v} (h : readYAtom L sc (.pred p args) = .ok v) :
    ∃ ts, readYTerms L sc args = .ok ts ∧ v = ⟨.app p ts, none⟩ := by
  simp only [readYAtom] at h
  split at h
  · cases h
  · rename_i ts hts
    split at h
    · cases h
    · split at h
      · cases h
      · cases h; exact ⟨ts, hts, rfl⟩
    · cases h

theorem readYAtom_eq {L : YLang} {sc a b v} (h : readYAtom L sc (.eq a b) = .ok v) : ∃ t u, v = ⟨t, some u⟩ := by
  simp only [readYAtom] at h
  split at h
  · cases h
  · split at h
    · cases h
    · cases h; exact ⟨_, _, rfl⟩

theorem readYFn_ok {L : YLang} {sc f args u} (h : readYTerm L sc (.fn f args) = .ok u) : ∃ ts dom cod, readYTerms L sc args = .ok ts ∧
    L.base.sym f = some (.fn dom cod) ∧ u = .app f ts := by
  simp only [readYTerm] at h
  split at h
  · cases h
  · rename_i ts hts
    split at h
    · cases h
    · rename_i dom cod hs
      split at h
      · cases h
      · cases h; exact ⟨ts, dom, cod, hts, hs, rfl⟩
    · cases h

theorem readYEff_sem {D} {L : YLang} {S : YSem D} {I : Interp D} (hf : YFits L S I) {sc σ env} (ha : AgreeOn sc σ env)
    (e : YEff) (hp : e.Plain) (a : YAssignment) (h : readYEff L sc e = .ok a) : a.update I σ = e.update S env ∧ (e.update S env).isSome = true := by
  cases e with
  | add at_ =>
    simp only [readYEff] at h
    split at h
    · cases h
    · rename_i v hv
      cases h
      cases at_ with
      | pred p args =>
        obtain ⟨ts, hts, rfl⟩ := readYAtom_pred hv
        simp only [YAssignment.update, YAtomVal.right, YEff.update, readYTerms_sem hf ha args ts hts, Option.isSome_some, and_self]
      | eq x y => exact hp.elim
  | del at_ =>
    simp only [readYEff] at h
    split at h
    · cases h
    · rename_i v hv
      cases at_ with
      | pred p args =>
        obtain ⟨ts, hts, rfl⟩ := readYAtom_pred hv
        cases h
        simp only [YAssignment.update, YEff.update, readYTerms_sem hf ha args ts hts, Option.isSome_some, and_self]
      | eq x y =>
        obtain ⟨t, u, rfl⟩ := readYAtom_eq hv
        cases h
  | num op f args e =>
    simp only [readYEff] at h
    split at h
    · cases h
    · rename_i lhs hl
      rw [readYExp] at hl
      obtain ⟨ts, dom, cod, hts, hs, rfl⟩ := readYFn_ok hl
      split at h
      · cases h
      · rename_i rhs hr
        have h1 := readYExp_sem hf ha e rhs hr
        have h2 := readYTerms_sem hf ha args ts hts
        have hval := hf.val _ _ _ hs
        have key : ∀ o ∈ ["+", "-", "*", "/"], ∀ r, L.base.agg.dispatch o (.app f ts) rhs = .ok r →
            evalT I r σ = S.arith o (S.val f (YTerm.means S env args)) (e.mean S env) := by
          intro o ho r hd
          rw [dispatch_app hd]
          simp only [evalT, evalTs, hf.arith o ho, h1, h2, hval]
        cases op with
        | assign =>
          cases h
          simp only [YAssignment.update, YEff.update, YAssign.apply, h1, h2, Option.isSome_some, and_self]
        | scaleDown => exact hp.elim
        | scaleUp =>
          simp only [YAssign.oper] at h
          split at h
          · cases h
          · rename_i r hd
            cases h
            simp only [YAssignment.update, YEff.update, YAssign.apply, key "*" (by simp) r hd, h2, Option.isSome_some, and_self]
        | increase =>
          simp only [YAssign.oper] at h
          split at h
          · cases h
          · rename_i r hd
            cases h
            simp only [YAssignment.update, YEff.update, YAssign.apply, key "+" (by simp) r hd, h2, Option.isSome_some, and_self]
        | decrease =>
          simp only [YAssign.oper] at h
          split at h
          · cases h
          · rename_i r hd
            cases h
            simp only [YAssignment.update, YEff.update, YAssign.apply, key "-" (by simp) r hd, h2, Option.isSome_some, and_self]
  | obj f args t =>
    simp only [readYEff] at h
    split at h
    · cases h
    · rename_i lhs hl
      obtain ⟨ts, dom, cod, hts, hs, rfl⟩ := readYFn_ok hl
      split at h
      · cases h
      · rename_i rhs hr
        cases h
        simp only [YAssignment.update, YEff.update, readYTerm_sem hf ha t rhs hr, readYTerms_sem hf ha args ts hts, Option.isSome_some, and_self]
  | undefine f args =>
    simp only [readYEff] at h
    split at h <;> cases h

theorem readYCEff_ok {L : YLang} {sc : YScope} {c a} (h : readYCEff L sc c = .ok a) : ∃ e, c = .eff e ∧ readYEff L sc e = .ok a := by
  cases c with
  | eff e => exact ⟨e, rfl, by simpa only [readYCEff] using h⟩
  | «forall» vs es =>
    simp only [readYCEff] at h
    split at h <;> cases h
  | when g es =>
    simp only [readYCEff] at h
    split at h
    · cases h
    · split at h <;> cases h

theorem readYCEffs_sem {D} {L : YLang} {S : YSem D} {I : Interp D} (hf : YFits L S I) {sc σ env} (ha : AgreeOn sc σ env) :
    ∀ (es : List YCEff) (as : List YAssignment), (∀ e ∈ es, e.Plain) → readYCEffs L sc es = .ok as →
      as.map (·.update I σ) = es.map (·.update S env) ∧ ∀ e ∈ es, (e.update S env).isSome = true := by
  intro es
  induction es with
  | nil => intro as _ h; cases h; simp
  | cons c es ih =>
    intro as hp h
    simp only [readYCEffs] at h
    split at h
    · cases h
    · rename_i a hc
      split at h
      · cases h
      · rename_i as' hs
        cases h
        obtain ⟨e, rfl, he⟩ := readYCEff_ok hc
        obtain ⟨h1, h2⟩ := readYEff_sem hf ha e (hp (.eff e) (by simp)) a he
        obtain ⟨h3, h4⟩ := ih as' (fun e he => hp e (by simp [he])) hs
        refine ⟨by simp only [List.map_cons, h1, h3, YCEff.update], ?_⟩
        intro e' he'
        simp only [List.mem_cons] at he'
        rcases he' with rfl | he'
        · exact h2
        · exact h4 _ he'

theorem leave_nodup : ∀ (vs : List Var) (sc sc' : YScope), leaveScope sc vs = .ok sc' → (vs.map (·.sym)).Nodup := by
  intro vs
  induction vs with
  | nil => intro sc sc' _; exact List.nodup_nil
  | cons v vs ih =>
    intro sc sc' h
    simp only [leaveScope] at h
    split at h
    · rename_i hv
      refine List.nodup_cons.2 ⟨?_, ih _ _ h⟩
      intro hm
      have : ∀ (ws : List Var) (sc sc' : YScope), leaveScope sc ws = .ok sc' → ∀ x ∈ ws.map (·.sym), (dlookup sc x).isSome = true := by
        intro ws
        induction ws with
        | nil => intro _ _ _ x hx; cases hx
        | cons w ws ih2 =>
          intro sc sc' h x hx
          simp only [leaveScope] at h
          split at h
          · rename_i hw
            simp only [List.map_cons, List.mem_cons] at hx
            rcases hx with rfl | hx
            · exact hw
            · have := ih2 _ _ h x hx
              rw [dlookup_ddelete] at this
              split at this
              · cases this
              · exact this
          · cases h
      have h2 := this vs _ _ h v.sym hm
      rw [dlookup_ddelete] at h2
      simp at h2
    · cases h

theorem lookup_enter_mem : ∀ (vs : List Var) (sc : YScope) (x : String) (v : Var), dlookup (enterScope sc vs) x = some v →
    (v ∈ vs ∧ v.sym = x) ∨ dlookup sc x = some v := by
  intro vs
  induction vs with
  | nil => intro sc x v h; exact .inr h
  | cons w vs ih =>
    intro sc x v h
    simp only [enterScope, List.foldl_cons] at h
    rcases ih (dinsert sc w.sym w) x v h with ⟨h1, h2⟩ | h1
    · exact .inl ⟨by simp [h1], h2⟩
    · rw [dlookup_dinsert] at h1
      split at h1
      · rename_i e
        cases h1
        exact .inl ⟨by simp, e⟩
      · exact .inr h1

theorem scope_nil_of {sc : YScope} (h : ∀ x, dlookup sc x = none) : sc = [] := by
  cases sc with
  | nil => rfl
  | cons p sc =>
    have := h p.1
    rw [dlookup_none] at this
    simp at this

/-- What entering, reading and leaving has as result, beginning with an empty scope. -/
theorem scope_back {vs : List Var} {sc1 sc2 : YScope} (hsub : ScopeSub sc1 (enterScope [] vs)) (h : leaveScope sc1 vs = .ok sc2) :
    sc2 = [] ∧ (vs.map (·.sym)).Nodup := by
  refine ⟨scope_nil_of fun x => ?_, leave_nodup vs _ _ h⟩
  have h1 := leave_lookup vs sc1 sc2 h x
  rw [h1]
  split
  · rfl
  · rename_i hx
    cases hd : dlookup sc1 x with
    | none => rfl
    | some v =>
      rcases lookup_enter_mem vs [] x v (hsub x v hd) with ⟨h2, h3⟩ | h2
      · exact absurd (List.mem_map.2 ⟨v, h2, h3⟩) hx
      · simp [dlookup] at h2

theorem agree_params {D} {vs : List Var} {σ : Asg D} {env : String → D} (h : ∀ v ∈ vs, σ v = env v.sym) : AgreeOn (enterScope [] vs) σ env := by
  intro x v hx
  rcases lookup_enter_mem vs [] x v hx with ⟨h2, h3⟩ | h2
  · exact ⟨h3, by rw [h v h2, h3]⟩
  · simp [dlookup] at h2

theorem readYPre_scope {L : YLang} {sc pre f sc'} (h : readYPre L sc pre = .ok (f, sc')) : ScopeSub sc' sc := by
  cases pre with
  | none => cases h; exact fun _ _ h => h
  | some g =>
    simp only [readYPre] at h
    split at h
    · cases h
    · rename_i f' sc'' hg
      cases h
      exact readGD_scope g sc _ _ hg

theorem readYPre_sem {D} {L : YLang} {S : YSem D} {I : Interp D} (hf : YFits L S I) {sc pre f sc'} (hp : ∀ g, pre = some g → PredsOK L g)
    (h : readYPre L sc pre = .ok (f, sc')) {σ : Asg D} {env} (ha : AgreeOn sc σ env) :
    (∀ f', f = some f' → Sat I f' σ) ↔ (∀ g, pre = some g → g.mean S env) := by
  cases pre with
  | none => cases h; simp
  | some g =>
    simp only [readYPre] at h
    split at h
    · cases h
    · rename_i f' sc'' hg
      cases h
      have := readGD_sem hf g (hp g rfl) sc _ _ hg σ env ha
      simp only [Option.some.injEq]
      constructor
      · rintro h1 g' rfl; exact this.1 (h1 _ rfl)
      · rintro h1 f'' rfl; exact this.2 (h1 _ rfl)

theorem readPost_sem {D} {L : YLang} {S : YSem D} {I : Interp D} (hf : YFits L S I) {sc es as} (hp : ∀ l, es = some l → ∀ e ∈ l, e.Plain)
    (h : readPost L sc es = .ok as) {σ : Asg D} {env} (ha : AgreeOn sc σ env) :
    (as.getD []).map (·.update I σ) = (es.getD []).map (·.update S env) ∧ ∀ e ∈ es.getD [], (e.update S env).isSome = true := by
  cases es with
  | none => cases h; simp
  | some l =>
    simp only [readPost] at h
    split at h
    · cases h
    · rename_i as' hl
      cases h
      exact readYCEffs_sem hf ha l as' (hp l rfl) hl

theorem readYAction_ok {L : YLang} {sc a d sc'} (h : readYAction L sc a = .ok (d, sc')) : ∃ sc1, normalizeVars L [] a.params = .ok d.params ∧
    readYPre L (enterScope sc d.params) a.pre = .ok (d.pre, sc1) ∧ readPost L sc1 a.eff = .ok d.post ∧ leaveScope sc1 d.params = .ok sc' ∧ d.name = a.name := by
  unfold readYAction at h
  split at h
  · cases h
  · rename_i vs hv
    split at h
    · cases h
    · rename_i pre sc1 hpre
      split at h
      · cases h
      · rename_i post hpost
        split at h
        · cases h
        · rename_i sc2 hl
          cases h
          exact ⟨sc1, hv, hpre, hpost, hl, rfl⟩

/-! ### Specification: legal actions -/

/-- Effects with well-typed arguments and right-hand sides: predicates are made true or false, numeric fluents get numbers, and
objects are assigned to fluents. -/
def YEff.Legal (L : YLang) (Γ : String → Option String) : YEff → Prop
  | .add (.pred p args) => (YTerm.fn p args).typ L Γ = some "Bool"
  | .del (.pred p args) => (YTerm.fn p args).typ L Γ = some "Bool"
  | .num _ f args e => NumT L ((YTerm.fn f args).typ L Γ) ∧ NumT L (e.typ L Γ)
  | .obj f args t => ∃ s s', (YTerm.fn f args).typ L Γ = some s ∧ t.typ L Γ = some s' ∧ L.base.sub s' s = true
  | _ => False

/-- A legal action without conditional and quantified effects. -/
structure YAction.Legal (L : YLang) (a : YAction) : Prop where
  nodup : ((typedVars a.params).map Prod.fst).Nodup
  types : ∀ t, VTok.type t ∈ a.params → primitiveType t ∈ L.types
  pre : ∀ g, a.pre = some g → g.Legal L (declare (fun _ => none) (typedVars a.params))
  eff : ∀ es, a.eff = some es → ∀ c ∈ es, ∃ e, c = .eff e ∧ e.Legal L (declare (fun _ => none) (typedVars a.params))

/-! ### Proof -/

theorem readYFn_atom {L : YLang} {sc p args u} (h : readYTerm L sc (.fn p args) = .ok u) : readYAtom L sc (.pred p args) = .ok ⟨u, none⟩ := by
  simp only [readYTerm] at h
  simp only [readYAtom]
  cases hr : readYTerms L sc args with
  | error e => simp [hr] at h
  | ok ts =>
    simp only [hr] at h ⊢
    cases hs : L.base.sym p with
    | none => simp [hs] at h
    | some s =>
      cases s with
      | fn dom cod =>
        simp only [hs] at h ⊢
        cases hc : L.base.checkArgs dom ts with
        | error e => simp [hc] at h
        | ok _ => simp only [hc] at h ⊢; cases h; rfl
      | pred _ => simp [hs] at h
      | const _ => simp [hs] at h
      | sort => simp [hs] at h

theorem readYEff_typ {L : YLang} (hL : YStd L) {sc : YScope} (e : YEff) (h : e.Legal L sc.types) : ∃ a, readYEff L sc e = .ok a := by
  cases e with
  | add at_ =>
    cases at_ with
    | pred p args =>
      obtain ⟨u, hu, -⟩ := readYTerm_typ _ _ h
      exact ⟨⟨u, .num 1⟩, by simp only [readYEff, readYFn_atom hu, YAtomVal.right]⟩
    | eq x y => exact h.elim
  | del at_ =>
    cases at_ with
    | pred p args =>
      obtain ⟨u, hu, -⟩ := readYTerm_typ _ _ h
      exact ⟨⟨u, .num 0⟩, by simp only [readYEff, readYFn_atom hu]⟩
    | eq x y => exact h.elim
  | num op f args e =>
    obtain ⟨⟨s, h1, h2⟩, ⟨t, h3, h4⟩⟩ := h
    obtain ⟨u, hu, rfl⟩ := readYTerm_typ _ _ h1
    obtain ⟨w, hw, rfl⟩ := readYExp_typ hL e _ h3
    simp only [readYEff, readYExp, hu, hw]
    cases op with
    | assign => exact ⟨_, rfl⟩
    | scaleUp => simp only [YAssign.oper, (dispatch_num hL (op := "*") (by simp) h2 h4).1]; exact ⟨_, rfl⟩
    | scaleDown => simp only [YAssign.oper, (dispatch_num hL (op := "*") (by simp) h2 h4).1]; exact ⟨_, rfl⟩
    | increase => simp only [YAssign.oper, (dispatch_num hL (op := "+") (by simp) h2 h4).1]; exact ⟨_, rfl⟩
    | decrease => simp only [YAssign.oper, (dispatch_num hL (op := "-") (by simp) h2 h4).1]; exact ⟨_, rfl⟩
  | obj f args t =>
    obtain ⟨s, s', h1, h2, -⟩ := h
    obtain ⟨u, hu, rfl⟩ := readYTerm_typ _ _ h1
    obtain ⟨w, hw, rfl⟩ := readYTerm_typ _ _ h2
    exact ⟨⟨u, .term w⟩, by simp only [readYEff, hu, hw]⟩
  | undefine f args => exact h.elim

theorem readYCEffs_typ {L : YLang} (hL : YStd L) {sc : YScope} : ∀ es : List YCEff, (∀ c ∈ es, ∃ e, c = .eff e ∧ e.Legal L sc.types) →
    ∃ as, readYCEffs L sc es = .ok as := by
  intro es
  induction es with
  | nil => intro _; exact ⟨[], rfl⟩
  | cons c es ih =>
    intro h
    obtain ⟨e, rfl, he⟩ := h c (by simp)
    obtain ⟨a, ha⟩ := readYEff_typ hL e he
    obtain ⟨as, has⟩ := ih fun c hc => h c (by simp [hc])
    exact ⟨a :: as, by simp only [readYCEffs, readYCEff, ha, has]⟩

theorem params_typ {L : YLang} (hL : YStd L) {toks : List VTok} (h1 : ((typedVars toks).map Prod.fst).Nodup) (h2 : ∀ t, VTok.type t ∈ toks → primitiveType t ∈ L.types) :
    ∃ vs, normalizeVars L [] toks = .ok vs ∧ (enterScope [] vs).types = declare (fun _ => none) (typedVars toks) ∧ leaveScope (enterScope [] vs) vs = .ok [] := by
  obtain ⟨vs, hv⟩ := normalizeVars_typ hL toks [] h2
  obtain ⟨e, -, -⟩ := normalizeVars_ok _ _ _ hv
  simp only [List.map_nil, List.nil_append] at e
  refine ⟨vs, hv, ?_, ?_⟩
  · rw [e, types_enter]
    rfl
  · have em : vs.map (·.sym) = (typedVars toks).map Prod.fst := by rw [e, List.map_map]; rfl
    refine leave_enter vs [] (by rw [em]; exact h1) ?_
    intro x _
    rfl

theorem readYAction_typ {L : YLang} (hL : YStd L) (a : YAction) (h : a.Legal L) : ∃ d, readYAction L [] a = .ok (d, []) := by
  obtain ⟨vs, hv, ht, hl⟩ := params_typ hL h.nodup h.types
  have hpre : ∃ f, readYPre L (enterScope [] vs) a.pre = .ok (f, enterScope [] vs) := by
    cases hp : a.pre with
    | none => exact ⟨none, rfl⟩
    | some g =>
      obtain ⟨f, hf⟩ := readGD_typ hL g (enterScope [] vs) (by rw [ht]; exact h.pre g hp)
      exact ⟨some f, by simp only [readYPre, hf]⟩
  obtain ⟨f, hf⟩ := hpre
  have hpost : ∃ as, readPost L (enterScope [] vs) a.eff = .ok as := by
    cases he : a.eff with
    | none => exact ⟨none, rfl⟩
    | some es =>
      obtain ⟨as, has⟩ := readYCEffs_typ hL (sc := enterScope [] vs) es (by rw [ht]; exact h.eff es he)
      exact ⟨some as, by simp only [readPost, has]⟩
  obtain ⟨as, has⟩ := hpost
  exact ⟨⟨a.name, vs, f, as⟩, by simp only [readYAction, hv, hf, has, hl]⟩

/-! ### Theorems -/

/-- C93: an action that is read has the name, the parameters with their types, the condition and the updates that PDDL gives it;
the variables are not in scope afterwards, and no two parameters have the same name. Partial: without `scale-down` and equalities as effects. -/
theorem C93_action_partial {D} {L : YLang} {S : YSem D} {I : Interp D} (hf : YFits L S I) (a : YAction) (d : YActionData) (sc' : YScope)
    (h : readYAction L [] a = .ok (d, sc')) (hpre : ∀ g, a.pre = some g → PredsOK L g) (hpost : ∀ es, a.eff = some es → ∀ e ∈ es, e.Plain) :
    d.name = a.name ∧ d.params = (typedVars a.params).map (fun p => ⟨p.1, typeSort p.2⟩) ∧ (d.params.map (·.sym)).Nodup ∧ sc' = [] ∧
    ∀ (σ : Asg D) (env : String → D), (∀ v ∈ d.params, σ v = env v.sym) →
      ((∀ f, d.pre = some f → Sat I f σ) ↔ (∀ g, a.pre = some g → g.mean S env)) ∧
      (d.post.getD []).map (·.update I σ) = (a.eff.getD []).map (·.update S env) ∧ ∀ e ∈ a.eff.getD [], (e.update S env).isSome = true := by
  obtain ⟨sc1, h1, h2, h3, h4, h5⟩ := readYAction_ok h
  obtain ⟨e, -, -⟩ := normalizeVars_ok _ _ _ h1
  simp only [List.map_nil, List.nil_append] at e
  obtain ⟨h6, h7⟩ := scope_back (readYPre_scope h2) h4
  refine ⟨h5, e, h7, h6, ?_⟩
  intro σ env hσ
  have ha := agree_params hσ
  obtain ⟨h8, h9⟩ := readPost_sem hf hpost h3 (ha.sub (readYPre_scope h2))
  exact ⟨readYPre_sem hf hpre h2 ha, h8, h9⟩

/-- C93: every legal action without conditional and quantified effects is accepted. -/
theorem C93_accepts_partial {L : YLang} (hL : YStd L) (a : YAction) (h : a.Legal L) : ∃ d, readYAction L [] a = .ok (d, []) := readYAction_typ hL a h

/-- C93 refuted in general: no action with a conditional or a quantified effect is read. -/
theorem C93_conditional_refuted (L : YLang) (sc : YScope) (a : YAction) (es : List YCEff) (he : a.eff = some es) (c : YCEff) (hc : c ∈ es)
    (hb : ∀ e, c ≠ .eff e) : ∀ r, readYAction L sc a ≠ .ok r := by
  rintro ⟨d, sc'⟩ h
  obtain ⟨sc1, -, -, h3, -, -⟩ := readYAction_ok h
  rw [he] at h3
  simp only [readPost] at h3
  split at h3
  · cases h3
  · rename_i as hs
    clear h3 he h
    induction es generalizing as with
    | nil => cases hc
    | cons c' es ih =>
      simp only [readYCEffs] at hs
      split at hs
      · cases hs
      · rename_i a' ha
        split at hs
        · cases hs
        · rename_i as' hs'
          obtain ⟨e, rfl, -⟩ := readYCEff_ok ha
          simp only [List.mem_cons] at hc
          rcases hc with rfl | hc
          · exact hb e rfl
          · exact ih hc as' hs'

/-- `(:action drive :parameters (?x ?y - truck ?l) :precondition (and (at ?x ?l) (not (= ?x ?y)))
:effect (and (not (at ?x ?l)) (at ?y ?l) (increase (fuel ?y) 2) (assign (fuel ?x) (- (fuel ?x) 1))))` -/
def exYAction : YAction where
  name := "drive"
  params := [.var "?x", .var "?y", .type "truck", .var "?l"]
  pre := some (.and [.lit (.pred "at" [.var "?x", .var "?l"]), .notLit (.eq (.var "?x") (.var "?y"))])
  eff := some [.eff (.del (.pred "at" [.var "?x", .var "?l"])), .eff (.add (.pred "at" [.var "?y", .var "?l"])),
    .eff (.num .increase "fuel" [.var "?y"] (.nat 2)), .eff (.num .assign "fuel" [.var "?x"] (.bin .minus (.head "fuel" [.var "?x"]) (.nat 1)))]

theorem exYAction_legal : exYAction.Legal exYLang where
  nodup := by simp [exYAction, typedVars, nextType]
  types := by simp [exYAction, exYLang, primitiveType]
  pre := by simp [exYAction, YGD.Legal, YGD.Legals, typedVars, nextType, primitiveType, exYLang, YAtom.Legal, YTerm.typ, YTerm.typs, declare, typeSort]
  eff := by simp [exYAction, YEff.Legal, typedVars, nextType, primitiveType, exYLang, YTerm.typ, YTerm.typs, declare, typeSort, YExp.typ, NumT]; rintro x y (⟨rfl, rfl⟩ | ⟨rfl, rfl⟩) <;> simp

/-- The example is accepted, and its update of the fuel of `?y` adds 2. -/
example : ∃ d, readYAction exYLang [] exYAction = .ok (d, []) ∧
    ∀ (σ : Asg Int), (d.post.getD []).map (·.update exYInterp σ) = (exYAction.eff.getD []).map (·.update exYSem (fun x => if x = "?l" then σ ⟨"?l", "object"⟩ else σ ⟨x, "truck"⟩)) := by
  obtain ⟨d, hd⟩ := C93_accepts_partial exYLang_std exYAction exYAction_legal
  refine ⟨d, hd, ?_⟩
  intro σ
  have := C93_action_partial exYFits exYAction d [] hd (by simp [exYAction, PredsOK, PredsAll, exYLang]) (by simp [exYAction, YCEff.Plain, YEff.Plain])
  refine (this.2.2.2.2 σ _ ?_).2.1
  rw [this.2.1]
  simp [exYAction, typedVars, nextType, typeSort, primitiveType]

/-- C93 refuted in general: `scale-down` multiplies. -/
theorem C93_scale_down_refuted : ∃ (a : YAction) (d : YActionData), readYAction exYLang [] a = .ok (d, []) ∧
    ∃ σ : Asg Int, (d.post.getD []).map (·.update exYInterp σ) ≠ (a.eff.getD []).map (·.update exYSem (fun x => σ ⟨x, "truck"⟩)) := by
  refine ⟨⟨"a", [.var "?x", .type "truck"], none, some [.eff (.num .scaleDown "fuel" [.var "?x"] (.nat 2))]⟩,
    ⟨"a", [⟨"?x", "truck"⟩], none, some [⟨.app "fuel" [.var ⟨"?x", "truck"⟩], .term (.app "*" [.app "fuel" [.var ⟨"?x", "truck"⟩], .const (.int 2) "Integer"])⟩]⟩, ?_, fun _ => 3, ?_⟩
  · simp [readYAction, normalizeVars, primitiveType, exYLang, enterScope, dinsert, readYPre, readPost, readYCEffs, readYCEff, readYEff, readYExp, readYTerm, readYTerms, dlookup,
      RddlLang.checkArgs, RddlLang.sortOf, YAssign.oper, AggLang.dispatch, RddlLang.agg, leaveScope, ddelete]
  · simp [YAssignment.update, YCEff.update, YEff.update, YAssign.apply, YTerm.means, YTerm.mean, YExp.mean, evalT, evalTs, exYInterp, exYSem]

/-- C93 refuted in general: an equality is accepted as an effect, even if it "assigns" a parameter to a constant. -/
theorem C93_equality_refuted : ∃ d, readYAction exYLang [] ⟨"a", [.var "?x"], none, some [.eff (.add (.eq (.id "home") (.var "?x")))]⟩ = .ok (d, []) := by
  refine ⟨⟨"a", [⟨"?x", "object"⟩], none, some [⟨.const (.str "home") "object", .term (.var ⟨"?x", "object"⟩)⟩]⟩, ?_⟩
  simp [readYAction, normalizeVars, exYLang, enterScope, dinsert, readYPre, readPost, readYCEffs, readYCEff, readYEff, readYAtom, readYTerm, dlookup, YAtomVal.right, leaveScope, ddelete]

/-- C93 refuted in general: a predicate may be assigned a number. -/
theorem C93_illtyped_refuted : ∃ d, readYAction exYLang [] ⟨"a", [.var "?x", .type "truck"], none, some [.eff (.num .assign "at" [.var "?x", .var "?x"] (.real "2.5"))]⟩ = .ok (d, []) := by
  refine ⟨⟨"a", [⟨"?x", "truck"⟩], none, some [⟨.app "at" [.var ⟨"?x", "truck"⟩, .var ⟨"?x", "truck"⟩], .term (.const (.str "2.5") "Real")⟩]⟩, ?_⟩
  simp [readYAction, normalizeVars, primitiveType, exYLang, enterScope, dinsert, readYPre, readPost, readYCEffs, readYCEff, readYEff, readYExp, readYTerm, readYTerms, dlookup,
      RddlLang.checkArgs, RddlLang.sortOf, YAssign.oper, leaveScope, ddelete]

end Tarski

import Verif.Props.PddlPlan
import Verif.Props.PddlFile
/-! C123: problems that were read from PDDL files can be written and read again. -/
namespace Tarski

/-! ### Specification -/

/-- Variables that are declared inside of the scope of others: a question mark and an identifier in lower case, all different,
of sorts that are not intervals. -/
def FreshVars (D : PDecls) (sc vs : List Var) : Prop :=
  (∀ v ∈ vs, (∃ n, v.sym = "?" ++ n ∧ LowerName n) ∧ D.bounds v.sort = none) ∧ ((sc ++ vs).map Var.sym).Nodup

mutual
/-- A condition without functions and numbers, in which no variable is declared twice and terms are compared with `=` and `≠` only. -/
def AgainF (D : PDecls) (sc : List Var) : Formula → Prop
  | .top => True
  | .bot => True
  | .atom (.user _) ts => ∀ t ∈ ts, PlainArg t
  | .atom (.cmp c) ts => D.equality = true ∧ (c = .eq ∨ c = .ne) ∧ ∀ t ∈ ts, PlainArg t
  | .comp _ _ fs => AgainFs D sc fs
  | .quant _ vs f => ∃ ws : List Var, vs = ws.map Term.var ∧ FreshVars D sc ws ∧ AgainF D (sc ++ ws) f
def AgainFs (D : PDecls) (sc : List Var) : List Formula → Prop
  | [] => True
  | f :: fs => AgainF D sc f ∧ AgainFs D sc fs
end

mutual
/-- An effect that adds or deletes an atom, perhaps under a condition, or effects for all values of variables. -/
def AgainE (D : PDecls) (sc : List Var) : Effect → Prop
  | .add c p ts => AgainF D sc c ∧ (∃ q, p = .user q) ∧ ∀ t ∈ ts, PlainArg t
  | .del c p ts => AgainF D sc c ∧ (∃ q, p = .user q) ∧ ∀ t ∈ ts, PlainArg t
  | .univ c vs es => c = .top ∧ FreshVars D sc vs ∧ AgainEs D (sc ++ vs) es
  | .lit _ _ => False
  | .assign _ _ _ _ => False
def AgainEs (D : PDecls) (sc : List Var) : List Effect → Prop
  | [] => True
  | e :: es => AgainE D sc e ∧ AgainEs D sc es
end

/-- The files make use of sorts, objects, predicates and actions with quantified conditions and effects, but not of numbers and functions;
and no name is a reserved word, which may happen as names are changed to lower case only after they were recognised as names. -/
structure AgainProblem (p : PProblem) : Prop where
  sorts : ∀ d ∈ p.lang.sorts, d.bounds = none ∧ reserved d.name = none ∧ d.name ∉ ["real", "Real", "Integer"]
  consts : ∀ n s, (Name.str n, s) ∈ p.lang.consts → reserved n = none
  preds : ∀ q ∈ p.lang.preds, reserved q.1 = none ∧ ∀ s ∈ q.2, p.lang.bounds s = none
  funs : p.lang.funs = []
  ite : p.lang.arithmetic = true → Name.str "ite" ∉ p.lang.vocabulary
  actions : ∀ a ∈ p.actions, a.name.toList.head? ≠ some '@' ∧ FreshVars p.lang [] a.params ∧ AgainF p.lang a.params a.pre ∧
    AgainEs p.lang a.params a.effs ∧ a.cost = none
  goal : ∀ g, p.goal = some g → AgainF p.lang [] g
  metric : p.metric = none

/-! ### Names -/

theorem lower_letter {x : Char} (h : x.isLower = true) : lowerC x = x ∧ isLetter x = true := by
  have h' : 'a' ≤ x ∧ x ≤ 'z' := by
    simp only [Char.isLower, Bool.and_eq_true, decide_eq_true_eq] at h
    exact h
  refine ⟨?_, by simp [isLetter, h'.1, h'.2]⟩
  have h2 : ¬ (x ≤ 'Z') := by
    simp only [Char.le_def, UInt32.le_iff_toNat_le] at h' ⊢
    have a : 'a'.val.toNat = 97 := rfl
    have b : 'Z'.val.toNat = 90 := rfl
    omega
  simp [lowerC, h2]

theorem digit_word' {x : Char} (h : x.isDigit = true) : lowerC x = x ∧ isWordChar x = true := by
  have h' : '0' ≤ x ∧ x ≤ '9' := by
    simp only [Char.isDigit, Bool.and_eq_true, decide_eq_true_eq] at h
    exact h
  refine ⟨?_, by simp [isWordChar, isDig, h'.1, h'.2]⟩
  have h2 : ¬ ('A' ≤ x) := by
    simp only [Char.le_def, UInt32.le_iff_toNat_le] at h' ⊢
    have a : '9'.val.toNat = 57 := rfl
    have b : 'A'.val.toNat = 65 := rfl
    omega
  simp [lowerC, h2]

theorem lowerC_of_lower {x : Char} (h : x.isLower = true ∨ x.isDigit = true ∨ x = '-' ∨ x = '_') : lowerC x = x ∧ isWordChar x = true := by
  rcases h with h | h | rfl | rfl
  · exact ⟨(lower_letter h).1, by simp [isWordChar, (lower_letter h).2]⟩
  · exact digit_word' h
  · decide
  · decide

theorem LowerName.pname {n : String} (h : LowerName n) (hr : reserved n = none) : PName n := by
  obtain ⟨c, cs, h1, h2, h3⟩ := h
  refine ⟨hr, fun d hd => ?_, c, cs, h1, (lower_letter h2).2, fun d hd => (lowerC_of_lower (h3 d hd)).2⟩
  rw [h1] at hd
  rcases List.mem_cons.1 hd with rfl | hd
  · exact (lower_letter h2).1
  · exact (lowerC_of_lower (h3 d hd)).1

theorem printVarName_q (n : String) : printVarName ("?" ++ n) = '?' :: n.toList := by
  simp [printVarName, String.toList_append]

theorem LowerName.vname {n : String} (h : LowerName n) : VName ("?" ++ n) ∧ ∀ s, (pvar ⟨"?" ++ n, s⟩).sym = "?" ++ n := by
  obtain ⟨c, cs, h1, h2, h3⟩ := h
  refine ⟨⟨c, cs, by rw [printVarName_q, h1], (lower_letter h2).2, fun d hd => (lowerC_of_lower (h3 d hd)).2⟩, fun s => ?_⟩
  show lowerS (String.ofList (printVarName ("?" ++ n))) = _
  rw [printVarName_q]
  apply String.toList_injective
  have hm : n.toList.map lowerC = n.toList := by
    conv_rhs => rw [← List.map_id n.toList]
    refine List.map_congr_left fun x hx => ?_
    rw [h1] at hx
    rcases List.mem_cons.1 hx with rfl | hx
    · exact (lower_letter h2).1
    · exact (lowerC_of_lower (h3 x hx)).1
  simp [lowerS, String.toList_append, hm, lowerC]

section
variable {p : PProblem} (W : WellFormedProblem p) (A : AgainProblem p)
include W A

/-! ### Sorts -/

theorem again_sort {d : SDecl} (hd : d ∈ p.lang.sorts) : PName d.name := by
  rcases W.lang.sortNames d hd with h | h
  · exact h.pname (A.sorts d hd).2.1
  · exact absurd h (fun h => (A.sorts d hd).2.2 (by simp only [List.mem_cons, List.not_mem_nil, or_false] at h ⊢; tauto))

theorem again_userSort {s : String} (hs : p.lang.hasSort s = true) (hb : p.lang.bounds s = none) : UserSort p.lang s ∧ SName s := by
  simp only [PDecls.hasSort, Bool.or_eq_true, beq_iff_eq] at hs
  rcases hs with rfl | hs
  · exact ⟨.inl rfl, .inr (.inl rfl)⟩
  · obtain ⟨d, he⟩ := Option.isSome_iff_exists.1 hs
    have hn : d.name = s := by simpa using List.find?_some he
    have hm := List.mem_of_find?_eq_some he
    simp only [PDecls.allSorts, List.mem_append] at hm
    rcases hm with hm | hm
    · exfalso
      split at hm
      · have h1 : ∀ d ∈ builtinSorts, d.bounds ≠ none := by decide
        simp only [PDecls.bounds, he, Option.bind_some] at hb
        exact h1 d hm hb
      · cases hm
    · exact ⟨.inr ⟨d, hm, hn⟩, .inl (hn ▸ again_sort W A hm)⟩

omit W A in
theorem SortsFrom.split : ∀ {pre : List SDecl} {seen : List String} {d : SDecl} {post : List SDecl}, SortsFrom seen (pre ++ d :: post) →
    d.parent ∈ seen ∨ ∃ e ∈ pre, e.name = d.parent
  | [], _, _, _, h => .inl h.2.1
  | e :: pre, seen, d, post, h => by
    rcases SortsFrom.split (pre := pre) h.2.2 with h' | ⟨e', he', hn⟩
    · rcases List.mem_cons.1 h' with h' | h'
      · exact .inr ⟨e, List.mem_cons_self, h'.symm⟩
      · exact .inl h'
    · exact .inr ⟨e', List.mem_cons_of_mem _ he', hn⟩

theorem again_parent {pre post : List SDecl} {d : SDecl} (h : p.lang.sorts = pre ++ d :: post) : OkParent p.lang pre d := by
  have hd : d ∈ p.lang.sorts := by rw [h]; simp
  have hb := (A.sorts d hd).1
  refine .inl ⟨hb, ?_⟩
  have hs := W.lang.sorts
  rw [PDecls.allSorts, h, ← List.append_assoc] at hs
  rcases SortsFrom.split hs with h' | ⟨e, he, hn⟩
  · exact .inl (by simpa using h')
  · rcases List.mem_append.1 he with he | he
    · exfalso
      split at he
      · have := (W.lang.intervals d hd).2 (List.mem_map.2 ⟨e, he, hn⟩)
        rw [hb] at this; cases this
      · cases he
    · exact .inr ⟨e, he, hn⟩

theorem again_decls : OkDecls p.lang where
  sorts d hd := ⟨again_sort W A hd, fun h => (A.sorts d hd).2.2 (by simp [h])⟩
  parents _ _ _ h := again_parent W A h
  consts c hc := by
    obtain ⟨⟨n, h1, h2⟩, h3, h4⟩ := W.lang.consts c hc
    refine ⟨⟨n, h1, h2.pname (A.consts n c.2 (h1 ▸ hc))⟩, (again_userSort W A h3 h4).1, h4⟩
  preds q hq := by
    obtain ⟨h1, h2⟩ := W.lang.preds q hq
    exact ⟨h1.pname (A.preds q hq).1, fun s hs => (again_userSort W A (h2 s hs) ((A.preds q hq).2 s hs)).1⟩
  funs f hf := by rw [A.funs] at hf; cases hf
  distinct := by
    refine List.Nodup.sublist ?_ W.lang.names
    simp only [PDecls.vocabulary, PDecls.allSorts, List.map_cons, List.map_append, List.map_map]
    refine List.Sublist.append (List.Sublist.append (List.Sublist.append ?_ (List.Sublist.refl _)) (List.Sublist.refl _)) (List.Sublist.refl _)
    exact .cons _ (List.sublist_append_right _ _)
  noIte h hm := by
    refine A.ite h ?_
    simp only [PDecls.vocabulary, PDecls.allSorts, List.mem_append, List.mem_map, List.mem_cons] at hm ⊢
    rcases hm with ((hm | hm) | hm) | hm
    · obtain ⟨d, hd, e⟩ := hm
      exact .inl (.inl (.inl ⟨d.name, .inr ⟨d, .inr hd, rfl⟩, e⟩))
    · exact .inl (.inl (.inr hm))
    · exact .inl (.inr hm)
    · exact .inr hm
  cost := .inr (by rw [A.funs]; rfl)

/-! ### Terms and conditions -/

theorem again_const {n : String} {s : String} (h : (Name.str n, s) ∈ p.lang.consts) : PName n ∧ p.lang.rlang.consts n = some s := by
  obtain ⟨⟨m, h1, h2⟩, -⟩ := W.lang.consts _ h
  cases h1
  exact ⟨h2.pname (A.consts n s h), dlookup_mem_nodup W.lang.constKeys h⟩

theorem again_term {sc : Var → Prop} {ps : List Var} (hs : ∀ v, sc v → v ∈ ps) {t : Term} (h : ScopedT p.lang sc t) (hp : PlainArg t) :
    OkT p.lang.rlang p.lang.real ps t := by
  match t, hp, h with
  | .var v, _, h => exact hs v h
  | .const (.str n) s, _, h =>
    rcases h with h | ⟨⟨i, hi⟩, -⟩
    · exact again_const W A h
    · cases hi

theorem again_atom {sc : Var → Prop} {ps : List Var} (hs : ∀ v, sc v → v ∈ ps) : ∀ {ts : List Term} {ss : List String}, ScopedTs p.lang sc ts →
    (∀ t ∈ ts, PlainArg t) → List.Forall₂ (fun t s => p.lang.isSub (p.lang.rlang.sortOf t) s = true) ts ss → OkAtom p.lang.rlang p.lang.real ps ts ss
  | _, _, _, _, .nil => trivial
  | _, _, h, hp, .cons h1 h2 => ⟨again_term W A hs h.1 (hp _ List.mem_cons_self), h1,
      again_atom hs h.2 (fun t ht => hp t (List.mem_cons_of_mem _ ht)) h2⟩

theorem again_user {sc : Var → Prop} {ps : List Var} (hs : ∀ v, sc v → v ∈ ps) {q : String} {ts : List Term} (h : ScopedAtom p.lang sc (.user q) ts)
    (hp : ∀ t ∈ ts, PlainArg t) : PName q ∧ ∃ ss, p.lang.rlang.preds q = some ss ∧ OkAtom p.lang.rlang p.lang.real ps ts ss := by
  obtain ⟨h1, ss, h2, h3⟩ := h
  exact ⟨(W.lang.preds _ h2).1.pname (A.preds _ h2).1, ss, dlookup_mem_nodup W.lang.keys.1 h2, again_atom W A hs h1 hp h3⟩

theorem again_vars {ps ws : List Var} (hw : ∀ v ∈ ps, ∃ n, v.sym = "?" ++ n ∧ LowerName n) (hs : ∀ v ∈ ws, p.lang.hasSort v.sort = true)
    (h : FreshVars p.lang ps ws) : OkDecl p.lang.rlang ps ws := by
  refine ⟨fun v hv => ?_, ?_⟩
  · obtain ⟨⟨n, h1, h2⟩, h3⟩ := h.1 v hv
    exact ⟨h1 ▸ h2.vname.1, (again_userSort W A (hs v hv) h3).2, hs v hv⟩
  · have : (ps ++ ws).map (fun v => (pvar v).sym) = (ps ++ ws).map Var.sym := by
      refine List.map_congr_left fun v hv => ?_
      obtain ⟨n, h1, h2⟩ : ∃ n, v.sym = "?" ++ n ∧ LowerName n := by
        rcases List.mem_append.1 hv with hv | hv
        · exact hw v hv
        · exact (h.1 v hv).1
      have := h2.vname.2 v.sort
      rw [← h1] at this
      exact this
    rw [this]
    exact h.2

omit W A in
theorem vars_inj : ∀ {ws us : List Var}, ws.map Term.var = us.map Term.var → ws = us
  | [], [], _ => rfl
  | [], _ :: _, h => by cases h
  | _ :: _, [], h => by cases h
  | w :: ws, u :: us, h => by
    simp only [List.map_cons, List.cons.injEq, Term.var.injEq] at h
    rw [h.1, vars_inj h.2]

omit W A in
theorem fresh_names {ps ws : List Var} (hw : ∀ v ∈ ps, ∃ n, v.sym = "?" ++ n ∧ LowerName n) (h : FreshVars p.lang ps ws) :
    ∀ v ∈ ps ++ ws, ∃ n, v.sym = "?" ++ n ∧ LowerName n := by
  intro v hv
  rcases List.mem_append.1 hv with hv | hv
  · exact hw v hv
  · exact (h.1 v hv).1

end

section
variable {p : PProblem}

mutual
theorem again_cond (W : WellFormedProblem p) (A : AgainProblem p) {sc : Var → Prop} {ps : List Var} (hs : ∀ v, sc v → v ∈ ps)
    (hw : ∀ v ∈ ps, ∃ n, v.sym = "?" ++ n ∧ LowerName n) : ∀ f : Formula, ScopedF p.lang sc f → AgainF p.lang ps f → OkF p.lang.rlang p.lang.real ps f
  | .top, _, _ => trivial
  | .bot, h, _ => h.elim
  | .atom (.user _) ts, h, hp => again_user W A hs h hp
  | .atom (.cmp c) ts, h, hp => by
    obtain ⟨heq, hc, hp⟩ := hp
    have hc' : p.lang.rlang.equality = true := heq
    obtain ⟨h1, h2, h3⟩ := h
    rw [if_pos hc] at h3
    have key : OkTwo p.lang.rlang p.lang.real ps "object" ts := by
      match ts, h2, h1, h3, hp with
      | [a, b], _, h1, h3, hp =>
        exact ⟨.inl ⟨again_term W A hs h1.1 (hp a (by simp)), again_term W A hs h1.2.1 (hp b (by simp))⟩, h3 a (by simp), h3 b (by simp)⟩
    rcases hc with rfl | rfl
    · exact ⟨hc', key⟩
    · exact ⟨hc', key⟩
  | .comp _ .not fs, h, hp => ⟨h.1 rfl, again_conds W A hs hw fs h.2.2 hp⟩
  | .comp _ .and fs, h, hp => ⟨h.2.1 (by simp), again_conds W A hs hw fs h.2.2 hp⟩
  | .comp _ .or fs, h, hp => ⟨h.2.1 (by simp), again_conds W A hs hw fs h.2.2 hp⟩
  | .quant _ vs f, h, hp => by
    obtain ⟨ws, h1, h2, h3, h4⟩ := h
    obtain ⟨us, h5, h6, h7⟩ := hp
    have : ws = us := vars_inj (h2.symm.trans h5)
    subst this
    exact ⟨ws, h2, h1, again_vars W A hw h3 h6, again_cond W A (sc := fun v => sc v ∨ v ∈ ws)
      (fun v hv => List.mem_append.2 (hv.imp (hs v) id)) (fresh_names hw h6) f h4 h7⟩
theorem again_conds (W : WellFormedProblem p) (A : AgainProblem p) {sc : Var → Prop} {ps : List Var} (hs : ∀ v, sc v → v ∈ ps)
    (hw : ∀ v ∈ ps, ∃ n, v.sym = "?" ++ n ∧ LowerName n) : ∀ fs : List Formula, ScopedFs p.lang sc fs → AgainFs p.lang ps fs → OkFs p.lang.rlang p.lang.real ps fs
  | [], _, _ => trivial
  | f :: fs, h, hp => ⟨again_cond W A hs hw f h.1 hp.1, again_conds W A hs hw fs h.2 hp.2⟩
end

mutual
theorem again_eff (W : WellFormedProblem p) (A : AgainProblem p) {sc : Var → Prop} {ps : List Var} (hs : ∀ v, sc v → v ∈ ps)
    (hw : ∀ v ∈ ps, ∃ n, v.sym = "?" ++ n ∧ LowerName n) : ∀ e : Effect, ScopedE p.lang sc e → AgainE p.lang ps e → OkE p.lang.rlang p.lang.real ps e
  | .add c q ts, h, hp => by
    obtain ⟨h1, ⟨q, rfl⟩, h2⟩ := hp
    exact ⟨again_cond W A hs hw c h.1 h1, again_user W A hs h.2 h2⟩
  | .del c q ts, h, hp => by
    obtain ⟨h1, ⟨q, rfl⟩, h2⟩ := hp
    exact ⟨again_cond W A hs hw c h.1 h1, again_user W A hs h.2 h2⟩
  | .lit _ _, _, hp => hp.elim
  | .assign _ _ _ _, _, hp => hp.elim
  | .univ c vs es, h, hp => by
    obtain ⟨h1, h2, h3⟩ := hp
    exact ⟨h1, again_vars W A hw h.2.1 h2, again_effs W A (sc := fun v => sc v ∨ v ∈ vs)
      (fun v hv => List.mem_append.2 (hv.imp (hs v) id)) (fresh_names hw h2) es h.2.2 h3⟩
theorem again_effs (W : WellFormedProblem p) (A : AgainProblem p) {sc : Var → Prop} {ps : List Var} (hs : ∀ v, sc v → v ∈ ps)
    (hw : ∀ v ∈ ps, ∃ n, v.sym = "?" ++ n ∧ LowerName n) : ∀ es : List Effect, ScopedEs p.lang sc es → AgainEs p.lang ps es → OkEs p.lang.rlang p.lang.real ps es
  | [], _, _ => trivial
  | e :: es, h, hp => ⟨again_eff W A hs hw e h.1 hp.1, again_effs W A hs hw es h.2 hp.2⟩
end

theorem again_notCost : ∀ {es : List Effect} {ps : List Var}, AgainEs p.lang ps es → ∀ e ∈ es, NotCost e
  | e :: es, ps, h, e', he => by
    rcases List.mem_cons.1 he with rfl | he
    · match e', h.1 with
      | .add _ _ _, _ => trivial
      | .del _ _ _, _ => trivial
      | .univ _ _ _, _ => trivial
    · exact again_notCost h.2 e' he

/-! ### The problem -/

variable (W : WellFormedProblem p) (A : AgainProblem p)
include W A

theorem again_action {a : PAction} (ha : a ∈ p.actions) : OkAction p.lang.rlang p.lang.real a := by
  obtain ⟨h1, h2, h3, h4, h5⟩ := A.actions a ha
  have S := W.actions a ha
  have hw : ∀ v ∈ a.params, ∃ n, v.sym = "?" ++ n ∧ LowerName n := fun v hv => (S.params v hv).1
  refine ⟨?_, again_vars W A (by simp) (fun v hv => (S.params v hv).2) h2, again_cond W A (fun _ h => h) hw _ S.pre h3,
    again_effs W A (fun _ h => h) hw _ S.effs h4, again_notCost h4, ?_⟩
  · rcases S.name with h | ⟨n, h, -⟩
    · exact h
    · exact absurd (by rw [h, String.toList_append]; rfl) h1
  · rw [h5]; trivial

theorem again_point {pt : List Const} {ss : List String} (hb : ∀ s ∈ ss, p.lang.bounds s = none) (h : List.Forall₂ (ArgOf p.lang) pt ss) :
    List.Forall₂ (fun c s => ConOk p.lang.mlang p.lang.rlang s c ∧ p.lang.rlang.isSub c.sort s = true) pt ss := by
  induction h with
  | nil => exact .nil
  | @cons c s pt ss h1 _ ih =>
    refine .cons ?_ (ih fun s hs => hb s (List.mem_cons_of_mem _ hs))
    rcases h1 with ⟨h1, h2⟩ | ⟨-, -, h3⟩
    · obtain ⟨⟨n, h3, -⟩, -⟩ := W.lang.consts _ h1
      have h3' : c.name = .str n := h3
      rw [h3'] at h1
      exact ⟨.inl ⟨n, h3', again_const W A h1⟩, h2⟩
    · rw [hb s List.mem_cons_self] at h3; cases h3

theorem again_problem (hi : ∃ ops, p.init = MState.empty.run p.lang.mlang ops) : OkProblem p p.lang.consts where
  domain := {
    domainName := W.domainName
    decls := again_decls W A
    domSub := fun _ h => h
    domNodup := W.lang.constKeys.of_map _
    actions := fun a ha => again_action W A ha
    actionNames := W.names
    noDerived := W.derived }
  name := W.name
  init := hi
  facts q pt h := by
    obtain ⟨ss, h1, h2⟩ := W.facts q pt h
    exact ⟨(W.lang.preds _ h1).1.pname (A.preds _ h1).1, ss, dlookup_mem_nodup W.lang.keys.1 h1, again_point W A (A.preds _ h1).2 h2⟩
  values f pt v h := by
    obtain ⟨ss, s, h1, -⟩ := W.values f pt v h
    rw [A.funs] at h1; cases h1
  goal := by
    obtain ⟨g, h1, h2⟩ := W.goal
    exact ⟨g, h1, again_cond W A (fun _ h => h.elim) (by simp) g h2 (A.goal g h1)⟩
  metric mn t h := by rw [A.metric] at h; cases h

end

/-! ### The theorem -/

theorem readProblemFiles_eq (D0 : PDecls) (dom inst : Text) : readProblemFiles false D0 dom inst = readProblem D0 dom inst := by
  have key : ∀ t, sxTree (lexFile false t) = readOne t := by
    intro t
    unfold sxTree lexFile readOne readTrees
    cases lexPddl t with
    | error e => rfl
    | ok ts => rfl
  unfold readProblemFiles readProblem parseDomain readDomainText
  rw [key, key]
  cases readOne dom <;> rfl

/-- C123: whatever two files the reader accepts, if they make no use of numbers and functions (and change no name to a reserved word), then
the problem can be written, in any order of the requirements, and reading what was written gives the same problem. -/
theorem C123_read_write_read (ci : Bool) (D0 : PDecls) (h1 : D0.sorts = []) (h2 : D0.consts = []) (h3 : D0.preds = []) (h4 : D0.funs = [])
    (dom inst : Text) (p : PProblem) (h : readProblemFiles ci D0 dom inst = .ok p) (A : AgainProblem p)
    (rs : List Text) (hrs : rs.Perm p.lang.requirements) :
    ∃ domain instance' p', printDomain p rs p.lang.consts = .ok domain ∧ printInstance p p.lang.consts = .ok instance' ∧
      readProblemFiles false p.lang.bare domain instance' = .ok p' ∧ SameProblem p p' := by
  obtain ⟨W, ⟨d, hd, hb⟩ | hi⟩ := readFiles_ok (wellDeclared_bare h1 h2 h3 h4) h
  · rw [(A.sorts d hd).1] at hb; cases hb
  · simp only [readProblemFiles_eq]
    exact C55_problem_round_trip_partial p p.lang.consts rs (again_problem W A hi) hrs

/-! ### Examples -/

/-- Two files that the reader accepts, with a problem as required. -/
theorem flipProblem_again : AgainProblem flipProblem where
  sorts := by decide
  consts n s h := by
    simp only [flipProblem, List.mem_singleton, Prod.mk.injEq, Name.str.injEq] at h
    rw [h.1]; decide
  preds := by decide
  funs := rfl
  ite := by decide
  actions a ha := by
    simp only [flipProblem, List.mem_singleton] at ha
    subst ha
    refine ⟨by decide, ⟨fun v hv => ?_, by decide⟩, by simp [flipAct, AgainF, PlainArg], ?_, rfl⟩
    · simp only [flipAct, List.mem_singleton] at hv
      subst hv
      exact ⟨⟨"x", rfl, lowerName_x⟩, by decide⟩
    · simp [flipAct, AgainEs, AgainE, AgainF, PlainArg]
  goal g hg := by
    simp only [flipProblem, Option.some.injEq] at hg
    subst hg
    simp [neg, AgainF, AgainFs, PlainArg, flipObj, Const.toTerm]
  metric := rfl

example : ∃ domain inst p', printDomain flipProblem flipProblem.lang.requirements flipProblem.lang.consts = .ok domain ∧
    printInstance flipProblem flipProblem.lang.consts = .ok inst ∧
    readProblemFiles false flipProblem.lang.bare domain inst = .ok p' ∧ SameProblem flipProblem p' :=
  C123_read_write_read false bareLang rfl rfl rfl rfl _ _ _ flip_read flipProblem_again _ (List.Perm.refl _)

/-- A quantified condition and a universal effect under a condition are allowed. -/
example : AgainF flipProblem.lang [] (.quant .forall [.var ⟨"?x", "object"⟩] (.atom (.user "p") [.var ⟨"?x", "object"⟩])) ∧
    AgainE flipProblem.lang [] (.univ .top [⟨"?x", "object"⟩] [.add (.atom (.user "p") [.var ⟨"?x", "object"⟩]) (.user "q") [.var ⟨"?x", "object"⟩]]) := by
  have hf : FreshVars flipProblem.lang [] [⟨"?x", "object"⟩] := by
    refine ⟨fun v hv => ?_, by decide⟩
    simp only [List.mem_singleton] at hv
    subst hv
    exact ⟨⟨"x", rfl, lowerName_x⟩, by decide⟩
  exact ⟨⟨[⟨"?x", "object"⟩], rfl, hf, by simp [AgainF, PlainArg]⟩, rfl, hf, by simp [AgainEs, AgainE, AgainF, PlainArg]⟩

def withinDomText : Text := "(define(domain d)(:predicates(Within)(q))(:action a :parameters():precondition(q):effect(Within)))".toList
def withinInstText : Text := "(define(problem x)(:domain d)(:init(q))(:goal(Within)))".toList

/-- What is read from these files: the name of the predicate was changed to lower case, and is a reserved word now. -/
def withinProblem : PProblem where
  name := "x"
  domainName := "d"
  lang := ⟨true, false, false, [], [], [("within", []), ("q", [])], []⟩
  init := { MState.empty with preds := [(["q"], [[]])] }
  goal := some (.atom (.user "within") [])
  actions := [⟨"a", [], .atom (.user "q") [], [.add .top (.user "within") []], none⟩]
  derived := []
  metric := none

set_option maxRecDepth 100000 in
theorem withinDom_tokens : lexFile false withinDomText = .ok [.lpar, .kw .kDefine, .lpar, .kw .kDomain, .name "d", .rpar, .lpar,
    .ckw .predicates, .lpar, .name "Within", .rpar, .lpar, .name "q", .rpar, .rpar, .lpar, .ckw .action, .name "a", .ckw .parameters, .lpar, .rpar,
    .ckw .precondition, .lpar, .name "q", .rpar, .ckw .effect, .lpar, .name "Within", .rpar, .rpar, .rpar] := by decide +kernel

set_option maxRecDepth 100000 in
theorem withinInst_tokens : lexFile false withinInstText = .ok [.lpar, .kw .kDefine, .lpar, .kw .kProblem, .name "x", .rpar, .lpar,
    .ckw .domain, .name "d", .rpar, .lpar, .ckw .init, .lpar, .name "q", .rpar, .rpar, .lpar, .ckw .goal, .lpar, .name "Within", .rpar, .rpar, .rpar] := by
  decide +kernel

theorem within_read : readProblemFiles false bareLang withinDomText withinInstText = .ok withinProblem := by
  unfold readProblemFiles parseDomain
  rw [withinDom_tokens, withinInst_tokens]
  rfl

/-- What the writer makes of it is no PDDL for the reader. -/
theorem within_rejected : (match printDomain withinProblem withinProblem.lang.requirements [] with
    | .ok d => (match readDomainText withinProblem.lang.bare d with
      | .error e => decide (e = .syntactic)
      | .ok _ => false)
    | .error _ => false) = true := by decide +kernel

/-- C123 without the condition on reserved words: refuted. There are files that the reader accepts, without numbers and functions,
from which the writer makes a domain file that the reader rejects. -/
theorem C123_read_write_read_refuted : ∃ dom inst p domain, readProblemFiles false bareLang dom inst = .ok p ∧
    p.lang.sorts = [] ∧ p.lang.consts = [] ∧ p.lang.funs = [] ∧ p.metric = none ∧
    printDomain p p.lang.requirements p.lang.consts = .ok domain ∧
    ∀ inst', readProblemFiles false p.lang.bare domain inst' = .error .syntactic := by
  have h := within_rejected
  split at h
  · rename_i d hd
    refine ⟨_, _, withinProblem, d, within_read, rfl, rfl, rfl, rfl, hd, fun inst' => ?_⟩
    split at h
    · rename_i e he
      have he' : e = .syntactic := by simpa using h
      subst he'
      rw [readProblemFiles_eq]
      simp only [readProblem, he]
    · cases h
  · cases h

end Tarski

import Mathlib.Tactic.Common
import Verif.Simplify
import Verif.ChangesLemmas
import Verif.Props.Evaluator
import Verif.Props.Effects
namespace Tarski

/-! ### Flattening does not change evaluation -/

theorem evAll_append (L : MLang) (m : MState) (σ) (as bs : List Formula) :
    evAll L m σ (as ++ bs) = match evAll L m σ as with
      | .ok true => evAll L m σ bs
      | .ok false => .ok false
      | .error e => .error e := by
  induction as with
  | nil => simp [evAll]
  | cons a as ih =>
    simp only [List.cons_append, evAll]
    cases evFormula L m σ a with
    | error e => rfl
    | ok b => cases b <;> simp [ih]

theorem evAny_append (L : MLang) (m : MState) (σ) (as bs : List Formula) :
    evAny L m σ (as ++ bs) = match evAny L m σ as with
      | .ok true => .ok true
      | .ok false => evAny L m σ bs
      | .error e => .error e := by
  induction as with
  | nil => simp [evAny]
  | cons a as ih =>
    simp only [List.cons_append, evAny]
    cases evFormula L m σ a with
    | error e => rfl
    | ok b => cases b <;> simp [ih]

theorem evAll_single (L : MLang) (m : MState) (σ) (f : Formula) : evAll L m σ [f] = evFormula L m σ f := by
  simp only [evAll]
  cases evFormula L m σ f with
  | error e => rfl
  | ok b => cases b <;> rfl

theorem evAny_single (L : MLang) (m : MState) (σ) (f : Formula) : evAny L m σ [f] = evFormula L m σ f := by
  simp only [evAny]
  cases evFormula L m σ f with
  | error e => rfl
  | ok b => cases b <;> rfl

mutual
theorem evAll_flattenAux (L : MLang) (m : MState) (σ) : ∀ f, evAll L m σ (flattenAux .and f) = evFormula L m σ f
  | .comp k d fs => by
    simp only [flattenAux]
    split
    · rename_i h; subst h
      simp only [evFormula]
      exact evAll_flattenAuxs L m σ fs
    · exact evAll_single ..
  | .top => by simp [flattenAux, evAll, evFormula]
  | .bot => by simp [flattenAux, evAll, evFormula]
  | .atom p ts => by simp only [flattenAux]; exact evAll_single ..
  | .quant q vs f => by simp only [flattenAux]; exact evAll_single ..
theorem evAll_flattenAuxs (L : MLang) (m : MState) (σ) : ∀ fs, evAll L m σ (flattenAuxs .and fs) = evAll L m σ fs
  | [] => rfl
  | f :: fs => by
    rw [flattenAuxs, evAll_append, evAll_flattenAux L m σ f, evAll_flattenAuxs L m σ fs]
    simp only [evAll]
    cases evFormula L m σ f with
    | error e => rfl
    | ok b => cases b <;> rfl
end

mutual
theorem evAny_flattenAux (L : MLang) (m : MState) (σ) : ∀ f, evAny L m σ (flattenAux .or f) = evFormula L m σ f
  | .comp k d fs => by
    simp only [flattenAux]
    split
    · rename_i h; subst h
      simp only [evFormula]
      exact evAny_flattenAuxs L m σ fs
    · exact evAny_single ..
  | .top => by simp [flattenAux, evAny, evFormula]
  | .bot => by simp [flattenAux, evAny, evFormula]
  | .atom p ts => by simp only [flattenAux]; exact evAny_single ..
  | .quant q vs f => by simp only [flattenAux]; exact evAny_single ..
theorem evAny_flattenAuxs (L : MLang) (m : MState) (σ) : ∀ fs, evAny L m σ (flattenAuxs .or fs) = evAny L m σ fs
  | [] => rfl
  | f :: fs => by
    rw [flattenAuxs, evAny_append, evAny_flattenAux L m σ f, evAny_flattenAuxs L m σ fs]
    simp only [evAny]
    cases evFormula L m σ f with
    | error e => rfl
    | ok b => cases b <;> rfl
end

/-- Evaluating a flattened formula gives the same result or exception. -/
theorem evFormula_flatten (L : MLang) (m : MState) (σ) (f : Formula) :
    evFormula L m σ (flatten f) = evFormula L m σ f := by
  cases f with
  | comp k c fs =>
    cases c with
    | and => simp only [flatten]; conv_lhs => simp only [evFormula]
             exact evAll_flattenAux L m σ _
    | or => simp only [flatten]; conv_lhs => simp only [evFormula]
            exact evAny_flattenAux L m σ _
    | not => rfl
  | _ => rfl

/-! ### Sequences of substitutions -/

/-- A substitution of constants for variables. -/
def GoodS (s : Subst) : Prop := KeysVar s ∧ ValsConst s

def subsT (ss : List Subst) (t : Term) : Term := ss.foldl (fun t s => subT s t) t
def subsTs (ss : List Subst) (ts : List Term) : List Term := ss.foldl (fun t s => subTs s t) ts
def subsF (ss : List Subst) (f : Formula) : Formula := ss.foldl (fun t s => subF s t) f
def subsFs (ss : List Subst) (fs : List Formula) : List Formula := ss.foldl (fun t s => subFs s t) fs
def subsE (ss : List Subst) (e : Effect) : Effect := ss.foldl (fun t s => subE s t) e

theorem subsT_const {ss : List Subst} (h : ∀ s ∈ ss, GoodS s) (n so) : subsT ss (.const n so) = .const n so := by
  induction ss with
  | nil => rfl
  | cons s ss ih =>
    simp only [subsT, List.foldl_cons, subT]
    rw [visit_nonvar (h s (by simp)).1 (by simp)]
    exact ih (fun s hs => h s (by simp [hs]))

theorem subsT_app {ss : List Subst} (h : ∀ s ∈ ss, GoodS s) (f ts) : subsT ss (.app f ts) = .app f (subsTs ss ts) := by
  induction ss generalizing ts with
  | nil => rfl
  | cons s ss ih =>
    simp only [subsT, subsTs, List.foldl_cons, subT]
    rw [visit_nonvar (h s (by simp)).1 (by simp)]
    exact ih (fun s hs => h s (by simp [hs])) _

theorem subsTs_nil (ss : List Subst) : subsTs ss [] = [] := by
  induction ss with
  | nil => rfl
  | cons s ss ih => simpa only [subsTs, List.foldl_cons, subTs] using ih

theorem subsTs_cons (ss : List Subst) (t ts) : subsTs ss (t :: ts) = subsT ss t :: subsTs ss ts := by
  induction ss generalizing t ts with
  | nil => rfl
  | cons s ss ih => simpa only [subsTs, subsT, List.foldl_cons, subTs] using ih _ _

theorem subsFs_nil (ss : List Subst) : subsFs ss [] = [] := by
  induction ss with
  | nil => rfl
  | cons s ss ih => simpa only [subsFs, List.foldl_cons, subFs] using ih

theorem subsFs_cons (ss : List Subst) (t ts) : subsFs ss (t :: ts) = subsF ss t :: subsFs ss ts := by
  induction ss generalizing t ts with
  | nil => rfl
  | cons s ss ih => simpa only [subsFs, subsF, List.foldl_cons, subFs] using ih _ _

theorem subsF_top (ss : List Subst) : subsF ss .top = .top := by
  induction ss with
  | nil => rfl
  | cons s ss ih => simpa only [subsF, List.foldl_cons, subF] using ih

theorem subsF_bot (ss : List Subst) : subsF ss .bot = .bot := by
  induction ss with
  | nil => rfl
  | cons s ss ih => simpa only [subsF, List.foldl_cons, subF] using ih

theorem subsF_atom (ss : List Subst) (p ts) : subsF ss (.atom p ts) = .atom p (subsTs ss ts) := by
  induction ss generalizing ts with
  | nil => rfl
  | cons s ss ih => simpa only [subsF, subsTs, List.foldl_cons, subF] using ih _

theorem subsF_comp (ss : List Subst) (k c fs) : ∃ k', subsF ss (.comp k c fs) = .comp k' c (subsFs ss fs) := by
  induction ss generalizing k fs with
  | nil => exact ⟨k, rfl⟩
  | cons s ss ih => simpa only [subsF, subsFs, List.foldl_cons, subF] using ih _ _

theorem subsF_quant (ss : List Subst) (q vs f) : subsF ss (.quant q vs f) = .quant q (subsTs ss vs) (subsF ss f) := by
  induction ss generalizing vs f with
  | nil => rfl
  | cons s ss ih => simpa only [subsF, subsTs, List.foldl_cons, subF] using ih _ _

theorem allConst_subs {ss : List Subst} (h : ∀ s ∈ ss, GoodS s) : ∀ {ts : List Term}, ts.all Term.isConst = true →
    subsTs ss ts = ts
  | [], _ => subsTs_nil ss
  | .const n so :: ts, hc => by
    rw [subsTs_cons, subsT_const h, allConst_subs h (by simpa [Term.isConst] using hc)]
  | .var v :: ts, hc => by simp [Term.isConst] at hc
  | .app f l :: ts, hc => by simp [Term.isConst] at hc
  | .ite c t e :: ts, hc => by simp [Term.isConst] at hc

theorem allConst_ev (L : MLang) : ∀ {ts : List Term}, ts.all Term.isConst = true →
    ∃ cs, ∀ m σ md, evTerms L m σ md ts = .ok cs
  | [], _ => ⟨[], fun _ _ _ => by simp [evTerms]⟩
  | .const n so :: ts, hc => by
    obtain ⟨cs, h⟩ := allConst_ev L (ts := ts) (by simpa [Term.isConst] using hc)
    exact ⟨⟨n, so⟩ :: cs, fun m σ md => by simp [evTerms, evTerm, h]⟩
  | .var v :: ts, hc => by simp [Term.isConst] at hc
  | .app f l :: ts, hc => by simp [Term.isConst] at hc
  | .ite c t e :: ts, hc => by simp [Term.isConst] at hc

/-! ### Evaluation of static nodes -/

/-- `m` agrees with the model of the simplifier on the static symbols. -/
def Simplifier.Agrees (C : Simplifier) (m : MState) : Prop :=
  ∀ m0, C.model = some m0 → ∀ x, C.isStatic x = true → SameOn C.L m m0 x

theorem isArith_builtin {f} (h : isArith f = true) : builtinFunctionNames.contains f = true := by
  have : f = "+" ∨ f = "-" ∨ f = "*" ∨ f = "%" := by simpa [isArith, or_assoc] using h
  rcases this with rfl | rfl | rfl | rfl <;> decide

theorem finishT_cases {C : Simplifier} {m} (ha : C.Agrees m) {f ts t'} (h : C.finishT f ts = .ok t') :
    t' = .app f ts ∧ ¬ (C.model.isSome = true ∧ C.evaluableF f = true ∧ ts.all Term.isConst = true) ∨
    ts.all Term.isConst = true ∧ ∃ c, t' = constTerm c ∧ ∀ σ md, evTerm C.L m σ md (.app f ts) = .ok c := by
  simp only [Simplifier.finishT] at h
  cases hm : C.model with
  | none => simp [hm] at h; exact .inl ⟨h.symm, by simp⟩
  | some m0 =>
    simp only [hm] at h
    split at h
    · rename_i hc
      simp only [Bool.and_eq_true] at hc
      split at h
      · simp at h
      · rename_i hb
        split at h
        · simp at h
        · rename_i c hev
          simp only [Except.ok.injEq] at h
          refine .inr ⟨hc.2, c, h.symm, fun σ md => ?_⟩
          obtain ⟨cs, hcs⟩ := allConst_ev C.L hc.2
          simp only [evTerm, hcs] at hev ⊢
          split
          · rename_i har; simpa [har] using hev
          · rename_i har
            simp only [har, Bool.false_eq_true, if_false] at hev
            simp only [har, Bool.not_false, Bool.and_true, Bool.not_eq_true] at hb
            have hst : C.isStatic (.fn f) = true := by
              simpa only [Simplifier.evaluableF, hb, Bool.false_or] using hc.1
            have := ha m0 hm _ hst cs
            simp only [valueOrUndefined] at hev ⊢
            rw [this]; exact hev
    · rename_i hc
      simp only [Except.ok.injEq] at h
      exact .inl ⟨h.symm, fun hh => hc (by simp only [Bool.and_eq_true]; exact hh.2)⟩

theorem finishA_cases {C : Simplifier} {m} (ha : C.Agrees m) {p ts r} (h : C.finishA p ts = .ok r) :
    r = .form (.atom p ts) ∧ ¬ (C.model.isSome = true ∧ C.evaluableP p = true ∧ ts.all Term.isConst = true) ∨
    ts.all Term.isConst = true ∧ ∃ b, r = .bool b ∧ ∀ σ, evFormula C.L m σ (.atom p ts) = .ok b := by
  simp only [Simplifier.finishA] at h
  cases hm : C.model with
  | none => simp [hm] at h; exact .inl ⟨h.symm, by simp⟩
  | some m0 =>
    simp only [hm] at h
    split at h
    · rename_i hc
      simp only [Bool.and_eq_true] at hc
      split at h
      · simp at h
      · rename_i b hev
        simp only [Except.ok.injEq] at h
        refine .inr ⟨hc.2, b, h.symm, fun σ => ?_⟩
        obtain ⟨cs, hcs⟩ := allConst_ev C.L hc.2
        cases p with
        | cmp c => simp only [evFormula, hcs] at hev ⊢; exact hev
        | user p =>
          simp only [evFormula, hcs, Except.ok.injEq] at hev ⊢
          rw [← hev]
          exact ha m0 hm (.pred p) (by simpa [Simplifier.evaluableP] using hc.1) cs
    · rename_i hc
      simp only [Except.ok.injEq] at h
      exact .inl ⟨h.symm, fun hh => hc (by simp only [Bool.and_eq_true]; exact hh.2)⟩

/-! ### Simplification and the evaluator -/

mutual
theorem simpT_ev {C : Simplifier} {m} (ha : C.Agrees m) {ss : List Subst} (hs : ∀ s ∈ ss, GoodS s) :
    ∀ (t t' : Term), C.term t = .ok t' → ∀ md c, evTerm C.L m noSigma md (subsT ss t) = .ok c →
      evTerm C.L m noSigma md (subsT ss t') = .ok c
  | .var v, t', h, md, c, he => by
    simp only [Simplifier.term, Except.ok.injEq] at h; subst h; exact he
  | .const n s, t', h, md, c, he => by
    simp only [Simplifier.term, Except.ok.injEq] at h; subst h; exact he
  | .app f ts, t', h, md, c, he => by
    simp only [Simplifier.term] at h
    cases hts : C.terms ts with
    | error e => simp [hts] at h
    | ok ts' =>
      simp only [hts] at h
      have ih := simpTs_ev ha hs ts ts' hts
      rw [subsT_app hs] at he
      have he' : evTerm C.L m noSigma md (.app f (subsTs ss ts')) = .ok c := by
        simp only [evTerm] at he ⊢
        split
        · rename_i har
          simp only [har, if_true] at he
          split at he
          · rename_i a b hab; rw [ih _ _ hab]; exact he
          · simp at he
          · simp at he
        · rename_i har
          simp only [har, Bool.false_eq_true, if_false] at he
          split at he
          · rename_i pt hpt; rw [ih _ _ hpt]; exact he
          · simp at he
      rcases finishT_cases ha h with ⟨rfl, _⟩ | ⟨hc, c', rfl, hev⟩
      · rw [subsT_app hs]; exact he'
      · rw [allConst_subs hs hc, hev] at he'
        simp only [Except.ok.injEq] at he'
        subst he'
        simp only [constTerm]
        rw [subsT_const hs]
        simp [evTerm]
  | .ite c t e, t', h, md, cc, he => by simp [Simplifier.term] at h
theorem simpTs_ev {C : Simplifier} {m} (ha : C.Agrees m) {ss : List Subst} (hs : ∀ s ∈ ss, GoodS s) :
    ∀ (ts ts' : List Term), C.terms ts = .ok ts' → ∀ md cs, evTerms C.L m noSigma md (subsTs ss ts) = .ok cs →
      evTerms C.L m noSigma md (subsTs ss ts') = .ok cs
  | [], ts', h, md, cs, he => by
    simp only [Simplifier.terms, Except.ok.injEq] at h; subst h; exact he
  | t :: ts, ts', h, md, cs, he => by
    simp only [Simplifier.terms] at h
    cases ht : C.term t with
    | error e => simp [ht] at h
    | ok t1 =>
      cases hts : C.terms ts with
      | error e => simp [ht, hts] at h
      | ok ts1 =>
        simp only [ht, hts, Except.ok.injEq] at h
        subst h
        rw [subsTs_cons] at he ⊢
        simp only [evTerms] at he ⊢
        split at he
        · simp at he
        · rename_i c hc
          rw [simpT_ev ha hs t t1 ht md c hc]
          split at he
          · simp at he
          · rename_i cs1 hcs1
            simp only
            rw [simpTs_ev ha hs ts ts1 hts md cs1 hcs1]
            exact he
end

/-- The simplified formula, instantiated, evaluates to `b`. -/
def SimpEv (L : MLang) (m : MState) (ss : List Subst) (b : Bool) : Simp → Prop
  | .bool b0 => b0 = b
  | .form g => evFormula L m noSigma (subsF ss g) = .ok b

def LoopEv (L : MLang) (m : MState) (ss : List Subst) (isand : Bool) (b : Bool) : Option (List Formula) → Prop
  | none => b = !isand
  | some gs => (if isand then evAll L m noSigma (subsFs ss gs) else evAny L m noSigma (subsFs ss gs)) = .ok b

theorem negSimp_ev {L m ss b r r'} (h : negSimp r = .ok r') (hr : SimpEv L m ss b r) : SimpEv L m ss (!b) r' := by
  cases r with
  | bool b0 =>
    simp only [negSimp, Except.ok.injEq] at h; subst h
    simp only [SimpEv] at hr ⊢; rw [hr]
  | form g =>
    have other : ∀ g, SimpEv L m ss b (.form g) → SimpEv L m ss (!b) (.form (.comp .list .not [g])) := by
      intro g hg
      simp only [SimpEv] at hg ⊢
      obtain ⟨k', hk⟩ := subsF_comp ss .list .not [g]
      rw [hk, subsFs_cons]
      simp only [evFormula, hg]
    cases g with
    | comp k c fs =>
      cases c with
      | not =>
        cases fs with
        | nil => simp [negSimp] at h
        | cons g gs =>
          simp only [negSimp, Except.ok.injEq] at h; subst h
          simp only [SimpEv] at hr ⊢
          obtain ⟨k', hk⟩ := subsF_comp ss k .not (g :: gs)
          rw [hk, subsFs_cons] at hr
          simp only [evFormula] at hr
          split at hr
          · rename_i b' hb'
            simp only [Except.ok.injEq] at hr
            rw [hb', ← hr]; simp
          · simp at hr
      | and => simp only [negSimp, Except.ok.injEq] at h; subst h; exact other _ hr
      | or => simp only [negSimp, Except.ok.injEq] at h; subst h; exact other _ hr
    | top => simp only [negSimp, Except.ok.injEq] at h; subst h; exact other _ hr
    | bot => simp only [negSimp, Except.ok.injEq] at h; subst h; exact other _ hr
    | atom p ts => simp only [negSimp, Except.ok.injEq] at h; subst h; exact other _ hr
    | quant q vs f => simp only [negSimp, Except.ok.injEq] at h; subst h; exact other _ hr

theorem finishC_ev {L m ss b isand r} {c : Conn} (hc : c = if isand then .and else .or)
    (h : LoopEv L m ss isand b r) : SimpEv L m ss b (finishC c isand r) := by
  cases r with
  | none => simp only [LoopEv] at h; simp only [finishC, SimpEv]; exact h.symm
  | some gs =>
    simp only [LoopEv] at h
    match gs with
    | [] =>
      simp only [subsFs_nil, evAll, evAny] at h
      cases isand <;> simp_all [finishC, SimpEv]
    | [g] =>
      simp only [subsFs_cons, subsFs_nil, evAll_single, evAny_single] at h
      cases isand <;> simpa [finishC, SimpEv] using h
    | g :: g' :: gs =>
      obtain ⟨k', hk⟩ := subsF_comp ss .list c (g :: g' :: gs)
      simp only [finishC, SimpEv, hk]
      cases isand <;> simp only [Bool.false_eq_true, if_false, if_true] at hc h <;> subst hc <;>
        simpa only [evFormula] using h

mutual
theorem simpF_ev {C : Simplifier} {m} (ha : C.Agrees m) {ss : List Subst} (hs : ∀ s ∈ ss, GoodS s) :
    ∀ (f : Formula) (r : Simp), C.formula f = .ok r → ∀ b, evFormula C.L m noSigma (subsF ss f) = .ok b →
      SimpEv C.L m ss b r
  | .top, r, h, b, he => by
    simp only [Simplifier.formula, Except.ok.injEq] at h; subst h
    simpa [subsF_top, evFormula, SimpEv] using he
  | .bot, r, h, b, he => by
    simp only [Simplifier.formula, Except.ok.injEq] at h; subst h
    simpa [subsF_bot, evFormula, SimpEv] using he
  | .atom p ts, r, h, b, he => by
    simp only [Simplifier.formula] at h
    cases hts : C.terms ts with
    | error e => simp [hts] at h
    | ok ts' =>
      simp only [hts] at h
      have ih := simpTs_ev ha hs ts ts' hts
      rw [subsF_atom] at he
      have he' : evFormula C.L m noSigma (.atom p (subsTs ss ts')) = .ok b := by
        cases p with
        | cmp c =>
          simp only [evFormula] at he ⊢
          split at he
          · rename_i a b hab; rw [ih _ _ hab]; exact he
          · simp at he
          · simp at he
        | user p =>
          simp only [evFormula] at he ⊢
          split at he
          · rename_i pt hpt; rw [ih _ _ hpt]; exact he
          · simp at he
      rcases finishA_cases ha h with ⟨rfl, _⟩ | ⟨hc, b', rfl, hev⟩
      · simp only [SimpEv, subsF_atom]; exact he'
      · rw [allConst_subs hs hc, hev] at he'
        simpa [SimpEv] using he'
  | .comp _ .not [], r, h, b, he => by simp [Simplifier.formula] at h
  | .comp k .not (f :: fs), r, h, b, he => by
    simp only [Simplifier.formula] at h
    obtain ⟨k', hk⟩ := subsF_comp ss k .not (f :: fs)
    rw [hk, subsFs_cons] at he
    simp only [evFormula] at he
    cases hf : C.formula f with
    | error e => simp [hf] at h
    | ok r0 =>
      simp only [hf] at h
      split at he
      · rename_i b0 hb0
        simp only [Except.ok.injEq] at he
        rw [← he]
        exact negSimp_ev h (simpF_ev ha hs f r0 hf b0 hb0)
      · simp at he
  | .comp k .and fs, r, h, b, he => by
    simp only [Simplifier.formula] at h
    obtain ⟨k', hk⟩ := subsF_comp ss k .and fs
    rw [hk] at he
    simp only [evFormula] at he
    cases hf : C.loop true fs with
    | error e => simp [hf] at h
    | ok r0 =>
      simp only [hf, Except.ok.injEq] at h; subst h
      exact finishC_ev rfl (simpAll_ev ha hs fs r0 hf b he)
  | .comp k .or fs, r, h, b, he => by
    simp only [Simplifier.formula] at h
    obtain ⟨k', hk⟩ := subsF_comp ss k .or fs
    rw [hk] at he
    simp only [evFormula] at he
    cases hf : C.loop false fs with
    | error e => simp [hf] at h
    | ok r0 =>
      simp only [hf, Except.ok.injEq] at h; subst h
      exact finishC_ev rfl (simpAny_ev ha hs fs r0 hf b he)
  | .quant q vs f, r, h, b, he => by rw [subsF_quant] at he; simp [evFormula] at he
theorem simpAll_ev {C : Simplifier} {m} (ha : C.Agrees m) {ss : List Subst} (hs : ∀ s ∈ ss, GoodS s) :
    ∀ (fs : List Formula) (r), C.loop true fs = .ok r → ∀ b, evAll C.L m noSigma (subsFs ss fs) = .ok b →
      LoopEv C.L m ss true b r
  | [], r, h, b, he => by
    simp only [Simplifier.loop, Except.ok.injEq] at h; subst h
    simpa [LoopEv] using he
  | f :: fs, r, h, b, he => by
    simp only [Simplifier.loop] at h
    rw [subsFs_cons] at he
    simp only [evAll] at he
    cases hf : C.formula f with
    | error e => simp [hf] at h
    | ok r0 =>
      simp only [hf] at h
      cases hev : evFormula C.L m noSigma (subsF ss f) with
      | error e => simp [hev] at he
      | ok b1 =>
        have h1 := simpF_ev ha hs f r0 hf b1 hev
        simp only [hev] at he
        cases r0 with
        | bool b0 =>
          simp only [SimpEv] at h1; subst h1
          simp only at h
          cases b0 with
          | true => simp only [if_true] at h; exact simpAll_ev ha hs fs r h b he
          | false =>
            simp only [Bool.false_eq_true, if_false, Except.ok.injEq] at h he
            subst h; subst he; rfl
        | form g =>
          simp only [SimpEv] at h1
          simp only at h
          cases hl : C.loop true fs with
          | error e => simp [hl] at h
          | ok o =>
            simp only [hl] at h
            cases b1 with
            | true =>
              have h2 := simpAll_ev ha hs fs o hl b he
              cases o with
              | none => simp only [Except.ok.injEq] at h; subst h; exact h2
              | some gs =>
                simp only [Except.ok.injEq] at h; subst h
                simp only [LoopEv, if_true] at h2 ⊢
                rw [subsFs_cons]; simp only [evAll, h1, h2]
            | false =>
              simp only [Except.ok.injEq] at he; subst he
              cases o with
              | none => simp only [Except.ok.injEq] at h; subst h; rfl
              | some gs =>
                simp only [Except.ok.injEq] at h; subst h
                simp only [LoopEv, if_true]
                rw [subsFs_cons]; simp only [evAll, h1]
theorem simpAny_ev {C : Simplifier} {m} (ha : C.Agrees m) {ss : List Subst} (hs : ∀ s ∈ ss, GoodS s) :
    ∀ (fs : List Formula) (r), C.loop false fs = .ok r → ∀ b, evAny C.L m noSigma (subsFs ss fs) = .ok b →
      LoopEv C.L m ss false b r
  | [], r, h, b, he => by
    simp only [Simplifier.loop, Except.ok.injEq] at h; subst h
    simpa [LoopEv] using he
  | f :: fs, r, h, b, he => by
    simp only [Simplifier.loop] at h
    rw [subsFs_cons] at he
    simp only [evAny] at he
    cases hf : C.formula f with
    | error e => simp [hf] at h
    | ok r0 =>
      simp only [hf] at h
      cases hev : evFormula C.L m noSigma (subsF ss f) with
      | error e => simp [hev] at he
      | ok b1 =>
        have h1 := simpF_ev ha hs f r0 hf b1 hev
        simp only [hev] at he
        cases r0 with
        | bool b0 =>
          simp only [SimpEv] at h1; subst h1
          simp only at h
          cases b0 with
          | false => simp only [if_true] at h; exact simpAny_ev ha hs fs r h b he
          | true =>
            simp only [Bool.true_eq_false, if_false, Except.ok.injEq] at h he
            subst h; subst he; rfl
        | form g =>
          simp only [SimpEv] at h1
          simp only at h
          cases hl : C.loop false fs with
          | error e => simp [hl] at h
          | ok o =>
            simp only [hl] at h
            cases b1 with
            | false =>
              have h2 := simpAny_ev ha hs fs o hl b he
              cases o with
              | none => simp only [Except.ok.injEq] at h; subst h; exact h2
              | some gs =>
                simp only [Except.ok.injEq] at h; subst h
                simp only [LoopEv, Bool.false_eq_true, if_false] at h2 ⊢
                rw [subsFs_cons]; simp only [evAny, h1, h2]
            | true =>
              simp only [Except.ok.injEq] at he; subst he
              cases o with
              | none => simp only [Except.ok.injEq] at h; subst h; rfl
              | some gs =>
                simp only [Except.ok.injEq] at h; subst h
                simp only [LoopEv, Bool.false_eq_true, if_false]
                rw [subsFs_cons]; simp only [evAny, h1]
end

end Tarski

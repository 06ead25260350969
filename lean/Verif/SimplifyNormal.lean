import Verif.SimplifyLemmas
import Verif.SubstLemmas
/-! The shape of simplified expressions and their Tarskian meaning (C31). -/
namespace Tarski

/-! ### Specification: simplified expressions -/

/-- The value of a symbol of the kind the simplifier may evaluate, applied to constants only, is known statically. -/
def Simplifier.Evaluates (C : Simplifier) (symbolOK : Bool) (ts : List Term) : Prop :=
  C.model ≠ none ∧ symbolOK = true ∧ ∀ t ∈ ts, ∃ n s, t = Term.const n s

mutual
/-- No if-then-else and no static function application with constant arguments. -/
def SimplifiedT (C : Simplifier) : Term → Prop
  | .var _ => True
  | .const _ _ => True
  | .app f ts => SimplifiedTs C ts ∧ ¬ C.Evaluates (C.evaluableF f) ts
  | .ite _ _ _ => False
def SimplifiedTs (C : Simplifier) : List Term → Prop
  | [] => True
  | t :: ts => SimplifiedT C t ∧ SimplifiedTs C ts
end

mutual
/-- No truth constants, no static atom with constant arguments, no double negation, no unary conjunctions. -/
def SimplifiedF (C : Simplifier) : Formula → Prop
  | .top => False
  | .bot => False
  | .atom p ts => SimplifiedTs C ts ∧ ¬ C.Evaluates (C.evaluableP p) ts
  | .comp k c fs => k = .list ∧ (c = .not → ∃ g, fs = [g] ∧ isNeg g = false) ∧ (c ≠ .not → 2 ≤ fs.length) ∧ SimplifiedFs C fs
  | .quant _ _ f => SimplifiedF C f
def SimplifiedFs (C : Simplifier) : List Formula → Prop
  | [] => True
  | f :: fs => SimplifiedF C f ∧ SimplifiedFs C fs
end

theorem isConst_all_iff {ts : List Term} : ts.all Term.isConst = true ↔ ∀ t ∈ ts, ∃ n s, t = Term.const n s := by
  rw [List.all_eq_true]
  refine forall₂_congr (fun t _ => ?_)
  cases t <;> simp [Term.isConst]

theorem evaluates_iff {C : Simplifier} {b ts} :
    C.Evaluates b ts ↔ C.model.isSome = true ∧ b = true ∧ ts.all Term.isConst = true := by
  rw [Simplifier.Evaluates, isConst_all_iff, Option.isSome_iff_ne_none]

theorem finishT_evaluated {C : Simplifier} {f ts t'} (h : C.finishT f ts = .ok t') :
    t' = .app f ts ∧ ¬ C.Evaluates (C.evaluableF f) ts ∨ ∃ c, t' = constTerm c := by
  rw [evaluates_iff]
  simp only [Simplifier.finishT] at h
  split at h
  · rename_i hm
    simp only [Except.ok.injEq] at h
    exact .inl ⟨h.symm, by simp [hm]⟩
  · split at h
    · split at h
      · simp at h
      · split at h
        · simp at h
        · rename_i c _
          simp only [Except.ok.injEq] at h
          exact .inr ⟨c, h.symm⟩
    · rename_i hc
      simp only [Except.ok.injEq] at h
      exact .inl ⟨h.symm, fun hh => hc (by simp only [Bool.and_eq_true]; exact hh.2)⟩

theorem finishA_evaluated {C : Simplifier} {p ts r} (h : C.finishA p ts = .ok r) :
    r = .form (.atom p ts) ∧ ¬ C.Evaluates (C.evaluableP p) ts ∨ ∃ b, r = .bool b := by
  rw [evaluates_iff]
  simp only [Simplifier.finishA] at h
  split at h
  · rename_i hm
    simp only [Except.ok.injEq] at h
    exact .inl ⟨h.symm, by simp [hm]⟩
  · split at h
    · split at h
      · simp at h
      · rename_i c _
        simp only [Except.ok.injEq] at h
        exact .inr ⟨c, h.symm⟩
    · rename_i hc
      simp only [Except.ok.injEq] at h
      exact .inl ⟨h.symm, fun hh => hc (by simp only [Bool.and_eq_true]; exact hh.2)⟩

mutual
theorem term_simplified {C : Simplifier} : ∀ (t t' : Term), C.term t = .ok t' → SimplifiedT C t'
  | .var v, t', h => by simp only [Simplifier.term, Except.ok.injEq] at h; subst h; simp [SimplifiedT]
  | .const n s, t', h => by simp only [Simplifier.term, Except.ok.injEq] at h; subst h; simp [SimplifiedT]
  | .ite c t e, t', h => by simp [Simplifier.term] at h
  | .app f ts, t', h => by
    simp only [Simplifier.term] at h
    cases hts : C.terms ts with
    | error e => simp [hts] at h
    | ok ts' =>
      simp only [hts] at h
      rcases finishT_evaluated h with ⟨rfl, hn⟩ | ⟨c, rfl⟩
      · exact ⟨terms_simplified ts ts' hts, hn⟩
      · simp [constTerm, SimplifiedT]
theorem terms_simplified {C : Simplifier} : ∀ (ts ts' : List Term), C.terms ts = .ok ts' → SimplifiedTs C ts'
  | [], ts', h => by simp only [Simplifier.terms, Except.ok.injEq] at h; subst h; simp [SimplifiedTs]
  | t :: ts, ts', h => by
    simp only [Simplifier.terms] at h
    cases ht : C.term t with
    | error e => simp [ht] at h
    | ok t1 =>
      cases hts : C.terms ts with
      | error e => simp [ht, hts] at h
      | ok ts1 =>
        simp only [ht, hts, Except.ok.injEq] at h
        subst h
        exact ⟨term_simplified t t1 ht, terms_simplified ts ts1 hts⟩
end

/-- A simplification result is a bool or a simplified formula. -/
def SimpNormal (C : Simplifier) : Simp → Prop
  | .bool _ => True
  | .form f => SimplifiedF C f

theorem negSimp_normal {C : Simplifier} {r r'} (h : negSimp r = .ok r') (hr : SimpNormal C r) : SimpNormal C r' := by
  cases r with
  | bool b => simp only [negSimp, Except.ok.injEq] at h; subst h; trivial
  | form f =>
    have other : isNeg f = false → r' = .form (.comp .list .not [f]) → SimpNormal C r' := by
      rintro hn rfl
      simp only [SimpNormal, SimplifiedF, SimplifiedFs] at hr ⊢
      exact ⟨trivial, fun _ => ⟨f, rfl, hn⟩, by simp, hr, trivial⟩
    cases f with
    | comp k c fs =>
      cases c with
      | not =>
        simp only [SimpNormal, SimplifiedF] at hr
        obtain ⟨g, rfl, hg⟩ := hr.2.1 trivial
        simp only [negSimp, Except.ok.injEq] at h; subst h
        have := hr.2.2.2
        simp only [SimplifiedFs] at this
        exact this.1
      | and => simp only [negSimp, Except.ok.injEq] at h; exact other rfl h.symm
      | or => simp only [negSimp, Except.ok.injEq] at h; exact other rfl h.symm
    | _ => simp only [negSimp, Except.ok.injEq] at h; exact other rfl h.symm

theorem finishC_normal {C : Simplifier} {c : Conn} (hc : c ≠ .not) {isand r}
    (hr : ∀ gs, r = some gs → SimplifiedFs C gs) : SimpNormal C (finishC c isand r) := by
  match r, hr with
  | none, _ => trivial
  | some [], _ => trivial
  | some [g], hr => have := hr _ rfl; simp only [SimplifiedFs] at this; exact this.1
  | some (g :: g' :: gs), hr =>
    have := hr _ rfl
    simp only [finishC, SimpNormal, SimplifiedF]
    exact ⟨trivial, fun h => absurd h hc, fun _ => by simp, this⟩

mutual
theorem formula_simplified {C : Simplifier} : ∀ (f : Formula) (r : Simp), C.formula f = .ok r → SimpNormal C r
  | .top, r, h => by simp only [Simplifier.formula, Except.ok.injEq] at h; subst h; trivial
  | .bot, r, h => by simp only [Simplifier.formula, Except.ok.injEq] at h; subst h; trivial
  | .atom p ts, r, h => by
    simp only [Simplifier.formula] at h
    cases hts : C.terms ts with
    | error e => simp [hts] at h
    | ok ts' =>
      simp only [hts] at h
      rcases finishA_evaluated h with ⟨rfl, hn⟩ | ⟨b, rfl⟩
      · exact ⟨terms_simplified ts ts' hts, hn⟩
      · trivial
  | .comp _ .not [], r, h => by simp [Simplifier.formula] at h
  | .comp _ .not (f :: _), r, h => by
    simp only [Simplifier.formula] at h
    cases hf : C.formula f with
    | error e => simp [hf] at h
    | ok r0 => simp only [hf] at h; exact negSimp_normal h (formula_simplified f r0 hf)
  | .comp _ .and fs, r, h => by
    simp only [Simplifier.formula] at h
    cases hf : C.loop true fs with
    | error e => simp [hf] at h
    | ok r0 =>
      simp only [hf, Except.ok.injEq] at h; subst h
      exact finishC_normal (by simp) (fun gs hg => loop_simplified true fs gs (by rw [hf, hg]))
  | .comp _ .or fs, r, h => by
    simp only [Simplifier.formula] at h
    cases hf : C.loop false fs with
    | error e => simp [hf] at h
    | ok r0 =>
      simp only [hf, Except.ok.injEq] at h; subst h
      exact finishC_normal (by simp) (fun gs hg => loop_simplified false fs gs (by rw [hf, hg]))
  | .quant q vs f, r, h => by
    simp only [Simplifier.formula] at h
    cases hf : C.formula f with
    | error e => simp [hf] at h
    | ok r0 =>
      have h1 := formula_simplified f r0 hf
      cases r0 <;> simp only [hf, Except.ok.injEq] at h <;> subst h
      · trivial
      · simpa only [SimpNormal, SimplifiedF] using h1
theorem loop_simplified {C : Simplifier} (isand : Bool) : ∀ (fs gs : List Formula), C.loop isand fs = .ok (some gs) → SimplifiedFs C gs
  | [], gs, h => by simp only [Simplifier.loop, Except.ok.injEq, Option.some.injEq] at h; subst h; simp [SimplifiedFs]
  | f :: fs, gs, h => by
    simp only [Simplifier.loop] at h
    cases hf : C.formula f with
    | error e => simp [hf] at h
    | ok r0 =>
      have h1 := formula_simplified f r0 hf
      simp only [hf] at h
      cases r0 with
      | bool b =>
        simp only at h
        split at h
        · exact loop_simplified isand fs gs h
        · simp at h
      | form g =>
        simp only at h
        cases hl : C.loop isand fs with
        | error e => simp [hl] at h
        | ok o =>
          cases o with
          | none => simp [hl] at h
          | some gs' =>
            simp only [hl, Except.ok.injEq, Option.some.injEq] at h
            subst h
            exact ⟨h1, loop_simplified isand fs gs' hl⟩
end

/-! ### Simplified expressions are left alone -/

mutual
theorem simplified_term {C : Simplifier} : ∀ (t : Term), SimplifiedT C t → C.term t = .ok t
  | .var v, _ => by simp [Simplifier.term]
  | .const n s, _ => by simp [Simplifier.term]
  | .ite c t e, h => by simp [SimplifiedT] at h
  | .app f ts, h => by
    simp only [SimplifiedT] at h
    have hn := h.2
    rw [evaluates_iff] at hn
    simp only [Simplifier.term, simplified_terms ts h.1, Simplifier.finishT]
    cases hm : C.model with
    | none => rfl
    | some m =>
      simp only
      rw [if_neg]
      simp only [Bool.and_eq_true]
      exact fun hh => hn ⟨by simp [hm], hh⟩
theorem simplified_terms {C : Simplifier} : ∀ (ts : List Term), SimplifiedTs C ts → C.terms ts = .ok ts
  | [], _ => by simp [Simplifier.terms]
  | t :: ts, h => by
    simp only [SimplifiedTs] at h
    simp [Simplifier.terms, simplified_term t h.1, simplified_terms ts h.2]
end

mutual
theorem simplified_formula {C : Simplifier} : ∀ (f : Formula), SimplifiedF C f → C.formula f = .ok (.form f)
  | .top, h => by simp [SimplifiedF] at h
  | .bot, h => by simp [SimplifiedF] at h
  | .atom p ts, h => by
    simp only [SimplifiedF] at h
    have hn := h.2
    rw [evaluates_iff] at hn
    simp only [Simplifier.formula, simplified_terms ts h.1, Simplifier.finishA]
    cases hm : C.model with
    | none => rfl
    | some m =>
      simp only
      rw [if_neg]
      simp only [Bool.and_eq_true]
      exact fun hh => hn ⟨by simp [hm], hh⟩
  | .comp k .not fs, h => by
    simp only [SimplifiedF] at h
    obtain ⟨rfl, h1, _, h3⟩ := h
    obtain ⟨g, hg, hng⟩ := h1 trivial
    match fs, hg with
    | [x], hg =>
      simp only [List.cons.injEq, and_true] at hg
      simp only [SimplifiedFs, and_true] at h3
      simp only [Simplifier.formula, simplified_formula x h3]
      rw [← hg] at hng
      cases x with
      | comp k c fs => cases c <;> simp_all [negSimp, isNeg]
      | _ => rfl
  | .comp k .and fs, h => by
    simp only [SimplifiedF] at h
    obtain ⟨rfl, _, h2, h3⟩ := h
    simp only [Simplifier.formula, simplified_loop true fs h3]
    match fs, h2 (by simp) with
    | g :: g' :: gs, _ => rfl
  | .comp k .or fs, h => by
    simp only [SimplifiedF] at h
    obtain ⟨rfl, _, h2, h3⟩ := h
    simp only [Simplifier.formula, simplified_loop false fs h3]
    match fs, h2 (by simp) with
    | g :: g' :: gs, _ => rfl
  | .quant q vs f, h => by
    simp only [SimplifiedF] at h
    simp [Simplifier.formula, simplified_formula f h]
theorem simplified_loop {C : Simplifier} (isand : Bool) : ∀ (fs : List Formula), SimplifiedFs C fs → C.loop isand fs = .ok (some fs)
  | [], _ => by simp [Simplifier.loop]
  | f :: fs, h => by
    simp only [SimplifiedFs] at h
    simp [Simplifier.loop, simplified_formula f h.1, simplified_loop isand fs h.2]
end

/-! ### Tarskian meaning -/

/-- Truth of a simplification result. -/
def SimpSat {D} (I : Interp D) (σ : Asg D) : Simp → Prop
  | .bool b => b = true
  | .form f => Sat I f σ

theorem allConst_ok : ∀ {ts : List Term}, ts.all Term.isConst = true → TermsOK (fun _ => True) ts
  | [], _ => by simp [TermsOK]
  | .const n so :: ts, hc => by
    simp only [TermsOK, TermOK, true_and]; exact allConst_ok (by simpa [Term.isConst] using hc)
  | .var v :: ts, hc => by simp [Term.isConst] at hc
  | .app f l :: ts, hc => by simp [Term.isConst] at hc
  | .ite c t e :: ts, hc => by simp [Term.isConst] at hc

mutual
theorem simpT_sem {C : Simplifier} {m} (ha : C.Agrees m) {I : Interp Const} (hI : Describes C.L m I) (σ : Asg Const) :
    ∀ (t t' : Term), C.term t = .ok t' → evalT I t' σ = evalT I t σ
  | .var v, t', h => by simp only [Simplifier.term, Except.ok.injEq] at h; subst h; rfl
  | .const n s, t', h => by simp only [Simplifier.term, Except.ok.injEq] at h; subst h; rfl
  | .ite c t e, t', h => by simp [Simplifier.term] at h
  | .app f ts, t', h => by
    simp only [Simplifier.term] at h
    cases hts : C.terms ts with
    | error e => simp [hts] at h
    | ok ts' =>
      simp only [hts] at h
      have ih := simpTs_sem ha hI σ ts ts' hts
      rcases finishT_cases ha h with ⟨rfl, _⟩ | ⟨hc, c, rfl, hev⟩
      · simp only [evalT, ih]
      · have := (evTerm_sound hI (σ := σ) (fun _ _ _ _ => trivial) (fun _ => trivial)
          (fun v c (h : noSigma v = .ok c) => by simp [noSigma] at h) (.app f ts') .eval c
          (by simp only [TermOK]; exact allConst_ok hc) (hev _ _)).1
        simp only [evalT, ih] at this
        simp only [constTerm, evalT, hI.const]
        exact this.symm
theorem simpTs_sem {C : Simplifier} {m} (ha : C.Agrees m) {I : Interp Const} (hI : Describes C.L m I) (σ : Asg Const) :
    ∀ (ts ts' : List Term), C.terms ts = .ok ts' → evalTs I ts' σ = evalTs I ts σ
  | [], ts', h => by simp only [Simplifier.terms, Except.ok.injEq] at h; subst h; rfl
  | t :: ts, ts', h => by
    simp only [Simplifier.terms] at h
    cases ht : C.term t with
    | error e => simp [ht] at h
    | ok t1 =>
      cases hts : C.terms ts with
      | error e => simp [ht, hts] at h
      | ok ts1 =>
        simp only [ht, hts, Except.ok.injEq] at h
        subst h
        simp only [evalTs, simpT_sem ha hI σ t t1 ht, simpTs_sem ha hI σ ts ts1 hts]
end

theorem quantBlock_constant {D} (I : Interp D) (q : Quant) (P : Prop) : ∀ (vs : List Term),
    (∀ v, Term.var v ∈ vs → ∃ d, I.sort v.sort d) → ∀ σ, quantBlock I q vs (fun _ => P) σ ↔ P
  | [], _, σ => by simp [quantBlock]
  | .var v :: vs, h, σ => by
    have ih := quantBlock_constant I q P vs (fun w hw => h w (by simp [hw]))
    obtain ⟨d, hd⟩ := h v (by simp)
    cases q with
    | «exists» => simp only [quantBlock, ih]; exact ⟨fun ⟨_, _, h⟩ => h, fun h => ⟨d, hd, h⟩⟩
    | «forall» => simp only [quantBlock, ih]; exact ⟨fun h => h d hd, fun h _ _ => h⟩
  | .const _ _ :: vs, h, σ => by
    simp only [quantBlock]; exact quantBlock_constant I q P vs (fun w hw => h w (by simp [hw])) σ
  | .app _ _ :: vs, h, σ => by
    simp only [quantBlock]; exact quantBlock_constant I q P vs (fun w hw => h w (by simp [hw])) σ
  | .ite _ _ _ :: vs, h, σ => by
    simp only [quantBlock]; exact quantBlock_constant I q P vs (fun w hw => h w (by simp [hw])) σ

theorem negSimp_sem {C : Simplifier} {D} {I : Interp D} {σ r r'} (h : negSimp r = .ok r') (hn : SimpNormal C r) :
    SimpSat I σ r' ↔ ¬ SimpSat I σ r := by
  cases r with
  | bool b => simp only [negSimp, Except.ok.injEq] at h; subst h; cases b <;> simp [SimpSat]
  | form f =>
    have other : r' = .form (.comp .list .not [f]) → (SimpSat I σ r' ↔ ¬ SimpSat I σ (.form f)) := by
      rintro rfl; simp [SimpSat, Sat, SatAll]
    cases f with
    | comp k c fs =>
      cases c with
      | not =>
        simp only [SimpNormal, SimplifiedF] at hn
        obtain ⟨g, rfl, hg⟩ := hn.2.1 trivial
        simp only [negSimp, Except.ok.injEq] at h; subst h
        simp [SimpSat, Sat, SatAll]
      | and => simp only [negSimp, Except.ok.injEq] at h; exact other h.symm
      | or => simp only [negSimp, Except.ok.injEq] at h; exact other h.symm
    | _ => simp only [negSimp, Except.ok.injEq] at h; exact other h.symm

def LoopSat {D} (I : Interp D) (σ : Asg D) (isand : Bool) : Option (List Formula) → Prop
  | none => isand = false
  | some gs => if isand = true then SatAll I gs σ else SatAny I gs σ

theorem finishC_sem {D} {I : Interp D} {σ} {c : Conn} {isand : Bool} (hc : c = if isand then .and else .or) (r) :
    SimpSat I σ (finishC c isand r) ↔ LoopSat I σ isand r := by
  match r with
  | none => cases isand <;> simp [finishC, SimpSat, LoopSat]
  | some [] => cases isand <;> simp [finishC, SimpSat, LoopSat, SatAll, SatAny]
  | some [g] => cases isand <;> simp [finishC, SimpSat, LoopSat, SatAll, SatAny]
  | some (g :: g' :: gs) =>
    cases isand <;> simp only [Bool.false_eq_true, if_false, if_true] at hc <;> subst hc <;>
      simp [finishC, SimpSat, LoopSat, Sat]

mutual
theorem simpF_sem {C : Simplifier} {m} (ha : C.Agrees m) {I : Interp Const} (hI : Describes C.L m I) :
    ∀ (f : Formula) (r : Simp), FormulaOK (fun _ => True) f → (∀ v, BoundF v f → ∃ d, I.sort v.sort d) →
      C.formula f = .ok r → ∀ σ, SimpSat I σ r ↔ Sat I f σ
  | .top, r, _, _, h, σ => by simp only [Simplifier.formula, Except.ok.injEq] at h; subst h; simp [SimpSat, Sat]
  | .bot, r, _, _, h, σ => by simp only [Simplifier.formula, Except.ok.injEq] at h; subst h; simp [SimpSat, Sat]
  | .atom p ts, r, hok, _, h, σ => by
    simp only [Simplifier.formula] at h
    cases hts : C.terms ts with
    | error e => simp [hts] at h
    | ok ts' =>
      simp only [hts] at h
      have ih := simpTs_sem ha hI σ ts ts' hts
      rcases finishA_cases ha h with ⟨rfl, _⟩ | ⟨hc, b, rfl, hev⟩
      · simp only [SimpSat, Sat, ih]
      · have hlen : ∀ c, p = .cmp c → ts'.length = 2 := by
          rintro c rfl
          simp only [FormulaOK] at hok
          have : (evalTs I ts' σ).length = (evalTs I ts σ).length := by rw [ih]
          simpa [evalTs_eq_map, hok.1] using this
        have := evFormula_sound hI (σ := σ) (fun _ _ _ _ => trivial) (fun _ => trivial)
          (fun v c (h : noSigma v = .ok c) => by simp [noSigma] at h) (.atom p ts') b
          (by cases p with
            | cmp c => simp only [FormulaOK]; exact ⟨hlen c rfl, allConst_ok hc⟩
            | user p => simp only [FormulaOK]; exact allConst_ok hc) (hev _)
        simp only [Sat, ih] at this
        simp only [SimpSat, Sat, this]
  | .comp _ .not [], r, _, _, h, σ => by simp [Simplifier.formula] at h
  | .comp k .not (f :: fs), r, hok, hb, h, σ => by
    simp only [FormulaOK, List.length_cons, Nat.add_eq_right, List.length_eq_zero_iff] at hok
    obtain ⟨rfl, hok⟩ := hok
    simp only [FormulasOK, and_true] at hok
    simp only [Simplifier.formula] at h
    cases hf : C.formula f with
    | error e => simp [hf] at h
    | ok r0 =>
      simp only [hf] at h
      rw [negSimp_sem h (formula_simplified f r0 hf),
        simpF_sem ha hI f r0 hok (fun v hv => hb v (by simp [BoundF, BoundFs, hv])) hf σ]
      simp [Sat, SatAll]
  | .comp k .and fs, r, hok, hb, h, σ => by
    simp only [FormulaOK] at hok
    simp only [Simplifier.formula] at h
    cases hf : C.loop true fs with
    | error e => simp [hf] at h
    | ok r0 =>
      simp only [hf, Except.ok.injEq] at h; subst h
      rw [finishC_sem (c := .and) (isand := true) rfl, simpLoop_sem ha hI true fs r0 hok (fun v hv => hb v (by simp [BoundF, hv])) hf σ]
      simp [Sat]
  | .comp k .or fs, r, hok, hb, h, σ => by
    simp only [FormulaOK] at hok
    simp only [Simplifier.formula] at h
    cases hf : C.loop false fs with
    | error e => simp [hf] at h
    | ok r0 =>
      simp only [hf, Except.ok.injEq] at h; subst h
      rw [finishC_sem (c := .or) (isand := false) rfl, simpLoop_sem ha hI false fs r0 hok (fun v hv => hb v (by simp [BoundF, hv])) hf σ]
      simp [Sat]
  | .quant q vs f, r, hok, hb, h, σ => by
    simp only [FormulaOK] at hok
    simp only [Simplifier.formula] at h
    cases hf : C.formula f with
    | error e => simp [hf] at h
    | ok r0 =>
      have ih := simpF_sem ha hI f r0 hok (fun v hv => hb v (by simp [BoundF, hv])) hf
      cases r0 with
      | bool b =>
        simp only [hf, Except.ok.injEq] at h; subst h
        simp only [SimpSat] at ih ⊢
        simp only [Sat]
        rw [← quantBlock_congr I q vs ih]
        exact (quantBlock_constant I q (b = true) vs (fun v hv => hb v (by simp [BoundF, hv])) σ).symm
      | form g =>
        simp only [hf, Except.ok.injEq] at h; subst h
        simp only [SimpSat] at ih ⊢
        simp only [Sat]
        exact quantBlock_congr I q vs ih σ
theorem simpLoop_sem {C : Simplifier} {m} (ha : C.Agrees m) {I : Interp Const} (hI : Describes C.L m I) (isand : Bool) :
    ∀ (fs : List Formula) (r), FormulasOK (fun _ => True) fs → (∀ v, BoundFs v fs → ∃ d, I.sort v.sort d) →
      C.loop isand fs = .ok r → ∀ σ, LoopSat I σ isand r ↔ if isand = true then SatAll I fs σ else SatAny I fs σ
  | [], r, _, _, h, σ => by simp only [Simplifier.loop, Except.ok.injEq] at h; subst h; rfl
  | f :: fs, r, hok, hb, h, σ => by
    simp only [FormulasOK] at hok
    simp only [Simplifier.loop] at h
    cases hf : C.formula f with
    | error e => simp [hf] at h
    | ok r0 =>
      have ih := simpF_sem ha hI f r0 hok.1 (fun v hv => hb v (by simp [BoundFs, hv])) hf σ
      have ihs := fun r hr => simpLoop_sem ha hI isand fs r hok.2 (fun v hv => hb v (by simp [BoundFs, hv])) hr σ
      simp only [hf] at h
      cases r0 with
      | bool b =>
        simp only [SimpSat] at ih
        simp only at h
        split at h
        · rename_i hbi
          rw [ihs r h]
          cases isand <;> subst hbi <;> simp_all [SatAll, SatAny]
        · rename_i hbi
          simp only [Except.ok.injEq] at h; subst h
          cases isand <;> cases b <;> simp_all [SatAll, SatAny, LoopSat]
      | form g =>
        simp only [SimpSat] at ih
        simp only at h
        cases hl : C.loop isand fs with
        | error e => simp [hl] at h
        | ok o =>
          have h2 := ihs o hl
          cases o with
          | none =>
            simp only [hl, Except.ok.injEq] at h; subst h
            cases isand <;> simp_all [SatAll, SatAny, LoopSat]
          | some gs =>
            simp only [hl, Except.ok.injEq] at h; subst h
            cases isand <;> simp_all [SatAll, SatAny, LoopSat]
end

end Tarski

import Mathlib.Tactic.Common
import Mathlib.Order.Basic
import Verif.Semantics
import Verif.Builtins
import Verif.Evaluator
import Verif.ModelLemmas
/-! C17: the evaluator computes Tarskian truth. -/
namespace Tarski

/-! ### Specification -/

/-- The strict order on names: numbers by value, strings lexicographically; names of different kinds are not related. -/
def NameLt : Name → Name → Prop
  | .int a, .int b => a < b
  | .str a, .str b => a < b
  | _, _ => False

/-- The interpretation described by a model: constants denote themselves, predicates are interpreted by their
extensions, functions by the recorded values, `+ - * %` on integers as usual, comparisons by comparing the named
elements (only required on the elements satisfying `Occ`). -/
structure DescribesOn (Occ : Const → Prop) (L : MLang) (m : MState) (I : Interp Const) : Prop where
  const : ∀ n s, I.const n s = ⟨n, s⟩
  pred : ∀ p pt, I.pred (.user p) pt ↔ m.holds L p pt = true
  fn : ∀ f pt c, isArith f = false → m.value L f pt = .ok c → I.fn f pt = c
  cmp : ∀ c (a b : Const), Occ a → Occ b → (I.pred (.cmp c) [a, b] ↔ cmpRel NameLt c a.name b.name)
  add : ∀ x y s s', I.fn "+" [⟨.int x, s⟩, ⟨.int y, s'⟩] = ⟨.int (x + y), "Integer"⟩
  sub : ∀ x y s s', I.fn "-" [⟨.int x, s⟩, ⟨.int y, s'⟩] = ⟨.int (x - y), "Integer"⟩
  mul : ∀ x y s s', I.fn "*" [⟨.int x, s⟩, ⟨.int y, s'⟩] = ⟨.int (x * y), "Integer"⟩
  /-- the remainder with the sign of the divisor -/
  mod : ∀ x y q r s s', y ≠ 0 → x = y * q + r → (0 ≤ r ∧ r < y ∨ y < r ∧ r ≤ 0) →
    I.fn "%" [⟨.int x, s⟩, ⟨.int y, s'⟩] = ⟨.int r, "Integer"⟩

/-- The interpretation described by a model. -/
abbrev Describes := DescribesOn (fun _ => True)

mutual
/-- Negations have one subformula and comparisons two arguments, also inside the conditions of if-then-else terms
(guaranteed by the constructors, formulas.py:104-112, 319-320, terms.py:167-170); every constant satisfies `Occ`. -/
def FormulaOK (Occ : Const → Prop) : Formula → Prop
  | .top => True
  | .bot => True
  | .atom (.cmp _) ts => ts.length = 2 ∧ TermsOK Occ ts
  | .atom (.user _) ts => TermsOK Occ ts
  | .comp _ .not fs => fs.length = 1 ∧ FormulasOK Occ fs
  | .comp _ _ fs => FormulasOK Occ fs
  | .quant _ _ f => FormulaOK Occ f
def FormulasOK (Occ : Const → Prop) : List Formula → Prop
  | [] => True
  | f :: fs => FormulaOK Occ f ∧ FormulasOK Occ fs
def TermOK (Occ : Const → Prop) : Term → Prop
  | .var _ => True
  | .const n s => Occ ⟨n, s⟩
  | .app _ ts => TermsOK Occ ts
  | .ite c t e => FormulaOK Occ c ∧ TermOK Occ t ∧ TermOK Occ e
def TermsOK (Occ : Const → Prop) : List Term → Prop
  | [] => True
  | t :: ts => TermOK Occ t ∧ TermsOK Occ ts
end

theorem str_le_iff (a b : String) : ¬ b < a ↔ a < b ∨ a = b := by
  constructor
  · intro h
    by_cases h' : a < b
    · exact .inl h'
    · exact .inr (String.le_antisymm h h')
  · rintro (h | rfl)
    · exact fun h' => absurd h' (String.not_lt.2 (by
        rcases String.le_total a b with h1 | h1
        · exact h1
        · exact absurd h h1))
    · exact String.lt_irrefl a

theorem nameLt_iff {a b : Name} {r : Bool} (h : nameLt a b = .ok r) : r = true ↔ NameLt a b := by
  cases a <;> cases b <;> simp [nameLt] at h <;> subst h <;> simp [NameLt]

theorem cmpNames_iff {c a b r} (h : cmpNames c a b = .ok r) : r = true ↔ cmpRel NameLt c a b := by
  cases c <;> simp only [cmpNames] at h
  · cases h; simp [cmpRel]
  · cases h; simp [cmpRel]
  · exact nameLt_iff h
  · cases a <;> cases b <;> simp only [nameLt] at h <;> cases h <;> simp only [cmpRel, NameLt]
    · rename_i x y
      simpa using str_le_iff x y
    · rename_i x y
      simp; omega
  · exact nameLt_iff h
  · cases a <;> cases b <;> simp only [nameLt] at h <;> cases h <;> simp only [cmpRel, NameLt]
    · rename_i x y
      rw [Bool.not_eq_true', decide_eq_false_iff_not, str_le_iff, Name.str.injEq, eq_comm (a := y)]
    · rename_i x y
      simp; omega

theorem arith_spec {Occ L m I} (hI : DescribesOn Occ L m I) {f a b c} (hf : isArith f = true) (h : arith f a b = .ok c) :
    I.fn f [a, b] = c ∧ ∃ n, c = ⟨.int n, "Integer"⟩ := by
  obtain ⟨an, s⟩ := a
  obtain ⟨bn, s'⟩ := b
  simp only [arith] at h
  cases an with
  | str _ => simp at h
  | pyNone => simp at h
  | int x =>
    cases bn with
    | str _ => simp at h
    | pyNone => simp at h
    | int y =>
      have mk : ∀ v, mkInteger v = .ok c → c = ⟨.int v, "Integer"⟩ := by
        intro v hv
        simp only [mkInteger] at hv
        split at hv <;> simp at hv
        exact hv.symm
      simp only at h
      split at h
      · rename_i h1; rw [mk _ h, h1]; exact ⟨hI.add .., _, rfl⟩
      · split at h
        · rename_i h1; rw [mk _ h, h1]; exact ⟨hI.sub .., _, rfl⟩
        · split at h
          · rename_i h1; rw [mk _ h, h1]; exact ⟨hI.mul .., _, rfl⟩
          · split at h
            · simp at h
            · rename_i h1 h2 h3 hy
              have : f = "%" := by
                simp [isArith, h1, h2, h3] at hf; exact hf
              rw [mk _ h, this]
              refine ⟨hI.mod x y (Int.fdiv x y) _ _ _ hy ?_ ?_, _, rfl⟩
              · have := Int.mul_fdiv_add_fmod x y; omega
              · rcases Int.lt_or_gt_of_ne hy with h | h
                · right
                  have e : x.fmod y = - (-x).fmod (-y) := by rw [Int.neg_fmod_neg, Int.neg_neg]
                  have h1 := Int.fmod_nonneg_of_pos (-x) (b := -y) (by omega)
                  have h2 := Int.fmod_lt_of_pos (-x) (b := -y) (by omega)
                  omega
                · left
                  exact ⟨Int.fmod_nonneg_of_pos x h, Int.fmod_lt_of_pos x h⟩

mutual
theorem evTerm_sound {Occ L m I} (hI : DescribesOn Occ L m I) {sigma : Var → Except Err Const} {σ : Asg Const}
    (hv : ∀ f pt c, m.value L f pt = .ok c → Occ c) (ha : ∀ n, Occ ⟨.int n, "Integer"⟩)
    (hs : ∀ v c, sigma v = .ok c → σ v = c ∧ Occ c) :
    ∀ (t : Term) (mode : EvMode) (c : Const), TermOK Occ t → evTerm L m sigma mode t = .ok c → evalT I t σ = c ∧ Occ c
  | .var v, mode, c, _, h => by
    simp only [evTerm] at h
    split at h
    · simp only [evalT]; exact hs v c h
    · simp at h
  | .const n s, mode, c, ok, h => by
    simp only [evTerm, Except.ok.injEq] at h
    simp only [TermOK] at ok
    simp only [evalT, hI.const, h]
    exact ⟨trivial, h ▸ ok⟩
  | .app f ts, mode, c, ok, h => by
    simp only [TermOK] at ok
    simp only [evTerm] at h
    simp only [evalT]
    split at h
    · rename_i hf
      split at h
      · rename_i a b hab
        rw [(evTerms_sound hI hv ha hs ts _ _ ok hab).1]
        obtain ⟨h1, n, h2⟩ := arith_spec hI hf h
        exact ⟨h1, h2 ▸ ha n⟩
      · simp at h
      · simp at h
    · rename_i hf
      split at h
      · rename_i pt hpt
        rw [(evTerms_sound hI hv ha hs ts _ _ ok hpt).1]
        simp only [valueOrUndefined] at h
        split at h <;> simp at h
        subst h
        exact ⟨hI.fn _ _ _ (by simpa using hf) ‹_›, hv _ _ _ ‹_›⟩
      · simp at h
  | .ite cnd t e, mode, c, ok, h => by
    simp only [TermOK] at ok
    simp only [evTerm] at h
    simp only [evalT]
    split at h
    · simp at h
    · split at h
      · simp at h
      · rename_i hc
        rw [if_pos ((evFormula_sound hI hv ha hs cnd true ok.1 hc).2 rfl)]
        exact evTerm_sound hI hv ha hs t _ c ok.2.1 h
      · rename_i hc
        rw [if_neg (fun hh => by simpa using (evFormula_sound hI hv ha hs cnd false ok.1 hc).1 hh)]
        exact evTerm_sound hI hv ha hs e _ c ok.2.2 h
theorem evTerms_sound {Occ L m I} (hI : DescribesOn Occ L m I) {sigma : Var → Except Err Const} {σ : Asg Const}
    (hv : ∀ f pt c, m.value L f pt = .ok c → Occ c) (ha : ∀ n, Occ ⟨.int n, "Integer"⟩)
    (hs : ∀ v c, sigma v = .ok c → σ v = c ∧ Occ c) :
    ∀ (ts : List Term) (mode : EvMode) (cs : List Const), TermsOK Occ ts → evTerms L m sigma mode ts = .ok cs → evalTs I ts σ = cs ∧ ∀ c ∈ cs, Occ c
  | [], mode, cs, _, h => by simp only [evTerms, Except.ok.injEq] at h; subst h; simp [evalTs]
  | t :: ts, mode, cs, ok, h => by
    simp only [TermsOK] at ok
    simp only [evTerms] at h
    split at h
    · simp at h
    · rename_i c hc
      split at h
      · simp at h
      · rename_i cs' hcs
        simp only [Except.ok.injEq] at h
        obtain ⟨h1, h2⟩ := evTerm_sound hI hv ha hs t _ c ok.1 hc
        obtain ⟨h3, h4⟩ := evTerms_sound hI hv ha hs ts _ cs' ok.2 hcs
        subst h
        simp only [evalTs, h1, h3, true_and]
        intro x hx
        rcases List.mem_cons.1 hx with rfl | hx
        · exact h2
        · exact h4 x hx
theorem evFormula_sound {Occ L m I} (hI : DescribesOn Occ L m I) {sigma : Var → Except Err Const} {σ : Asg Const}
    (hv : ∀ f pt c, m.value L f pt = .ok c → Occ c) (ha : ∀ n, Occ ⟨.int n, "Integer"⟩)
    (hs : ∀ v c, sigma v = .ok c → σ v = c ∧ Occ c) :
    ∀ (f : Formula) (b : Bool), FormulaOK Occ f → evFormula L m sigma f = .ok b → (Sat I f σ ↔ b = true)
  | .top, b, _, h => by simp only [evFormula, Except.ok.injEq] at h; simp [Sat, ← h]
  | .bot, b, _, h => by simp only [evFormula, Except.ok.injEq] at h; simp [Sat, ← h]
  | .atom (.cmp c) ts, b, ok, h => by
    simp only [FormulaOK] at ok
    simp only [evFormula] at h
    simp only [Sat]
    split at h
    · rename_i x y hxy
      obtain ⟨h1, h2⟩ := evTerms_sound hI hv ha hs ts _ _ ok.2 hxy
      rw [h1, hI.cmp _ _ _ (h2 x (by simp)) (h2 y (by simp))]
      exact (cmpNames_iff h).symm
    · simp at h
    · simp at h
  | .atom (.user p) ts, b, ok, h => by
    simp only [FormulaOK] at ok
    simp only [evFormula] at h
    simp only [Sat]
    split at h
    · rename_i pt hpt
      simp only [Except.ok.injEq] at h
      rw [(evTerms_sound hI hv ha hs ts _ _ ok hpt).1, hI.pred, h]
    · simp at h
  | .comp k .and fs, b, ok, h => by
    simp only [FormulaOK] at ok
    simp only [evFormula] at h
    simp only [Sat]
    exact evAll_sound hI hv ha hs fs b ok h
  | .comp k .or fs, b, ok, h => by
    simp only [FormulaOK] at ok
    simp only [evFormula] at h
    simp only [Sat]
    exact evAny_sound hI hv ha hs fs b ok h
  | .comp k .not [], b, ok, h => by simp [evFormula] at h
  | .comp k .not (f :: fs), b, ok, h => by
    simp only [FormulaOK, FormulasOK] at ok
    have hfs : fs = [] := by simpa using ok.1
    simp only [evFormula] at h
    split at h
    · rename_i b' hb
      simp only [Except.ok.injEq] at h
      have := evFormula_sound hI hv ha hs f b' ok.2.1 hb
      subst hfs
      simp only [Sat, SatAll, and_true, this, ← h]
      cases b' <;> simp
    · simp at h
  | .quant q vs f, b, ok, h => by simp [evFormula] at h
theorem evAll_sound {Occ L m I} (hI : DescribesOn Occ L m I) {sigma : Var → Except Err Const} {σ : Asg Const}
    (hv : ∀ f pt c, m.value L f pt = .ok c → Occ c) (ha : ∀ n, Occ ⟨.int n, "Integer"⟩)
    (hs : ∀ v c, sigma v = .ok c → σ v = c ∧ Occ c) :
    ∀ (fs : List Formula) (b : Bool), FormulasOK Occ fs → evAll L m sigma fs = .ok b → (SatAll I fs σ ↔ b = true)
  | [], b, _, h => by simp only [evAll, Except.ok.injEq] at h; simp [SatAll, ← h]
  | f :: fs, b, ok, h => by
    simp only [FormulasOK] at ok
    simp only [evAll] at h
    simp only [SatAll]
    split at h
    · rename_i hf
      rw [evAll_sound hI hv ha hs fs b ok.2 h, evFormula_sound hI hv ha hs f true ok.1 hf]; simp
    · rename_i hf
      simp only [Except.ok.injEq] at h
      rw [evFormula_sound hI hv ha hs f false ok.1 hf, ← h]; simp
    · simp at h
theorem evAny_sound {Occ L m I} (hI : DescribesOn Occ L m I) {sigma : Var → Except Err Const} {σ : Asg Const}
    (hv : ∀ f pt c, m.value L f pt = .ok c → Occ c) (ha : ∀ n, Occ ⟨.int n, "Integer"⟩)
    (hs : ∀ v c, sigma v = .ok c → σ v = c ∧ Occ c) :
    ∀ (fs : List Formula) (b : Bool), FormulasOK Occ fs → evAny L m sigma fs = .ok b → (SatAny I fs σ ↔ b = true)
  | [], b, _, h => by simp only [evAny, Except.ok.injEq] at h; simp [SatAny, ← h]
  | f :: fs, b, ok, h => by
    simp only [FormulasOK] at ok
    simp only [evAny] at h
    simp only [SatAny]
    split at h
    · rename_i hf
      simp only [Except.ok.injEq] at h
      rw [evFormula_sound hI hv ha hs f true ok.1 hf, ← h]; simp
    · rename_i hf
      rw [evAny_sound hI hv ha hs fs b ok.2 h, evFormula_sound hI hv ha hs f false ok.1 hf]; simp
    · simp at h
end

/-- C17, soundness: whenever `evaluate(phi, model, sigma)` returns a truth value, it is the truth value of `phi` in
every interpretation described by the model, under every assignment agreeing with `sigma`. -/
theorem C17_sound (L : MLang) (m : MState) (I : Interp Const) (hI : Describes L m I) (f : Formula) (hf : FormulaOK (fun _ => True) f)
    (sigma : Var → Except Err Const) (σ : Asg Const) (hs : ∀ v c, sigma v = .ok c → σ v = c) (b : Bool)
    (h : evFormula L m sigma f = .ok b) : b = true ↔ Sat I f σ :=
  (evFormula_sound hI (fun _ _ _ _ => trivial) (fun _ => trivial) (fun v c h => ⟨hs v c h, trivial⟩) f b hf h).symm

/-- C17, soundness for terms. -/
theorem C17_sound_term (L : MLang) (m : MState) (I : Interp Const) (hI : Describes L m I) (t : Term) (ht : TermOK (fun _ => True) t)
    (sigma : Var → Except Err Const) (σ : Asg Const) (hs : ∀ v c, sigma v = .ok c → σ v = c) (c : Const)
    (h : evTerm L m sigma .eval t = .ok c) : evalT I t σ = c :=
  (evTerm_sound hI (fun _ _ _ _ => trivial) (fun _ => trivial) (fun v c h => ⟨hs v c h, trivial⟩) t .eval c ht h).1

/-- C17, results of arithmetic are values of the sort Integer: whenever evaluating `t + u` (or `-`, `*`, `%`) returns, the
result is an integer within the bounds of Integer; otherwise the evaluation raises. -/
theorem C17_arithmetic_range (L : MLang) (m : MState) (sigma) (mode : EvMode) (f : String) (ts : List Term) (c : Const)
    (hf : f = "+" ∨ f = "-" ∨ f = "*" ∨ f = "%") (h : evTerm L m sigma mode (.app f ts) = .ok c) :
    ∃ v : Int, c = ⟨.int v, "Integer"⟩ ∧ -(2 ^ 31 - 1) ≤ v ∧ v ≤ 2 ^ 31 - 1 := by
  have ha : isArith f = true := by rcases hf with rfl | rfl | rfl | rfl <;> decide
  have hm : ∀ v c, mkInteger v = .ok c → ∃ v : Int, c = ⟨.int v, "Integer"⟩ ∧ -(2 ^ 31 - 1) ≤ v ∧ v ≤ 2 ^ 31 - 1 := by
    intro v c h
    unfold mkInteger at h
    cases hb : theIntegers.contains v with
    | false => simp [hb] at h
    | true =>
      rw [hb] at h
      simp only [IvSort.contains, theIntegers, Bool.and_eq_true] at hb
      simp only [if_true, Except.ok.injEq] at h
      exact ⟨v, h.symm, of_decide_eq_true hb.1, of_decide_eq_true hb.2⟩
  simp only [evTerm, ha, if_true] at h
  split at h
  · simp only [arith] at h
    split at h
    · repeat' split at h
      all_goals first | exact hm _ _ h | simp at h
    · simp at h
  · simp at h
  · simp at h

/-- For instance `2147483647 + 1` raises. -/
example : evTerm ⟨fun _ => [], fun _ => [], fun _ _ => true, fun _ _ => true, fun _ => false⟩ .empty (fun _ => .error .keyError) .eval
    (.app "+" [.const (.int 2147483647) "Integer", .const (.int 1) "Integer"]) = .error .value := by decide

/-- C17: quantified formulas are rejected (NotImplementedError). -/
theorem C17_quantified_rejected (L : MLang) (m : MState) (sigma) (q : Quant) (vs : List Term) (f : Formula) :
    evFormula L m sigma (.quant q vs f) = .error .notImplemented := by simp [evFormula]

/-! ### Definedness: when evaluation must succeed -/

/-- Two names can be ordered: both numbers or both strings. -/
def Orderable : Name → Name → Prop
  | .int _, .int _ => True
  | .str _, .str _ => True
  | _, _ => False

/-- `f` is `+ - * %` applied to two integers, without division by zero, and the result is an `Integer`. -/
def ArithDefined (I : Interp Const) (f : String) (cs : List Const) : Prop :=
  ∃ x y s s' v, cs = [⟨.int x, s⟩, ⟨.int y, s'⟩] ∧ (f = "%" → y ≠ 0) ∧ (I.fn f cs).name = .int v ∧
    -(2 ^ 31 - 1) ≤ v ∧ v ≤ 2 ^ 31 - 1

mutual
/-- The (ground, quantifier-free) formula only needs points at which the model defines the functions, and orders only
names of one kind. With `nest = false`, a branch of an if-then-else is not itself an if-then-else. -/
def DefinedF (nest : Bool) (L : MLang) (m : MState) (I : Interp Const) (σ : Asg Const) : Formula → Prop
  | .top => True
  | .bot => True
  | .atom (.cmp c) ts => ts.length = 2 ∧ DefinedTs nest L m I σ ts ∧
      (c = .eq ∨ c = .ne ∨ ∀ a b, evalTs I ts σ = [a, b] → Orderable a.name b.name)
  | .atom (.user _) ts => DefinedTs nest L m I σ ts
  | .comp _ .not fs => fs.length = 1 ∧ DefinedFs nest L m I σ fs
  | .comp _ _ fs => DefinedFs nest L m I σ fs
  | .quant _ _ _ => False
def DefinedFs (nest : Bool) (L : MLang) (m : MState) (I : Interp Const) (σ : Asg Const) : List Formula → Prop
  | [] => True
  | f :: fs => DefinedF nest L m I σ f ∧ DefinedFs nest L m I σ fs
def DefinedT (nest : Bool) (L : MLang) (m : MState) (I : Interp Const) (σ : Asg Const) : Term → Prop
  | .var _ => False
  | .const _ _ => True
  | .app f ts => DefinedTs nest L m I σ ts ∧
      (if isArith f = true then ArithDefined I f (evalTs I ts σ) else ∃ c, m.value L f (evalTs I ts σ) = .ok c)
  | .ite c t e => DefinedF nest L m I σ c ∧ DefinedT nest L m I σ t ∧ DefinedT nest L m I σ e ∧
      (nest = false → (∀ c' t' e', t ≠ .ite c' t' e') ∧ (∀ c' t' e', e ≠ .ite c' t' e'))
def DefinedTs (nest : Bool) (L : MLang) (m : MState) (I : Interp Const) (σ : Asg Const) : List Term → Prop
  | [] => True
  | t :: ts => DefinedT nest L m I σ t ∧ DefinedTs nest L m I σ ts
end

mutual
theorem definedF_ok {nest L m I σ} : ∀ f, DefinedF nest L m I σ f → FormulaOK (fun _ => True) f
  | .top, _ => trivial
  | .bot, _ => trivial
  | .atom (.cmp c) ts, h => by
    simp only [DefinedF] at h
    simp only [FormulaOK]
    exact ⟨h.1, definedTs_ok ts h.2.1⟩
  | .atom (.user _) ts, h => by
    simp only [DefinedF] at h
    simp only [FormulaOK]
    exact definedTs_ok ts h
  | .comp _ .not fs, h => by
    simp only [DefinedF] at h
    simp only [FormulaOK]
    exact ⟨h.1, definedFs_ok fs h.2⟩
  | .comp _ .and fs, h => by
    simp only [DefinedF] at h
    simp only [FormulaOK]
    exact definedFs_ok fs h
  | .comp _ .or fs, h => by
    simp only [DefinedF] at h
    simp only [FormulaOK]
    exact definedFs_ok fs h
  | .quant _ _ f, h => by simp only [DefinedF] at h
theorem definedFs_ok {nest L m I σ} : ∀ fs, DefinedFs nest L m I σ fs → FormulasOK (fun _ => True) fs
  | [], _ => trivial
  | f :: fs, h => by
    simp only [DefinedFs] at h
    simp only [FormulasOK]
    exact ⟨definedF_ok f h.1, definedFs_ok fs h.2⟩
theorem definedT_ok {nest L m I σ} : ∀ t, DefinedT nest L m I σ t → TermOK (fun _ => True) t
  | .var _, _ => trivial
  | .const _ _, _ => trivial
  | .app f ts, h => by
    simp only [DefinedT] at h
    simp only [TermOK]
    exact definedTs_ok ts h.1
  | .ite c t e, h => by
    simp only [DefinedT] at h
    simp only [TermOK]
    exact ⟨definedF_ok c h.1, definedT_ok t h.2.1, definedT_ok e h.2.2.1⟩
theorem definedTs_ok {nest L m I σ} : ∀ ts, DefinedTs nest L m I σ ts → TermsOK (fun _ => True) ts
  | [], _ => trivial
  | f :: fs, h => by
    simp only [DefinedTs] at h
    simp only [TermsOK]
    exact ⟨definedT_ok f h.1, definedTs_ok fs h.2⟩
end

theorem arith_total {L m I} (hI : Describes L m I) {f cs} (hf : isArith f = true) (h : ArithDefined I f cs) :
    ∃ a b c, cs = [a, b] ∧ arith f a b = .ok c := by
  obtain ⟨x, y, s, s', v, rfl, hy, hv, h1, h2⟩ := h
  refine ⟨⟨.int x, s⟩, ⟨.int y, s'⟩, ⟨.int v, "Integer"⟩, rfl, ?_⟩
  have mk : mkInteger v = .ok ⟨.int v, "Integer"⟩ := by
    simp only [mkInteger, IvSort.contains, theIntegers, h1, h2, decide_true, Bool.and_self, if_true]
  have hcases : f = "+" ∨ f = "-" ∨ f = "*" ∨ f = "%" := by simpa [isArith, or_assoc] using hf
  rcases hcases with rfl | rfl | rfl | rfl
  · rw [hI.add] at hv; cases hv; simp only [arith, if_true]; exact mk
  · rw [hI.sub] at hv; cases hv; simp [arith, mk]
  · rw [hI.mul] at hv; cases hv; simp [arith, mk]
  · have hy := hy rfl
    have hm := hI.mod x y (Int.fdiv x y) (Int.fmod x y) s s' hy (by have := Int.mul_fdiv_add_fmod x y; omega) (by
      rcases Int.lt_or_gt_of_ne hy with h | h
      · right
        have e : x.fmod y = - (-x).fmod (-y) := by rw [Int.neg_fmod_neg, Int.neg_neg]
        have h1 := Int.fmod_nonneg_of_pos (-x) (b := -y) (by omega)
        have h2 := Int.fmod_lt_of_pos (-x) (b := -y) (by omega)
        omega
      · left
        exact ⟨Int.fmod_nonneg_of_pos x h, Int.fmod_lt_of_pos x h⟩)
    rw [hm] at hv; cases hv; simp [arith, hy, mk]

theorem cmpNames_total {c a b} (h : c = .eq ∨ c = .ne ∨ Orderable a b) : ∃ r, cmpNames c a b = .ok r := by
  rcases h with rfl | rfl | h
  · exact ⟨_, rfl⟩
  · exact ⟨_, rfl⟩
  · cases a <;> cases b <;> simp [Orderable] at h <;> cases c <;> exact ⟨_, rfl⟩

mutual
theorem evTerm_total {L m I σ} (hI : Describes L m I) {sigma : Var → Except Err Const} (hs : ∀ v c, sigma v = .ok c → σ v = c) :
    ∀ (t : Term) (mode : EvMode), (mode = .branch → ∀ c t' e', t ≠ .ite c t' e') → DefinedT false L m I σ t →
      ∃ c, evTerm L m sigma mode t = .ok c
  | .var v, _, _, h => by simp only [DefinedT] at h
  | .const n s, _, _, _ => ⟨⟨n, s⟩, by simp [evTerm]⟩
  | .app f ts, mode, _, h => by
    simp only [DefinedT] at h
    simp only [evTerm]
    by_cases hf : isArith f = true
    · simp only [hf, if_true] at h ⊢
      obtain ⟨cs, hcs⟩ := evTerms_total hI hs ts .term (by simp) h.1
      have he := (fun mode cs h1 h2 => (evTerms_sound hI (fun _ _ _ _ => trivial) (fun _ => trivial) (fun v c h => ⟨hs v c h, trivial⟩) ts mode cs h1 h2).1) .term cs (definedTs_ok ts h.1) hcs
      rw [he] at h
      obtain ⟨a, b, c, rfl, hc⟩ := arith_total hI hf h.2
      rw [hcs]
      exact ⟨c, hc⟩
    · simp only [hf, if_false] at h ⊢
      obtain ⟨cs, hcs⟩ := evTerms_total hI hs ts .eval (by simp) h.1
      have he := (fun mode cs h1 h2 => (evTerms_sound hI (fun _ _ _ _ => trivial) (fun _ => trivial) (fun v c h => ⟨hs v c h, trivial⟩) ts mode cs h1 h2).1) .eval cs (definedTs_ok ts h.1) hcs
      rw [he] at h
      obtain ⟨c, hc⟩ := h.2
      simp [hcs, valueOrUndefined, hc]
  | .ite cnd t e, mode, hm, h => by
    simp only [DefinedT] at h
    simp only [evTerm]
    have hb : mode ≠ .branch := fun hh => hm hh _ _ _ rfl
    obtain ⟨b, hc⟩ := evFormula_total hI hs cnd h.1
    simp only [hb, if_false, hc]
    cases b with
    | true => exact evTerm_total hI hs t .branch (fun _ => (h.2.2.2 trivial).1) h.2.1
    | false => exact evTerm_total hI hs e .branch (fun _ => (h.2.2.2 trivial).2) h.2.2.1
theorem evTerms_total {L m I σ} (hI : Describes L m I) {sigma : Var → Except Err Const} (hs : ∀ v c, sigma v = .ok c → σ v = c) :
    ∀ (ts : List Term) (mode : EvMode), mode ≠ .branch → DefinedTs false L m I σ ts →
      ∃ cs, evTerms L m sigma mode ts = .ok cs
  | [], _, _, _ => ⟨[], by simp [evTerms]⟩
  | t :: ts, mode, hm, h => by
    simp only [DefinedTs] at h
    obtain ⟨c, hc⟩ := evTerm_total hI hs t mode (fun hh => absurd hh hm) h.1
    obtain ⟨cs, hcs⟩ := evTerms_total hI hs ts mode hm h.2
    exact ⟨c :: cs, by simp [evTerms, hc, hcs]⟩
theorem evFormula_total {L m I σ} (hI : Describes L m I) {sigma : Var → Except Err Const} (hs : ∀ v c, sigma v = .ok c → σ v = c) :
    ∀ (f : Formula), DefinedF false L m I σ f → ∃ b, evFormula L m sigma f = .ok b
  | .top, _ => ⟨true, by simp [evFormula]⟩
  | .bot, _ => ⟨false, by simp [evFormula]⟩
  | .atom (.cmp c) ts, h => by
    simp only [DefinedF] at h
    obtain ⟨cs, hcs⟩ := evTerms_total hI hs ts .eval (by simp) h.2.1
    have he := (fun mode cs h1 h2 => (evTerms_sound hI (fun _ _ _ _ => trivial) (fun _ => trivial) (fun v c h => ⟨hs v c h, trivial⟩) ts mode cs h1 h2).1) .eval cs (definedTs_ok ts h.2.1) hcs
    have hl : cs.length = 2 := by rw [← he, evalTs_eq_map]; simpa using h.1
    match cs, hl with
    | [a, b], _ =>
      obtain ⟨r, hr⟩ : ∃ r, cmpNames c a.name b.name = .ok r :=
        cmpNames_total (h.2.2.imp id (Or.imp id (fun hh => hh a b he)))
      exact ⟨r, by simp [evFormula, hcs, hr]⟩
  | .atom (.user p) ts, h => by
    simp only [DefinedF] at h
    obtain ⟨cs, hcs⟩ := evTerms_total hI hs ts .eval (by simp) h
    exact ⟨m.holds L p cs, by simp [evFormula, hcs]⟩
  | .comp _ .and fs, h => by
    simp only [DefinedF] at h
    simp only [evFormula]
    exact (evList_total hI hs fs h).1
  | .comp _ .or fs, h => by
    simp only [DefinedF] at h
    simp only [evFormula]
    exact (evList_total hI hs fs h).2
  | .comp _ .not [], h => by simp [DefinedF] at h
  | .comp _ .not (f :: fs), h => by
    simp only [DefinedF, DefinedFs] at h
    obtain ⟨b, hb⟩ := evFormula_total hI hs f h.2.1
    exact ⟨!b, by simp [evFormula, hb]⟩
  | .quant _ _ _, h => by simp only [DefinedF] at h
theorem evList_total {L m I σ} (hI : Describes L m I) {sigma : Var → Except Err Const} (hs : ∀ v c, sigma v = .ok c → σ v = c) :
    ∀ (fs : List Formula), DefinedFs false L m I σ fs → (∃ b, evAll L m sigma fs = .ok b) ∧ (∃ b, evAny L m sigma fs = .ok b)
  | [], _ => ⟨⟨true, by simp [evAll]⟩, ⟨false, by simp [evAny]⟩⟩
  | f :: fs, h => by
    simp only [DefinedFs] at h
    obtain ⟨b, hb⟩ := evFormula_total hI hs f h.1
    obtain ⟨⟨b1, h1⟩, ⟨b2, h2⟩⟩ := evList_total hI hs fs h.2
    cases b <;> simp [evAll, evAny, hb, h1, h2]
end

/-- C17, full statement: on a ground quantifier-free formula for which the model defines every function point needed,
`evaluate` returns True iff the formula is true and False iff it is false. -/
def C17_full : Prop := ∀ (L : MLang) (m : MState) (I : Interp Const) (σ : Asg Const) (f : Formula), Describes L m I →
  DefinedF true L m I σ f → ∃ b, evFormula L m (fun _ => .error .keyError) f = .ok b ∧ (b = true ↔ Sat I f σ)

/-- C17 when no branch of an if-then-else term is itself an if-then-else term (missing: that case, on which the code fails). -/
theorem C17_partial (L : MLang) (m : MState) (I : Interp Const) (σ : Asg Const) (f : Formula) (hI : Describes L m I)
    (hd : DefinedF false L m I σ f) :
    ∃ b, evFormula L m (fun _ => .error .keyError) f = .ok b ∧ (b = true ↔ Sat I f σ) := by
  have hs : ∀ (v : Var) (c : Const), (fun _ => (.error .keyError : Except Err Const)) v = .ok c → σ v = c := by
    intro v c h; cases h
  obtain ⟨b, hb⟩ := evFormula_total hI hs f hd
  exact ⟨b, hb, C17_sound L m I hI f (definedF_ok f hd) _ σ hs b hb⟩

/-! ### Counterexamples and non-vacuity -/

/-- The canonical interpretation described by a model. -/
noncomputable def interpOf (L : MLang) (m : MState) : Interp Const where
  const := fun n s => ⟨n, s⟩
  fn := fun f pt =>
    if isArith f then
      match pt with
      | [⟨.int x, _⟩, ⟨.int y, _⟩] =>
        ⟨.int (if f = "+" then x + y else if f = "-" then x - y else if f = "*" then x * y else Int.fmod x y), "Integer"⟩
      | _ => default
    else match m.value L f pt with | .ok c => c | .error _ => default
  pred := fun p pt => match p with
    | .user p => m.holds L p pt = true
    | .cmp c => match pt with | [a, b] => cmpRel NameLt c a.name b.name | _ => False
  sort := fun s c => L.isSub c.sort s = true

theorem mod_unique {x y q r : Int} (hy : y ≠ 0) (he : x = y * q + r) (hr : 0 ≤ r ∧ r < y ∨ y < r ∧ r ≤ 0) :
    Int.fmod x y = r := by
  have h1 := Int.mul_fdiv_add_fmod x y
  have h2 : (0 ≤ x.fmod y ∧ x.fmod y < y) ∨ (y < x.fmod y ∧ x.fmod y ≤ 0) := by
    rcases Int.lt_or_gt_of_ne hy with h | h
    · right
      have e : x.fmod y = - (-x).fmod (-y) := by rw [Int.neg_fmod_neg, Int.neg_neg]
      have h1 := Int.fmod_nonneg_of_pos (-x) (b := -y) (by omega)
      have h2 := Int.fmod_lt_of_pos (-x) (b := -y) (by omega)
      omega
    · left
      exact ⟨Int.fmod_nonneg_of_pos x h, Int.fmod_lt_of_pos x h⟩
  have h3 : y * (q - x.fdiv y) = x.fmod y - r := by rw [Int.mul_sub]; omega
  by_cases hz : q - x.fdiv y = 0
  · rw [hz] at h3; omega
  · exfalso
    have : y.natAbs ≤ (x.fmod y - r).natAbs := by
      rw [← h3, Int.natAbs_mul]
      exact Nat.le_mul_of_pos_right _ (Int.natAbs_pos.2 hz)
    omega

theorem interpOf_describes (L : MLang) (m : MState) : Describes L m (interpOf L m) where
  const := fun _ _ => rfl
  pred := fun _ _ => Iff.rfl
  fn := fun f pt c hf h => by simp [interpOf, hf, h]
  cmp := fun _ _ _ _ _ => Iff.rfl
  add := fun _ _ _ _ => by simp [interpOf, isArith]
  sub := fun _ _ _ _ => by simp [interpOf, isArith]
  mul := fun _ _ _ _ => by simp [interpOf, isArith]
  mod := fun x y q r s s' hy he hr => by
    have := mod_unique hy he hr
    simp [interpOf, isArith, this]

/-- The code violates C17: evaluating `ite(T, ite(T, 1, 2), 3) = 1` fails an assertion (simple.py:78-96). -/
theorem C17_refuted : ¬ C17_full := by
  intro h
  let L : MLang := ⟨fun _ => [], fun _ => [], fun _ _ => true, fun _ _ => true, fun _ => false⟩
  let one : Term := .const (.int 1) "Integer"
  obtain ⟨b, hb, _⟩ := h L MState.empty (interpOf L .empty) (fun _ => default)
    (.atom (.cmp .eq) [.ite .top (.ite .top one (.const (.int 2) "Integer")) (.const (.int 3) "Integer"), one])
    (interpOf_describes _ _) (by simp [DefinedF, DefinedTs, DefinedT, one])
  simp [evFormula, evTerms, evTerm, one] at hb

/-- A language with a function `f : -> Natural` and a predicate `p(Integer)`, where Natural is a subsort of Integer. -/
def evNumLang : MLang where
  psorts := fun _ => ["Integer"]
  fsorts := fun _ => ["Natural"]
  isSub := fun a b => a == b || (a == "Natural" && b == "Integer")
  contains := fun _ n => match n with | .int k => decide (0 ≤ k ∧ k < 100) | _ => false
  interval := fun _ => true

/-- `f() := 1`, `p(1)`. -/
def evNumModel : MState := MState.empty.run evNumLang [.set "f" false [] (.lit (.int 1)), .add (.user "p") [.lit (.int 1)]]

/-- Equality is not identity: with `f() := 1` and `p(1)`, the evaluator makes `f() = 1` and `p(1)` true but `p(f())`
false, because equality compares names while extensions also compare sorts. No interpretation in which `=` is identity
agrees with it. -/
theorem C17_identity_refuted :
    let ev := evFormula evNumLang evNumModel (fun _ => .error .keyError)
    let f1 : Formula := .atom (.cmp .eq) [.app "f" [], .const (.int 1) "Integer"]
    let f2 : Formula := .atom (.user "p") [.const (.int 1) "Integer"]
    let f3 : Formula := .atom (.user "p") [.app "f" []]
    ev f1 = .ok true ∧ ev f2 = .ok true ∧ ev f3 = .ok false ∧
    ∀ (D : Type) (I : Interp D) (σ : Asg D), (∀ a b, I.pred (.cmp .eq) [a, b] ↔ a = b) →
      ¬ ((Sat I f1 σ) ∧ (Sat I f2 σ) ∧ ¬ (Sat I f3 σ)) := by
  intro ev f1 f2 f3
  refine ⟨by decide, by decide, by decide, ?_⟩
  rintro D I σ hid ⟨h1, h2, h3⟩
  simp only [f1, f2, f3, Sat, evalTs, evalT, hid] at h1 h2 h3
  rw [h1] at h3
  exact h3 h2

/-- Standard meaning of the comparisons with `=` as identity of elements; the order is that of the names. -/
def cmpIdentity : Cmp → Const → Const → Prop
  | .eq, a, b => a = b
  | .ne, a, b => a ≠ b
  | .lt, a, b => NameLt a.name b.name
  | .le, a, b => NameLt a.name b.name ∨ a = b
  | .gt, a, b => NameLt b.name a.name
  | .ge, a, b => NameLt b.name a.name ∨ a = b

/-- C17 with identity as equality: agreement holds when, on the constants that can occur (`Occ`: in the formula, as
function values, as arithmetic results, in `sigma`), the name determines the constant (missing: numbers of different
sorts with the same value). -/
theorem C17_identity_partial (Occ : Const → Prop) (hinj : ∀ a b, Occ a → Occ b → a.name = b.name → a = b)
    (L : MLang) (m : MState) (I I' : Interp Const) (hI : Describes L m I)
    (hconst : I'.const = I.const) (hfn : I'.fn = I.fn) (hpred : ∀ p, I'.pred (.user p) = I.pred (.user p))
    (hid : ∀ c a b, I'.pred (.cmp c) [a, b] ↔ cmpIdentity c a b)
    (hval : ∀ f pt c, m.value L f pt = .ok c → Occ c) (har : ∀ n, Occ ⟨.int n, "Integer"⟩)
    (f : Formula) (hf : FormulaOK Occ f) (sigma : Var → Except Err Const) (σ : Asg Const)
    (hs : ∀ v c, sigma v = .ok c → σ v = c ∧ Occ c) (b : Bool)
    (h : evFormula L m sigma f = .ok b) : b = true ↔ Sat I' f σ := by
  refine (evFormula_sound (Occ := Occ) ?_ hval har hs f b hf h).symm
  refine ⟨by rw [hconst]; exact hI.const, by simp only [hpred]; exact hI.pred, by rw [hfn]; exact hI.fn, ?_,
    by rw [hfn]; exact hI.add, by rw [hfn]; exact hI.sub, by rw [hfn]; exact hI.mul, by rw [hfn]; exact hI.mod⟩
  intro c x y hx hy
  rw [hid]
  have : x = y ↔ x.name = y.name := ⟨fun h => by rw [h], hinj x y hx hy⟩
  cases c <;> simp [cmpIdentity, cmpRel, this]

/-- The hypotheses of `C17_partial` hold for a formula with a conjunction, a negation, an if-then-else and arithmetic. -/
example : DefinedF false evNumLang evNumModel (interpOf evNumLang evNumModel) (fun _ => default)
    (.comp .tuple .and [.comp .list .not [.atom (.user "p") [.app "f" []]],
      .atom (.cmp .lt) [.ite (.atom (.user "p") [.const (.int 1) "Integer"]) (.app "f" []) (.const (.int 7) "Integer"),
        .app "+" [.const (.int 1) "Integer", .const (.int 1) "Integer"]]]) := by
  have hv : evNumModel.value evNumLang "f" [] = .ok ⟨.int 1, "Natural"⟩ := by decide
  have hp : evNumModel.holds evNumLang "p" [⟨.int 1, "Integer"⟩] = true := by decide
  simp only [DefinedF, DefinedFs, DefinedTs, DefinedT, evalTs, evalT, Sat]
  simp [isArith, hv, hp, ArithDefined, interpOf, Orderable]

example : evFormula evNumLang evNumModel (fun _ => .error .keyError)
    (.comp .tuple .and [.comp .list .not [.atom (.user "p") [.app "f" []]],
      .atom (.cmp .lt) [.ite (.atom (.user "p") [.const (.int 1) "Integer"]) (.app "f" []) (.const (.int 7) "Integer"),
        .app "+" [.const (.int 1) "Integer", .const (.int 1) "Integer"]]]) = .ok true := by decide

/-- The hypotheses of `C17_identity_partial` on constants are met, e.g., when numbers have sort `Integer` and all other
constants sort `object`. -/
example : let Occ : Const → Prop := fun c => c.sort = match c.name with | .int _ => "Integer" | _ => "object"
    (∀ a b, Occ a → Occ b → a.name = b.name → a = b) ∧ (∀ n, Occ ⟨.int n, "Integer"⟩) ∧ Occ ⟨.str "a", "object"⟩ := by
  refine ⟨?_, fun n => rfl, rfl⟩
  rintro ⟨n, s⟩ ⟨n', s'⟩ h1 h2 h3
  simp only at h1 h2 h3
  subst h3
  rw [h1, h2]

end Tarski

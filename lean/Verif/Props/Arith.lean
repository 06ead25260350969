import Verif.Arith
import Mathlib.Algebra.Field.Basic
import Mathlib.Tactic.Common
/-! C41: symbolic arithmetic simplification. -/
namespace Tarski
variable {K : Type} [Field K] [DecidableEq K]

/-- What an arithmetic expression ranges over: the values of variables and of terms that are not arithmetic, the truth
of conditions, and the exponential function. -/
structure Valuation (K : Type) where
  opaque' : Term → Option K
  cond : Formula → Bool
  exp : K → K

/-- Apply a binary operation to two defined values. -/
def binOp (g : K → K → Option K) : Option K → Option K → Option K
  | some x, some y => g x y
  | _, _ => none

/-- Mathematical value of an arithmetic term over a field; division by zero is undefined. -/
def valT (V : Valuation K) : Term → Option K
  | .var v => V.opaque' (.var v)
  | .const (.int n) _ => some (n : K)
  | .const n s => V.opaque' (.const n s)
  | .app f [a, b] =>
    if f = "+" then binOp (fun x y => some (x + y)) (valT V a) (valT V b)
    else if f = "-" then binOp (fun x y => some (x - y)) (valT V a) (valT V b)
    else if f = "*" then binOp (fun x y => some (x * y)) (valT V a) (valT V b)
    else if f = "/" then binOp (fun x y => if y = 0 then none else some (x / y)) (valT V a) (valT V b)
    else V.opaque' (.app f [a, b])
  | .app f [a] =>
    if f = "exp" then (valT V a).map V.exp else V.opaque' (.app f [a])
  | .app f ts => V.opaque' (.app f ts)
  | .ite c t e => if V.cond c then valT V t else valT V e

theorem binOp_some (g : K → K → Option K) (a b : Option K) (q : K) :
    binOp g a b = some q ↔ ∃ x y, a = some x ∧ b = some y ∧ g x y = some q := by
  cases a <;> cases b <;> simp [binOp]

theorem isRealConst_iff (n : Int) (t : Term) : isRealConst n t = true ↔ t = .const (.int n) "Real" := by
  cases t with
  | const m s => cases m <;> simp [isRealConst]
  | _ => simp [isRealConst]

theorem valT_zero (V : Valuation K) (t : Term) (h : isRealConst 0 t = true) : valT V t = some 0 := by
  rw [isRealConst_iff] at h; subst h; simp [valT]

theorem valT_one (V : Valuation K) (t : Term) (h : isRealConst 1 t = true) : valT V t = some 1 := by
  rw [isRealConst_iff] at h; subst h; simp [valT]

theorem bind2_ok {a b : Except Err Term} {k : Term → Term → Except Err Term} {t : Term} :
    bind2 a b k = .ok t ↔ ∃ x y, a = .ok x ∧ b = .ok y ∧ k x y = .ok t := by
  cases a <;> cases b <;> simp [bind2]

theorem simpAdd_val (V : Valuation K) (x y t : Term) (p q : K) (h : simpAdd x y = .ok t) (hx : valT V x = some p)
    (hy : valT V y = some q) : valT V t = some (p + q) := by
  unfold simpAdd at h
  split at h
  · rename_i h0; rw [valT_zero V x h0] at hx; cases hx; cases h; rw [hy, zero_add]
  · split at h
    · rename_i h0; rw [valT_zero V y h0] at hy; cases hy; cases h; rw [hx, add_zero]
    · cases h; simp [valT, hx, hy, binOp]

theorem simpSub_val (L : ArithLang) (V : Valuation K) (x y t : Term) (p q : K) (h : simpSub L x y = .ok t)
    (hx : valT V x = some p) (hy : valT V y = some q) : valT V t = some (p - q) := by
  unfold simpSub at h
  split at h
  · rename_i h0; rw [valT_zero V x h0] at hx; cases hx
    split at h
    · cases h
      simp [valT, hy, binOp]
    · cases h
  · split at h
    · rename_i h0; rw [valT_zero V y h0] at hy; cases hy; cases h; rw [hx, sub_zero]
    · cases h; simp [valT, hx, hy, binOp]

theorem simpMul_val (V : Valuation K) (x y t : Term) (p q : K) (h : simpMul x y = .ok t) (hx : valT V x = some p)
    (hy : valT V y = some q) : valT V t = some (p * q) := by
  unfold simpMul at h
  split at h
  · rename_i h0; rw [valT_zero V x h0] at hx; cases hx; cases h; simp [valT]
  · split at h
    · rename_i h0; rw [valT_zero V y h0] at hy; cases hy; cases h; simp [valT]
    · split at h
      · rename_i h0; rw [valT_one V x h0] at hx; cases hx; cases h; rw [hy, one_mul]
      · split at h
        · rename_i h0; rw [valT_one V y h0] at hy; cases hy; cases h; rw [hx, mul_one]
        · cases h; simp [valT, hx, hy, binOp]

theorem simpDiv_val (V : Valuation K) (x y t : Term) (p q : K) (h : simpDiv x y = .ok t) (hx : valT V x = some p)
    (hy : valT V y = some q) (hq : q ≠ 0) : valT V t = some (p / q) := by
  unfold simpDiv at h
  split at h
  · rename_i h0; rw [valT_zero V x h0] at hx; cases hx; cases h; simp [valT]
  · split at h
    · cases h
    · split at h
      · rename_i h0; rw [valT_one V y h0] at hy; cases hy; cases h; rw [hx, div_one]
      · cases h; simp [valT, hx, hy, binOp, hq]

/-- C41: whenever the original expression has a value, the simplified expression has the same value, for all values of
its variables and non-arithmetic subterms. Missing for the full property: expressions without a value, because of a
division by zero, may be given one. -/
theorem C41_simplify_partial (L : ArithLang) (V : Valuation K) (hexp : V.exp 0 = 1) :
    ∀ (t t' : Term) (q : K), simplifyT L t = .ok t' → valT V t = some q → valT V t' = some q
  | .var v, t', q, h, hv => by cases h; exact hv
  | .const n s, t', q, h, hv => by cases h; exact hv
  | .app f [a, b], t', q, h, hv => by
    have iha := C41_simplify_partial L V hexp a
    have ihb := C41_simplify_partial L V hexp b
    simp only [simplifyT] at h
    simp only [valT] at hv
    split at h
    · rename_i hf; simp only [hf, if_true] at hv
      obtain ⟨x, y, hx, hy, hk⟩ := bind2_ok.1 h
      obtain ⟨p, r, hp, hr, hq⟩ := (binOp_some _ _ _ _).1 hv
      cases hq
      exact simpAdd_val V x y t' p r hk (iha x p hx hp) (ihb y r hy hr)
    · rename_i h1; simp only [h1, if_false] at hv
      split at h
      · rename_i hf; simp only [hf, if_true] at hv
        obtain ⟨x, y, hx, hy, hk⟩ := bind2_ok.1 h
        obtain ⟨p, r, hp, hr, hq⟩ := (binOp_some _ _ _ _).1 hv
        cases hq
        exact simpSub_val L V x y t' p r hk (iha x p hx hp) (ihb y r hy hr)
      · rename_i h2; simp only [h2, if_false] at hv
        split at h
        · rename_i hf; simp only [hf, if_true] at hv
          obtain ⟨x, y, hx, hy, hk⟩ := bind2_ok.1 h
          obtain ⟨p, r, hp, hr, hq⟩ := (binOp_some _ _ _ _).1 hv
          cases hq
          exact simpMul_val V x y t' p r hk (iha x p hx hp) (ihb y r hy hr)
        · rename_i h3; simp only [h3, if_false] at hv
          split at h
          · rename_i hf; simp only [hf, if_true] at hv
            obtain ⟨x, y, hx, hy, hk⟩ := bind2_ok.1 h
            obtain ⟨p, r, hp, hr, hq⟩ := (binOp_some _ _ _ _).1 hv
            split at hq
            · cases hq
            · rename_i hr0
              cases hq
              exact simpDiv_val V x y t' p r hk (iha x p hx hp) (ihb y r hy hr) hr0
          · rename_i h4; simp only [h4, if_false] at hv
            split at h
            · cases h
            · cases h
              simp only [valT, h1, h2, h3, h4, if_false]; exact hv
  | .app f [a], t', q, h, hv => by
    have iha := C41_simplify_partial L V hexp a
    simp only [simplifyT] at h
    simp only [valT] at hv
    split at h
    · rename_i hf; simp only [hf, if_true, Option.map_eq_some_iff] at hv
      obtain ⟨p, hp, rfl⟩ := hv
      obtain ⟨x, y, hx, _, hk⟩ := bind2_ok.1 h
      have hxv := iha x p hx hp
      unfold simpExp at hk
      split at hk
      · rename_i h0; rw [valT_zero V x h0] at hxv; cases hxv; cases hk; simp [valT, hexp]
      · cases hk; simp [valT, hxv]
    · rename_i h1; simp only [h1, if_false] at hv
      split at h
      · cases h
      · cases h; simp only [valT, h1, if_false]; exact hv
  | .app f [], t', q, h, hv => by
    simp only [simplifyT] at h
    split at h
    · cases h
    · cases h; exact hv
  | .app f (a :: b :: c :: ts), t', q, h, hv => by
    simp only [simplifyT] at h
    split at h
    · cases h
    · cases h; exact hv
  | .ite c t e, t', q, h, hv => by
    have iht := C41_simplify_partial L V hexp t
    have ihe := C41_simplify_partial L V hexp e
    simp only [simplifyT] at h
    obtain ⟨x, y, hx, hy, hk⟩ := bind2_ok.1 h
    cases hk
    simp only [valT] at hv ⊢
    split at hv
    · rename_i hc; rw [if_pos hc]; exact iht x q hx hv
    · rename_i hc; rw [if_neg hc]; exact ihe y q hy hv

/-- C41 in full: the two expressions have the same value, or none, for all values of the subterms. -/
def C41_full (K : Type) [Field K] [DecidableEq K] : Prop :=
  ∀ (L : ArithLang) (V : Valuation K), V.exp 0 = 1 → ∀ t t', simplifyT L t = .ok t' → valT V t' = valT V t

/-- `0 / x` is simplified to `0`, also when `x` is zero and the quotient has no value. -/
theorem C41_refuted : ¬ C41_full K := by
  intro h
  have := h ⟨fun _ => "Real", fun _ => true⟩ ⟨fun _ => some 0, fun _ => true, fun _ => 1⟩ rfl
    (.app "/" [.const (.int 0) "Real", .var ⟨"x", "Real"⟩]) (.const (.int 0) "Real")
    (by simp [simplifyT, bind2, simpDiv, isRealConst])
  simp [valT, binOp] at this

/-- If no divisor is zero, the full property holds: "has a value" is the only condition. -/
theorem C41_defined (L : ArithLang) (V : Valuation K) (hexp : V.exp 0 = 1) (t t' : Term) (h : simplifyT L t = .ok t')
    (hd : valT V t ≠ none) : valT V t' = valT V t := by
  cases hv : valT V t with
  | none => exact absurd hv hd
  | some q => exact C41_simplify_partial L V hexp t t' q h hv

/-- No conditional terms. -/
def noIte : Term → Bool
  | .var _ => true
  | .const _ _ => true
  | .app _ [a, b] => noIte a && noIte b
  | .app _ [a] => noIte a
  | .app _ _ => true
  | .ite _ _ _ => false

theorem bind2_error {a b : Except Err Term} {k : Term → Term → Except Err Term} {e : Err} :
    bind2 a b k = .error e ↔ a = .error e ∨ (∃ x, a = .ok x) ∧ b = .error e ∨ ∃ x y, a = .ok x ∧ b = .ok y ∧ k x y = .error e := by
  cases a <;> cases b <;> simp [bind2]

theorem binOp_none_left (g : K → K → Option K) (a b : Option K) (h : a = none) : binOp g a b = none := by
  subst h; cases b <;> rfl

theorem binOp_none_right (g : K → K → Option K) (a b : Option K) (h : b = none) : binOp g a b = none := by
  subst h; cases a <;> rfl

/-- C41: the error "division by zero" is raised only for expressions that have no value, whatever the values of their
subterms (conditional terms apart, whose unused branch may divide by zero). -/
theorem C41_division_error (L : ArithLang) (V : Valuation K) (hexp : V.exp 0 = 1) :
    ∀ t, noIte t = true → simplifyT L t = .error .semantic → valT V t = none
  | .var v, _, h => by cases h
  | .const n s, _, h => by cases h
  | .app f [a, b], hn, h => by
    simp only [noIte, Bool.and_eq_true] at hn
    have iha := C41_division_error L V hexp a hn.1
    have ihb := C41_division_error L V hexp b hn.2
    have key : ∀ (g : K → K → Option K) (k : Term → Term → Except Err Term), bind2 (simplifyT L a) (simplifyT L b) k = .error .semantic →
        (∀ x y, simplifyT L b = .ok y → k x y = .error .semantic → ∀ p r, valT V b = some r → g p r = none) →
        binOp g (valT V a) (valT V b) = none := by
      intro g k hk hg
      rcases bind2_error.1 hk with h1 | ⟨_, h1⟩ | ⟨x, y, _, hy, h1⟩
      · exact binOp_none_left _ _ _ (iha h1)
      · exact binOp_none_right _ _ _ (ihb h1)
      · cases hva : valT V a with
        | none => exact binOp_none_left _ _ _ rfl
        | some p =>
          cases hvb : valT V b with
          | none => exact binOp_none_right _ _ _ rfl
          | some r => exact hg x y hy h1 p r hvb
    simp only [simplifyT] at h
    simp only [valT]
    split at h
    · rename_i hf; rw [if_pos hf]
      refine key _ _ h fun x y _ hk => ?_
      unfold simpAdd at hk; split at hk <;> [cases hk; (split at hk <;> cases hk)]
    · rename_i h1; rw [if_neg h1]
      split at h
      · rename_i hf; rw [if_pos hf]
        refine key _ _ h fun x y _ hk => ?_
        unfold simpSub at hk
        split at hk
        · split at hk <;> cases hk
        · split at hk <;> cases hk
      · rename_i h2; rw [if_neg h2]
        split at h
        · rename_i hf; rw [if_pos hf]
          refine key _ _ h fun x y _ hk => ?_
          unfold simpMul at hk
          repeat (split at hk; cases hk)
          cases hk
        · rename_i h3; rw [if_neg h3]
          split at h
          · rename_i hf; rw [if_pos hf]
            refine key _ _ h fun x y hy hk p r hr => ?_
            unfold simpDiv at hk
            split at hk
            · cases hk
            · split at hk
              · rename_i h0
                have := C41_simplify_partial L V hexp b y r hy hr
                rw [valT_zero V y h0] at this; cases this
                simp
              · split at hk <;> cases hk
          · split at h <;> cases h
  | .app f [a], hn, h => by
    simp only [noIte] at hn
    have iha := C41_division_error L V hexp a hn
    simp only [simplifyT] at h
    simp only [valT]
    split at h
    · rename_i hf; rw [if_pos hf]
      rcases bind2_error.1 h with h1 | ⟨_, h1⟩ | ⟨x, y, _, _, h1⟩
      · rw [iha h1]; rfl
      · cases h1
      · unfold simpExp at h1; split at h1 <;> cases h1
    · split at h <;> cases h
  | .app f [], _, h => by simp only [simplifyT] at h; split at h <;> cases h
  | .app f (a :: b :: c :: ts), _, h => by simp only [simplifyT] at h; split at h <;> cases h
  | .ite c t e, hn, h => by cases hn

/-- Rewriting `0 - x` as `-1 * x` fails where -1 is not a value of the sort of `x`, such as the naturals: a legal
expression with a value raises. -/
theorem C41_natural_refuted :
    simplifyT ⟨fun _ => "Real", fun s => s == "Real" || s == "Integer"⟩
      (.app "-" [.const (.int 0) "Real", .var ⟨"n", "Natural"⟩]) = .error .value := by
  simp [simplifyT, bind2, simpSub, isRealConst, ArithLang.sortOf]

/-- `(x + 0) * 1 - 0 / y` is simplified to `x - 0`, that is `x`. -/
example : simplifyT ⟨fun _ => "Real", fun _ => true⟩
    (.app "-" [.app "*" [.app "+" [.var ⟨"x", "Real"⟩, .const (.int 0) "Real"], .const (.int 1) "Real"],
      .app "/" [.const (.int 0) "Real", .var ⟨"y", "Real"⟩]]) = .ok (.var ⟨"x", "Real"⟩) := by
  simp [simplifyT, bind2, simpSub, simpMul, simpDiv, simpAdd, isRealConst]

end Tarski

import Verif.NumTerms
import Mathlib.Algebra.Order.Field.Basic
import Mathlib.Algebra.Order.Group.Abs
import Mathlib.Algebra.Order.Ring.Cast
import Mathlib.Algebra.Field.Rat
import Mathlib.Algebra.Order.Ring.Unbundled.Rat
import Mathlib.Tactic.Common
import Mathlib.Tactic.NormNum
/-! C114: numeric expressions mean what they say. -/
namespace Tarski

/-! ### Specification -/

/-- The number that a Python number stands for. -/
def numVal {F : Type} [Field F] : PyNum F → F
  | .int z => (z : F)
  | .flt x => x

/-- The functions of analysis, and powers and remainders. -/
structure Analysis (F : Type) where
  pow : F → F → F
  powDef : F → F → Prop
  mod : F → F → F
  sin : F → F
  cos : F → F
  tan : F → F
  arcsin : F → F
  arctan : F → F
  exp : F → F
  log : F → F
  sqrt : F → F
  erf : F → F
  erfc : F → F

/-- Python's and numpy's numbers without rounding. -/
structure ExactMath {F : Type} [Field F] [LinearOrder F] (P : PyMath F) (A : Analysis F) : Prop where
  add : ∀ a b, P.add a b = a + b
  sub : ∀ a b, P.sub a b = a - b
  mul : ∀ a b, P.mul a b = a * b
  div : ∀ a b r, P.div a b = .ok r ↔ b ≠ 0 ∧ r = a / b
  pow : ∀ a b r, P.pow a b = .ok r ↔ A.powDef a b ∧ r = A.pow a b
  mod : ∀ a b r, P.mod a b = .ok r ↔ b ≠ 0 ∧ r = A.mod a b
  ofInt : ∀ z, P.ofInt z = .ok (z : F)
  toInt : ∀ x z, P.toInt x = some z ↔ x = (z : F)
  pyLt : ∀ m n, P.pyLt m n = true ↔ numVal m < numVal n
  pyEq : ∀ m n, P.pyEq m n = true ↔ numVal m = numVal n
  npMin : ∀ a b, P.npMin a b = min a b
  npMax : ∀ a b, P.npMax a b = max a b
  npAbs : ∀ a, P.npAbs a = |a|
  npSign : ∀ a, P.npSign a = if a < 0 then -1 else if 0 < a then 1 else 0
  npSin : ∀ a, P.npSin a = A.sin a
  npCos : ∀ a, P.npCos a = A.cos a
  npTan : ∀ a, P.npTan a = A.tan a
  npArcsin : ∀ a, P.npArcsin a = A.arcsin a
  npArctan : ∀ a, P.npArctan a = A.arctan a
  npExp : ∀ a, P.npExp a = A.exp a
  npLog : ∀ a, P.npLog a = A.log a
  npSqrt : ∀ a, P.npSqrt a = A.sqrt a
  sciErf : ∀ a, P.sciErf a = A.erf a
  sciErfc : ∀ a, P.sciErfc a = A.erfc a
  powNat : ∀ (a : F) (n : Nat), A.pow a (n : F) = a ^ n
  modInt : ∀ a b : Int, b ≠ 0 → A.mod (a : F) (b : F) = ((Int.fmod a b : Int) : F)

/-- What the functions of one argument stand for. -/
def unMeaning {F : Type} [Field F] [LinearOrder F] (A : Analysis F) : BFun → Option (F → F)
  | .abs => some fun a => |a|
  | .sgn => some fun a => if a < 0 then -1 else if 0 < a then 1 else 0
  | .sin => some A.sin
  | .cos => some A.cos
  | .tan => some A.tan
  | .asin => some A.arcsin
  | .atan => some A.arctan
  | .exp => some A.exp
  | .log => some A.log
  | .sqrt => some A.sqrt
  | .erf => some A.erf
  | .erfc => some A.erfc
  | _ => none

/-- What the functions of two arguments stand for. -/
def binMeaning {F : Type} [Field F] [LinearOrder F] (A : Analysis F) : BFun → Option (F → F → F)
  | .add => some (· + ·)
  | .sub => some (· - ·)
  | .mul => some (· * ·)
  | .div => some (· / ·)
  | .pow => some A.pow
  | .mod => some A.mod
  | .min => some min
  | .max => some max
  | _ => none

/-- `v` is the number that the term stands for when the functions without arguments have the values `σ`. -/
inductive StandsFor {F : Type} [Field F] [LinearOrder F] (A : Analysis F) (σ : String → F) : NTerm F → F → Prop
  | const (n : PyNum F) (s : NSort F) : StandsFor A σ (.const ⟨n, s⟩) (numVal n)
  | raw (n : PyNum F) : StandsFor A σ (.raw n) (numVal n)
  | fn (f : String) (s : NSort F) : StandsFor A σ (.fn f s) (σ f)
  | un {f g a x} : unMeaning A f = some g → StandsFor A σ a x → StandsFor A σ (.un f a) (g x)
  | bin {f g a b x y} : binMeaning A f = some g → StandsFor A σ a x → StandsFor A σ b y → StandsFor A σ (.bin f a b) (g x y)

/-- Where a function of two arguments is defined. -/
def DefinedAt {F : Type} [Field F] [LinearOrder F] (A : Analysis F) : BFun → F → F → Prop
  | .div, _, b => b ≠ 0
  | .mod, _, b => b ≠ 0
  | .pow, a, b => A.powDef a b
  | _, _, _ => True

/-- The functions have the values `σ` in the state, all of them floating point numbers of sort Real. -/
def RealState {F : Type} (P : PyMath F) (st : String → Option (NConst F)) (σ : String → F) : Prop := ∀ f c, st f = some c → c = ⟨.flt (σ f), realSort P⟩

/-- A term over real numbers: every constant is one of sort Real, every number a floating point number, and no function is random. -/
inductive RealTerm {F : Type} [Field F] [LinearOrder F] (P : PyMath F) (A : Analysis F) : NTerm F → Prop
  | const (x : F) : RealTerm P A (.const ⟨.flt x, realSort P⟩)
  | raw (x : F) : RealTerm P A (.raw (.flt x))
  | fn (f : String) (s : NSort F) : RealTerm P A (.fn f s)
  | un {f a} : (unMeaning A f).isSome → RealTerm P A a → RealTerm P A (.un f a)
  | bin {f a b} : (binMeaning A f).isSome → RealTerm P A a → RealTerm P A b → RealTerm P A (.bin f a b)

/-- All functions of the term are defined where they are applied, all values are given, and all results lie within the bounds of Real. -/
inductive InRange {F : Type} [Field F] [LinearOrder F] (P : PyMath F) (A : Analysis F) (st : String → Option (NConst F)) : NTerm F → F → Prop
  | const (x : F) (s : NSort F) : InRange P A st (.const ⟨.flt x, s⟩) x
  | raw (x : F) : P.inBounds x = true → InRange P A st (.raw (.flt x)) x
  | fn {f s x s'} : st f = some ⟨.flt x, s'⟩ → InRange P A st (.fn f s) x
  | un {f g a x} : unMeaning A f = some g → InRange P A st a x → P.inBounds (g x) = true → InRange P A st (.un f a) (g x)
  | bin {f g a b x y} : binMeaning A f = some g → InRange P A st a x → InRange P A st b y → DefinedAt A f x y → P.inBounds (g x y) = true →
      InRange P A st (.bin f a b) (g x y)

/-- The number belongs to the sort. -/
def BelongsTo {F : Type} [Field F] (n : PyNum F) (s : NSort F) : Prop :=
  match s.enc with
  | .real inB => inB (numVal n) = true
  | .int lb ub => ∃ z : Int, numVal n = (z : F) ∧ lb ≤ z ∧ z ≤ ub
  | .other => False

/-- What the comparisons stand for. -/
def cmpMeaning {F : Type} [LinearOrder F] : Cmp → F → F → Prop
  | .eq, a, b => a = b
  | .ne, a, b => a ≠ b
  | .lt, a, b => a < b
  | .le, a, b => a ≤ b
  | .gt, a, b => b < a
  | .ge, a, b => b ≤ a

section
variable {F : Type} [Field F] [LinearOrder F] [IsStrictOrderedRing F] {P : PyMath F} {A : Analysis F}

/-! ### Casts -/

theorem toFloat_exact (h : ExactMath P A) (n : PyNum F) : n.toFloat P.toFloats = .ok (numVal n) := by
  cases n with
  | int z => exact h.ofInt z
  | flt x => rfl

theorem castTo_ok (h : ExactMath P A) {s : NSort F} {n m : PyNum F} (e : castTo P s n = .ok m) : numVal m = numVal n ∧ BelongsTo n s := by
  obtain ⟨nm, enc⟩ := s
  cases enc with
  | real inB =>
    simp only [castTo, toFloat_exact h] at e
    split at e
    · next hb => cases e; exact ⟨rfl, hb⟩
    · cases e
  | int lb ub =>
    cases n with
    | int z =>
      simp only [castTo] at e
      split at e
      · next hb => cases e; exact ⟨rfl, z, rfl, hb⟩
      · cases e
    | flt x =>
      cases hx : P.toInt x with
      | none => simp [castTo, hx] at e
      | some z =>
        simp only [castTo, hx] at e
        split at e
        · next hb => cases e; exact ⟨((h.toInt x z).1 hx).symm, z, (h.toInt x z).1 hx, hb⟩
        · cases e
  | other => cases e

theorem castTo_belongs (h : ExactMath P A) {s : NSort F} {n : PyNum F} (hb : BelongsTo n s) : ∃ m, castTo P s n = .ok m := by
  obtain ⟨nm, enc⟩ := s
  cases enc with
  | real inB => exact ⟨.flt (numVal n), by simp only [castTo, toFloat_exact h]; exact if_pos hb⟩
  | int lb ub =>
    obtain ⟨z, hz, hl⟩ := hb
    refine ⟨.int z, ?_⟩
    cases n with
    | int w =>
      have : w = z := by simpa [numVal] using hz
      simp [castTo, this, hl]
    | flt x =>
      have : P.toInt x = some z := (h.toInt x z).2 hz
      simp [castTo, this, hl]
  | other => exact hb.elim

theorem castTo_error {s : NSort F} (h : ExactMath P A) {n : PyNum F} (hb : ¬ BelongsTo n s) : castTo P s n = .error .value := by
  obtain ⟨nm, enc⟩ := s
  cases enc with
  | real inB => simp only [castTo, toFloat_exact h]; exact if_neg hb
  | int lb ub =>
    cases n with
    | int w =>
      have : ¬ (lb ≤ w ∧ w ≤ ub) := fun hw => hb ⟨w, rfl, hw⟩
      simp only [castTo]
      rw [if_neg this]
    | flt x =>
      cases hx : P.toInt x with
      | none => simp [castTo, hx]
      | some z =>
        have : ¬ (lb ≤ z ∧ z ≤ ub) := fun hw => hb ⟨z, (h.toInt x z).1 hx, hw⟩
        simp only [castTo, hx]
        rw [if_neg this]
  | other => rfl

theorem mkConst_ok (h : ExactMath P A) {s : NSort F} {n : PyNum F} {c : NConst F} (e : mkConst P n s = .ok c) : numVal c.v = numVal n ∧ c.sort = s := by
  unfold mkConst at e
  cases hc : castTo P s n with
  | error _ => rw [hc] at e; cases e
  | ok m => rw [hc] at e; cases e; exact ⟨(castTo_ok h hc).1, rfl⟩

/-! ### Evaluation -/

/-- The number that the result of an operation stands for. -/
def npVal : NpVal F → F
  | .py n => numVal n
  | .npInt z => (z : F)

theorem finishNum_ok (h : ExactMath P A) {r : NpVal F} {c : NConst F} (e : finishNum P r = .ok c) : numVal c.v = npVal r := by
  cases r with
  | py n => cases n <;> exact (mkConst_ok h e).1
  | npInt z => cases e

theorem viaFloat_val (h : ExactMath P A) {g k : F → F} (hg : ∀ a, g a = k a) {n : PyNum F} {r : NpVal F} (e : viaFloat P g n = .ok r) : npVal r = k (numVal n) := by
  rw [viaFloat, toFloat_exact h] at e
  cases e
  exact hg _

theorem viaFloat2_val (h : ExactMath P A) {g k : F → F → F} (hg : ∀ a b, g a b = k a b) {m n : PyNum F} {r : NpVal F} (e : viaFloat2 P g m n = .ok r) :
    npVal r = k (numVal m) (numVal n) := by
  rw [viaFloat2, toFloat_exact h, toFloat_exact h] at e
  cases e
  exact hg _ _

/-- The table of evaluators and the table of implementations, together. -/
def npFor : BFun → Option NpFun
  | .abs => some .npAbs
  | .sgn => some .npSign
  | .sin => some .npSin
  | .cos => some .npCos
  | .tan => some .npTan
  | .asin => some .npArcsin
  | .atan => some .npArctan
  | .exp => some .npExp
  | .log => some .npLog
  | .sqrt => some .npSqrt
  | .erf => some .sciErf
  | .erfc => some .sciErfc
  | _ => none

theorem un_table {f : BFun} {g : F → F} (hg : unMeaning A f = some g) : evaluators f = some (.impl1 f) ∧ ∃ k, npFor f = some k ∧ funcImpl f.value = some k := by
  cases f <;> first | exact ⟨rfl, _, rfl, by decide⟩ | cases hg

theorem call1_val (h : ExactMath P A) {f : BFun} {g : F → F} (hg : unMeaning A f = some g) {k : NpFun} (hk : npFor f = some k) {n : PyNum F} {r : NpVal F}
    (e : call1 P k n = .ok r) : npVal r = g (numVal n) := by
  cases f <;> cases hg <;> cases hk
  case abs =>
    cases n with
    | int z =>
      cases e
      simp only [npVal, numVal]
      by_cases hz : z < 0
      · rw [if_pos hz, abs_of_neg (by exact_mod_cast hz)]; push_cast; rfl
      · rw [if_neg hz, abs_of_nonneg (by exact_mod_cast not_lt.1 hz)]
    | flt x => cases e; exact h.npAbs x
  case sgn =>
    cases n with
    | int z =>
      cases e
      simp only [npVal, numVal, Int.cast_lt_zero, Int.cast_pos]
      split_ifs <;> simp
    | flt x => cases e; exact h.npSign x
  case sin => exact viaFloat_val h h.npSin e
  case cos => exact viaFloat_val h h.npCos e
  case tan => exact viaFloat_val h h.npTan e
  case asin => exact viaFloat_val h h.npArcsin e
  case atan => exact viaFloat_val h h.npArctan e
  case exp => exact viaFloat_val h h.npExp e
  case log => exact viaFloat_val h h.npLog e
  case sqrt => exact viaFloat_val h h.npSqrt e
  case erf => exact viaFloat_val h h.sciErf e
  case erfc => exact viaFloat_val h h.sciErfc e

theorem apply1_val (h : ExactMath P A) {f : BFun} {g : F → F} (hg : unMeaning A f = some g) {x c : NConst F} (e : apply1 P f x = .ok c) :
    numVal c.v = g (numVal x.v) := by
  obtain ⟨-, k, hk, hi⟩ := un_table hg
  unfold apply1 at e
  rw [hi] at e
  dsimp only at e
  cases hc : call1 P k x.v with
  | error _ => rw [hc] at e; cases e
  | ok r => rw [hc] at e; rw [finishNum_ok h e, call1_val h hg hk hc]

theorem apply2_min (h : ExactMath P A) {x y c : NConst F} (e : apply2 P .min x y = .ok c) : numVal c.v = min (numVal x.v) (numVal y.v) := by
  have hi : funcImpl BFun.min.value = some .npMin := by decide
  unfold apply2 at e
  rw [hi] at e
  dsimp only at e
  cases hc : call2 P .npMin x.v y.v with
  | error _ => rw [hc] at e; cases e
  | ok r =>
    rw [hc] at e
    rw [finishNum_ok h e]
    revert hc
    cases x.v <;> cases y.v <;> intro hc
    case int.int a b =>
      cases hc
      simp only [npVal, numVal]
      by_cases hab : a ≤ b
      · rw [if_pos hab, min_eq_left (by exact_mod_cast hab)]
      · rw [if_neg hab, min_eq_right (by exact_mod_cast (not_le.1 hab).le)]
    all_goals exact viaFloat2_val h h.npMin hc

theorem apply2_max (h : ExactMath P A) {x y c : NConst F} (e : apply2 P .max x y = .ok c) : numVal c.v = max (numVal x.v) (numVal y.v) := by
  have hi : funcImpl BFun.max.value = some .npMax := by decide
  unfold apply2 at e
  rw [hi] at e
  dsimp only at e
  cases hc : call2 P .npMax x.v y.v with
  | error _ => rw [hc] at e; cases e
  | ok r =>
    rw [hc] at e
    rw [finishNum_ok h e]
    revert hc
    cases x.v <;> cases y.v <;> intro hc
    case int.int a b =>
      cases hc
      simp only [npVal, numVal]
      by_cases hab : a ≤ b
      · rw [if_pos hab, max_eq_right (by exact_mod_cast hab)]
      · rw [if_neg hab, max_eq_left (by exact_mod_cast (not_le.1 hab).le)]
    all_goals exact viaFloat2_val h h.npMax hc

/-- The functions that are Python operators. -/
def operFor : BFun → Option NOp
  | .add => some .add
  | .sub => some .sub
  | .mul => some .mul
  | .div => some .div
  | .pow => some .pow
  | .mod => some .mod
  | _ => none

theorem floats_ok (h : ExactMath P A) {g : F → F → Except Err F} {m n r : PyNum F} (e : pyArith.floats P.toFloats g m n = .ok r) :
    ∃ x, g (numVal m) (numVal n) = .ok x ∧ r = .flt x := by
  rw [pyArith.floats, toFloat_exact h, toFloat_exact h] at e
  dsimp only at e
  cases hg : g (numVal m) (numVal n) with
  | error _ => rw [hg] at e; cases e
  | ok x => rw [hg] at e; cases e; exact ⟨x, rfl, rfl⟩

theorem pyArith_val (h : ExactMath P A) {f : BFun} {o : NOp} (ho : operFor f = some o) {g : F → F → F} (hg : binMeaning A f = some g) {m n r : PyNum F}
    (e : pyArith P.toFloats o m n = .ok r) : numVal r = g (numVal m) (numVal n) := by
  cases f <;> cases ho <;> cases hg
  case add =>
    cases m <;> cases n
    case int.int => cases e; simp [numVal]
    all_goals
      simp only [pyArith] at e
      obtain ⟨x, hx, rfl⟩ := floats_ok h e
      cases hx
      exact h.add _ _
  case sub =>
    cases m <;> cases n
    case int.int => cases e; simp [numVal]
    all_goals
      simp only [pyArith] at e
      obtain ⟨x, hx, rfl⟩ := floats_ok h e
      cases hx
      exact h.sub _ _
  case mul =>
    cases m <;> cases n
    case int.int => cases e; simp [numVal]
    all_goals
      simp only [pyArith] at e
      obtain ⟨x, hx, rfl⟩ := floats_ok h e
      cases hx
      exact h.mul _ _
  case div =>
    cases m <;> cases n
    all_goals
      simp only [pyArith] at e
      obtain ⟨x, hx, rfl⟩ := floats_ok h e
      exact ((h.div _ _ _).1 hx).2
  case pow =>
    cases m <;> cases n
    case int.int a b =>
      simp only [pyArith] at e
      split at e
      · next hb =>
        cases e
        obtain ⟨k, rfl⟩ := Int.eq_ofNat_of_zero_le hb
        have := h.powNat (a : F) k
        simp [numVal, this]
      · obtain ⟨x, hx, rfl⟩ := floats_ok h e
        exact ((h.pow _ _ _).1 hx).2
    all_goals
      simp only [pyArith] at e
      obtain ⟨x, hx, rfl⟩ := floats_ok h e
      exact ((h.pow _ _ _).1 hx).2
  case mod =>
    cases m <;> cases n
    case int.int a b =>
      simp only [pyArith] at e
      split at e
      · cases e
      · next hb => cases e; exact (h.modInt a b hb).symm
    all_goals
      simp only [pyArith] at e
      obtain ⟨x, hx, rfl⟩ := floats_ok h e
      exact ((h.mod _ _ _).1 hx).2

theorem bin_table {f : BFun} {g : F → F → F} (hg : binMeaning A f = some g) :
    (∃ o, operFor f = some o ∧ evaluators f = some (.oper o)) ∨ (f = .min ∧ evaluators f = some (.impl2 .min)) ∨ (f = .max ∧ evaluators f = some (.impl2 .max)) := by
  cases f <;> first | exact .inl ⟨_, rfl, rfl⟩ | exact .inr (.inl ⟨rfl, rfl⟩) | exact .inr (.inr ⟨rfl, rfl⟩) | cases hg

theorem applyOper_val (h : ExactMath P A) {f : BFun} {o : NOp} (ho : operFor f = some o) {g : F → F → F} (hg : binMeaning A f = some g) {x y c : NConst F}
    (e : applyOper P o x y = .ok c) : numVal c.v = g (numVal x.v) (numVal y.v) := by
  unfold applyOper at e
  cases hp : pyArith P.toFloats o x.v y.v with
  | error _ => rw [hp] at e; cases e
  | ok n => rw [hp] at e; rw [finishNum_ok h e]; exact pyArith_val h ho hg hp

/-- **C114, values.** Whatever a term over the functions of arithmetic and the special functions evaluates to is the number that it stands for, whatever
mixture of integers and floating point numbers it has at its leaves. -/
theorem C114_value (h : ExactMath P A) {st : String → Option (NConst F)} {σ : String → F} (hst : ∀ f c, st f = some c → numVal c.v = σ f)
    {t : NTerm F} {v : F} (hv : StandsFor A σ t v) : ∀ {c : NConst F}, evN P st t = .ok c → numVal c.v = v := by
  induction hv with
  | const n s => intro c e; cases e; rfl
  | raw n => intro c e; cases n <;> exact (mkConst_ok h e).1
  | fn f s =>
    intro c e
    simp only [evN] at e
    cases hf : st f with
    | none => rw [hf] at e; cases e
    | some c' => rw [hf] at e; cases e; exact hst f c hf
  | @un f g a x hg _ ih =>
    intro c e
    simp only [evN, (un_table hg).1] at e
    cases ha : evN P st a with
    | error _ => rw [ha] at e; cases e
    | ok x' => rw [ha] at e; rw [apply1_val h hg e, ih ha]
  | @bin f g a b x y hg _ _ iha ihb =>
    intro c e
    rcases bin_table hg with ⟨o, ho, hev⟩ | ⟨rfl, hev⟩ | ⟨rfl, hev⟩
    all_goals
      simp only [evN, hev] at e
      cases ha : evN P st a with
      | error _ => rw [ha] at e; cases e
      | ok x' =>
        cases hb : evN P st b with
        | error _ => rw [ha, hb] at e; cases e
        | ok y' =>
          rw [ha, hb] at e
          dsimp only at e
          first
            | rw [applyOper_val h ho hg e, iha ha, ihb hb]
            | (rw [apply2_min h e, iha ha, ihb hb]; cases hg; rfl)
            | (rw [apply2_max h e, iha ha, ihb hb]; cases hg; rfl)

/-- **C114, comparisons.** A comparison that is evaluated is true iff it holds of the numbers that the two terms stand for. -/
theorem C114_compare (h : ExactMath P A) {st : String → Option (NConst F)} {σ : String → F} (hst : ∀ f c, st f = some c → numVal c.v = σ f)
    {a : NAtom F} {x y : F} (hx : StandsFor A σ a.l x) (hy : StandsFor A σ a.r y) {b : Bool} (e : evCmp P st a = .ok b) : b = true ↔ cmpMeaning a.c x y := by
  obtain ⟨c, l, r⟩ := a
  unfold evCmp at e
  dsimp only at e hx hy ⊢
  cases hl : evN P st l with
  | error _ => rw [hl] at e; cases e
  | ok x' =>
    cases hr : evN P st r with
    | error _ => rw [hl, hr] at e; cases e
    | ok y' =>
      rw [hl, hr] at e
      cases e
      have e1 := C114_value h hst hx hl
      have e2 := C114_value h hst hy hr
      subst e1 e2
      cases c <;> simp [cmpNum, cmpMeaning, h.pyLt, h.pyEq, le_iff_lt_or_eq]
      all_goals
        first
          | rw [← Bool.not_eq_true, h.pyEq]
          | (constructor <;> (rintro (h | h) <;> [exact .inl h; exact .inr h.symm]))

/-! ### When evaluation succeeds -/

theorem finish_flt (x : F) : finishNum P (.py (.flt x)) = if P.inBounds x = true then .ok ⟨.flt x, realSort P⟩ else .error .value := by
  simp only [finishNum, mkConst, castTo, realSort, PyNum.toFloat]
  cases P.inBounds x <;> rfl

theorem apply1_flt (h : ExactMath P A) {f : BFun} {g : F → F} (hg : unMeaning A f = some g) (x : F) (s : NSort F) :
    apply1 P f ⟨.flt x, s⟩ = if P.inBounds (g x) = true then .ok ⟨.flt (g x), realSort P⟩ else .error .value := by
  obtain ⟨-, k, hk, hi⟩ := un_table hg
  rw [apply1, hi, ← finish_flt]
  cases f <;> cases hg <;> cases hk <;> simp only [call1, viaFloat, PyNum.toFloat]
  case abs => rw [h.npAbs]
  case sgn => rw [h.npSign]
  case sin => rw [h.npSin]
  case cos => rw [h.npCos]
  case tan => rw [h.npTan]
  case asin => rw [h.npArcsin]
  case atan => rw [h.npArctan]
  case exp => rw [h.npExp]
  case log => rw [h.npLog]
  case sqrt => rw [h.npSqrt]
  case erf => rw [h.sciErf]
  case erfc => rw [h.sciErfc]

theorem if_ok_iff {α : Type} {p : Prop} [Decidable p] {a c : α} {er : Err} : (if p then Except.ok a else Except.error er) = .ok c ↔ p ∧ c = a := by
  split
  · next hp => simp [hp, eq_comm]
  · next hp => simp [hp]

theorem oper_flt {o : NOp} {r : Except Err F} {x y : F} {s s' : NSort F} (hr : pyArith P.toFloats o (.flt x) (.flt y) = (match r with | .ok z => .ok (.flt z) | .error e => .error e))
    {c : NConst F} : applyOper P o ⟨.flt x, s⟩ ⟨.flt y, s'⟩ = .ok c ↔ ∃ z, r = .ok z ∧ P.inBounds z = true ∧ c = ⟨.flt z, realSort P⟩ := by
  unfold applyOper
  dsimp only
  rw [hr]
  cases r with
  | error e => simp
  | ok z => simp [finish_flt, if_ok_iff]

theorem bin_flt (h : ExactMath P A) {f : BFun} {g : F → F → F} (hg : binMeaning A f = some g) {st : String → Option (NConst F)} {a b : NTerm F} {x y : F}
    {s s' : NSort F} (ha : evN P st a = .ok ⟨.flt x, s⟩) (hb : evN P st b = .ok ⟨.flt y, s'⟩) {c : NConst F} :
    evN P st (.bin f a b) = .ok c ↔ DefinedAt A f x y ∧ P.inBounds (g x y) = true ∧ c = ⟨.flt (g x y), realSort P⟩ := by
  cases f <;> cases hg <;> simp only [evN, evaluators, ha, hb]
  case add => rw [oper_flt (r := .ok (P.add x y)) rfl]; simp [DefinedAt, h.add]
  case sub => rw [oper_flt (r := .ok (P.sub x y)) rfl]; simp [DefinedAt, h.sub]
  case mul => rw [oper_flt (r := .ok (P.mul x y)) rfl]; simp [DefinedAt, h.mul]
  case div =>
    rw [oper_flt (r := P.div x y) (by simp only [pyArith, pyArith.floats, PyNum.toFloat]; cases P.div x y <;> rfl)]
    simp only [h.div, DefinedAt]
    constructor
    · rintro ⟨z, ⟨hy, rfl⟩, hz⟩; exact ⟨hy, hz⟩
    · rintro ⟨hy, hz⟩; exact ⟨_, ⟨hy, rfl⟩, hz⟩
  case pow =>
    rw [oper_flt (r := P.pow x y) (by simp only [pyArith, pyArith.floats, PyNum.toFloat]; cases P.pow x y <;> rfl)]
    simp only [h.pow, DefinedAt]
    constructor
    · rintro ⟨z, ⟨hy, rfl⟩, hz⟩; exact ⟨hy, hz⟩
    · rintro ⟨hy, hz⟩; exact ⟨_, ⟨hy, rfl⟩, hz⟩
  case mod =>
    rw [oper_flt (r := P.mod x y) (by simp only [pyArith, pyArith.floats, PyNum.toFloat]; cases P.mod x y <;> rfl)]
    simp only [h.mod, DefinedAt]
    constructor
    · rintro ⟨z, ⟨hy, rfl⟩, hz⟩; exact ⟨hy, hz⟩
    · rintro ⟨hy, hz⟩; exact ⟨_, ⟨hy, rfl⟩, hz⟩
  case min =>
    have hi : funcImpl BFun.min.value = some .npMin := by decide
    simp only [apply2, hi, call2, viaFloat2, PyNum.toFloat, finish_flt, h.npMin, if_ok_iff, DefinedAt, true_and]
  case max =>
    have hi : funcImpl BFun.max.value = some .npMax := by decide
    simp only [apply2, hi, call2, viaFloat2, PyNum.toFloat, finish_flt, h.npMax, if_ok_iff, DefinedAt, true_and]

/-- **C114, evaluation succeeds.** A term over real numbers evaluates to a constant iff all values are given, all functions are defined where they are
applied and all intermediate results are within the bounds of Real; the constant is then of sort Real. -/
theorem C114_defined (h : ExactMath P A) {st : String → Option (NConst F)} {σ : String → F} (hst : RealState P st σ) {t : NTerm F} (ht : RealTerm P A t)
    (c : NConst F) : evN P st t = .ok c ↔ ∃ v, InRange P A st t v ∧ c = ⟨.flt v, realSort P⟩ := by
  induction ht generalizing c with
  | const x =>
    simp only [evN, Except.ok.injEq]
    constructor
    · rintro rfl; exact ⟨x, .const x _, rfl⟩
    · rintro ⟨v, hv, rfl⟩; cases hv; rfl
  | raw x =>
    have : evN P st (.raw (.flt x)) = finishNum P (.py (.flt x)) := rfl
    rw [this, finish_flt, if_ok_iff]
    constructor
    · rintro ⟨hb, rfl⟩; exact ⟨x, .raw x hb, rfl⟩
    · rintro ⟨v, hv, rfl⟩; cases hv with | raw _ hb => exact ⟨hb, rfl⟩
  | fn f s =>
    simp only [evN]
    constructor
    · intro e
      cases hf : st f with
      | none => rw [hf] at e; cases e
      | some c' =>
        rw [hf] at e; cases e
        obtain rfl := hst f _ hf
        exact ⟨_, .fn hf, rfl⟩
    · rintro ⟨v, hv, rfl⟩
      cases hv with
      | fn hf =>
        have := hst f _ hf
        rw [hf]
        cases this
        rfl
  | @un f a hf _ ih =>
    obtain ⟨g, hg⟩ := Option.isSome_iff_exists.1 hf
    simp only [evN, (un_table hg).1]
    constructor
    · intro e
      cases ha : evN P st a with
      | error _ => rw [ha] at e; cases e
      | ok x =>
        obtain ⟨v, hv, rfl⟩ := (ih x).1 ha
        rw [ha] at e
        dsimp only at e
        rw [apply1_flt h hg, if_ok_iff] at e
        exact ⟨g v, .un hg hv e.1, e.2⟩
    · rintro ⟨w, hw, rfl⟩
      cases hw with
      | un hg' hv hb =>
        rw [hg] at hg'
        cases hg'
        rw [(ih _).2 ⟨_, hv, rfl⟩]
        dsimp only
        rw [apply1_flt h hg, if_ok_iff]
        exact ⟨hb, rfl⟩
  | @bin f a b hf _ _ iha ihb =>
    obtain ⟨g, hg⟩ := Option.isSome_iff_exists.1 hf
    constructor
    · intro e
      have hab : ∃ x y, evN P st a = .ok x ∧ evN P st b = .ok y := by
        rcases bin_table hg with ⟨o, _, hev⟩ | ⟨rfl, hev⟩ | ⟨rfl, hev⟩
        all_goals
          simp only [evN, hev] at e
          cases ha : evN P st a with
          | error _ => rw [ha] at e; cases e
          | ok x =>
            cases hb : evN P st b with
            | error _ => rw [ha, hb] at e; cases e
            | ok y => exact ⟨x, y, rfl, rfl⟩
      obtain ⟨x, y, ha, hb⟩ := hab
      obtain ⟨v, hv, rfl⟩ := (iha x).1 ha
      obtain ⟨w, hw, rfl⟩ := (ihb y).1 hb
      obtain ⟨hd, hi, rfl⟩ := (bin_flt h hg ha hb).1 e
      exact ⟨_, .bin hg hv hw hd hi, rfl⟩
    · rintro ⟨u, hu, rfl⟩
      cases hu with
      | bin hg' hv hw hd hi =>
        rw [hg] at hg'
        cases hg'
        exact (bin_flt h hg ((iha _).2 ⟨_, hv, rfl⟩) ((ihb _).2 ⟨_, hw, rfl⟩)).2 ⟨hd, hi, rfl⟩

/-- The full claim: a term over integers evaluates to the integer that it stands for, whenever that is an Integer. -/
def C114_integers_full (P : PyMath F) (A : Analysis F) : Prop := ∀ (st : String → Option (NConst F)) (σ : String → F) (t : NTerm F) (z : Int),
  (∀ f c, st f = some c → numVal c.v = σ f) → StandsFor A σ t (z : F) → -(2 ^ 31 - 1) ≤ z → z ≤ 2 ^ 31 - 1 → ∃ c, evN P st t = .ok c

omit [Field F] [LinearOrder F] [IsStrictOrderedRing F] in
/-- **C114 is false of integers.** The minimum, the maximum, the absolute value and the sign of terms with integer values can never be evaluated: numpy's
integers are no Python integers, no sort is found for them, and AttributeError is raised. -/
theorem C114_integers_raise (st : String → Option (NConst F)) {a b : NTerm F} {x y : Int} {s s' : NSort F} (ha : evN P st a = .ok ⟨.int x, s⟩)
    (hb : evN P st b = .ok ⟨.int y, s'⟩) : evN P st (.bin .min a b) = .error .attribute ∧ evN P st (.bin .max a b) = .error .attribute ∧
    evN P st (.un .abs a) = .error .attribute ∧ evN P st (.un .sgn a) = .error .attribute := by
  have h1 : funcImpl BFun.min.value = some .npMin := by decide
  have h2 : funcImpl BFun.max.value = some .npMax := by decide
  have h3 : funcImpl BFun.abs.value = some .npAbs := by decide
  have h4 : funcImpl BFun.sgn.value = some .npSign := by decide
  simp [evN, evaluators, ha, hb, apply1, apply2, h1, h2, h3, h4, call1, call2, finishNum]

theorem C114_integers_refuted : ¬ C114_integers_full P A := by
  intro hf
  obtain ⟨c, hc⟩ := hf (fun _ => none) (fun _ => 0) (.bin .min (.const ⟨.int 2, intSort⟩) (.const ⟨.int 3, intSort⟩)) 2 (by simp)
    (by
      have h2 : StandsFor A (fun _ => (0 : F)) (.const ⟨.int 2, intSort⟩) (numVal (.int 2)) := .const _ _
      have h3 : StandsFor A (fun _ => (0 : F)) (.const ⟨.int 3, intSort⟩) (numVal (.int 3)) := .const _ _
      have := StandsFor.bin (f := .min) (g := min) rfl h2 h3
      have e : min (numVal (.int 2 : PyNum F)) (numVal (.int 3 : PyNum F)) = ((2 : Int) : F) := by
        simp only [numVal]
        exact min_eq_left (by norm_num)
      rw [e] at this
      exact this) (by decide) (by decide)
  rw [(C114_integers_raise (fun _ => none) rfl rfl).1] at hc
  cases hc

/-- The integer operations that a builtin function stands for. -/
def intMeaning : BFun → Option (Int → Int → Int)
  | .add => some (· + ·)
  | .sub => some (· - ·)
  | .mul => some (· * ·)
  | _ => none

/-- **C114, integers.** The sum, the difference and the product of two terms with integer values are integers again, of sort Integer, and are defined
exactly when they lie in [-(2^31-1), 2^31-1]; an integer is a constant of sort Integer, respectively Natural, exactly when it lies in that interval,
respectively in [0, 2^32-1]. -/
theorem C114_integer_sums (st : String → Option (NConst F)) {f : BFun} {g : Int → Int → Int} (hg : intMeaning f = some g) {a b : NTerm F} {x y : Int} {s s' : NSort F}
    (ha : evN P st a = .ok ⟨.int x, s⟩) (hb : evN P st b = .ok ⟨.int y, s'⟩) (c : NConst F) :
    (evN P st (.bin f a b) = .ok c ↔ (-2147483647 ≤ g x y ∧ g x y ≤ 2147483647) ∧ c = ⟨.int (g x y), ⟨"Integer", .int (-2147483647) 2147483647⟩⟩) ∧
      (∀ z : Int, (∃ c, mkConst P (.int z) intSort = .ok c) ↔ -2147483647 ≤ z ∧ z ≤ 2147483647) ∧
      (∀ z : Int, (∃ c, mkConst P (.int z) natSort = .ok c) ↔ 0 ≤ z ∧ z ≤ 4294967295) := by
  refine ⟨?_, ?_, ?_⟩
  · have key : ∀ z : Int, finishNum P (.py (.int z)) = .ok c ↔ (-2147483647 ≤ z ∧ z ≤ 2147483647) ∧ c = ⟨.int z, ⟨"Integer", .int (-2147483647) 2147483647⟩⟩ := by
      intro z
      simp only [finishNum, mkConst, castTo, intSort]
      norm_num
      by_cases hz : -2147483647 ≤ z ∧ z ≤ 2147483647
      · simp [hz, eq_comm]
      · simp [hz]
    cases f <;> simp only [intMeaning] at hg <;> first | (cases hg; simp only [evN, evaluators, ha, hb, applyOper, pyArith]; exact key _) | cases hg
  · intro z
    simp only [mkConst, castTo, intSort]
    norm_num
    by_cases hz : -2147483647 ≤ z ∧ z ≤ 2147483647
    · simp [hz]
    · simp [hz]
  · intro z
    simp only [mkConst, castTo, natSort]
    norm_num
    by_cases hz : 0 ≤ z ∧ z ≤ 4294967295
    · simp [hz]
    · simp [hz]

/-- The functions that give floating point numbers do take integers. -/
theorem C114_integer_arguments (h : ExactMath P A) (st : String → Option (NConst F)) {f : BFun} {g : F → F} (hg : unMeaning A f = some g) (hf : f ≠ .abs ∧ f ≠ .sgn)
    {a : NTerm F} {z : Int} {s : NSort F} (ha : evN P st a = .ok ⟨.int z, s⟩) :
    evN P st (.un f a) = if P.inBounds (g (z : F)) = true then .ok ⟨.flt (g (z : F)), realSort P⟩ else .error .value := by
  obtain ⟨he, k, hk, hi⟩ := un_table hg
  rw [← finish_flt]
  simp only [evN, he, ha, apply1, hi]
  cases f <;> cases hg <;> cases hk <;> simp only [call1, viaFloat, PyNum.toFloat, h.ofInt]
  case abs => exact absurd rfl hf.1
  case sgn => exact absurd rfl hf.2
  case sin => rw [h.npSin]
  case cos => rw [h.npCos]
  case tan => rw [h.npTan]
  case asin => rw [h.npArcsin]
  case atan => rw [h.npArctan]
  case exp => rw [h.npExp]
  case log => rw [h.npLog]
  case sqrt => rw [h.npSqrt]
  case erf => rw [h.sciErf]
  case erfc => rw [h.sciErfc]

/-! ### Numbers as operands -/

/-- The number that an operand stands for. -/
inductive ArgStands (A : Analysis F) (σ : String → F) : NArg F → F → Prop
  | num (n : PyNum F) : ArgStands A σ (.num n) (numVal n)
  | term {t : NTerm F} {v : F} : StandsFor A σ t v → ArgStands A σ (.term t) v

/-- One operand is a term, and an operand that is a number belongs to the sort of the other one; terms have a subsort of Real. -/
def OperandsFit (P : PyMath F) (sub : String → Bool) : NArg F → NArg F → Prop
  | .term a, .term b => ∃ s s', a.sort P = some s ∧ b.sort P = some s' ∧ sub s.name = true ∧ sub s'.name = true
  | .term a, .num n => ∃ s, a.sort P = some s ∧ sub s.name = true ∧ BelongsTo n s
  | .num n, .term b => ∃ s, b.sort P = some s ∧ sub s.name = true ∧ BelongsTo n s
  | .num _, .num _ => False

theorem numConst_spec (h : ExactMath P A) {t : NTerm F} {s : NSort F} (hs : t.sort P = some s) (n : PyNum F) :
    (BelongsTo n s → ∃ m, numConst P t n = .ok (.const ⟨m, s⟩) ∧ numVal m = numVal n) ∧ (¬ BelongsTo n s → numConst P t n = .error .value) := by
  unfold numConst
  rw [hs]
  dsimp only
  constructor
  · intro hb
    obtain ⟨m, hm⟩ := castTo_belongs h hb
    have e := castTo_ok h hm
    have hb' : BelongsTo m s := by
      obtain ⟨nm, enc⟩ := s
      cases enc <;> simp_all [BelongsTo]
    obtain ⟨k, hk⟩ := castTo_belongs h hb'
    have e' := castTo_ok h hk
    exact ⟨k, by simp [hm, mkConst, hk], e'.1.trans e.1⟩
  · intro hb
    rw [castTo_error h hb]

theorem numConst_ok (h : ExactMath P A) {t u : NTerm F} {n : PyNum F} (e : numConst P t n = .ok u) :
    ∃ s m, t.sort P = some s ∧ BelongsTo n s ∧ u = .const ⟨m, s⟩ ∧ numVal m = numVal n := by
  cases hs : t.sort P with
  | none => simp [numConst, hs] at e
  | some s =>
    by_cases hb : BelongsTo n s
    · obtain ⟨m, hm, hv⟩ := (numConst_spec h hs n).1 hb
      rw [hm] at e
      cases e
      exact ⟨s, m, rfl, hb, rfl, hv⟩
    · rw [(numConst_spec h hs n).2 hb] at e
      cases e

omit [Field F] [LinearOrder F] [IsStrictOrderedRing F] in
theorem fnArg_term {sub : String → Bool} {t u : NTerm F} : fnArg P sub (.term t) = .ok u ↔ u = t ∧ ∃ s, t.sort P = some s ∧ sub s.name = true := by
  simp only [fnArg]
  rcases hs : t.sort P with _ | s
  · simp
  · by_cases hb : sub s.name = true
    · simp only [hb, if_true, Except.ok.injEq]
      exact ⟨fun e => ⟨e.symm, s, rfl, hb⟩, fun e => e.1.symm⟩
    · simp [hb]

omit [Field F] [LinearOrder F] [IsStrictOrderedRing F] in
theorem callBin_ok {sub : String → Bool} {f : BFun} {x y : NArg F} {u : NTerm F} :
    callBin P sub f x y = .ok u ↔ ∃ a b, fnArg P sub x = .ok a ∧ fnArg P sub y = .ok b ∧ u = .bin f a b := by
  unfold callBin
  cases fnArg P sub x with
  | error e => simp
  | ok a =>
    cases fnArg P sub y with
    | error e => simp
    | ok b => simp [eq_comm]

/-- What the cast of the operands gives: two terms that stand for the same numbers. -/
theorem castArgs_ok (h : ExactMath P A) {σ : String → F} {x y : NArg F} {a b : NTerm F} (e : castArgs P x y = .ok (a, b)) {v w : F} (hv : ArgStands A σ x v)
    (hw : ArgStands A σ y w) : StandsFor A σ a v ∧ StandsFor A σ b w := by
  cases x with
  | term t =>
    cases hv with
    | term hv =>
    cases y with
    | term u => cases hw with | term hw => cases e; exact ⟨hv, hw⟩
    | num n =>
      cases hw
      simp only [castArgs] at e
      cases hc : numConst P t n with
      | error _ => rw [hc] at e; cases e
      | ok b' =>
        rw [hc] at e
        cases e
        obtain ⟨s, m, _, _, rfl, hm⟩ := numConst_ok h hc
        exact ⟨hv, hm ▸ .const m s⟩
  | num n =>
    cases hv
    cases y with
    | term u =>
      cases hw with
      | term hw =>
      simp only [castArgs] at e
      cases hc : numConst P u n with
      | error _ => rw [hc] at e; cases e
      | ok a' =>
        rw [hc] at e
        cases e
        obtain ⟨s, m, _, _, rfl, hm⟩ := numConst_ok h hc
        exact ⟨hm ▸ .const m s, hw⟩
    | num k =>
      cases hw
      have main : ∀ s, (match mkConst P n s with | .error e => .error e | .ok a => match mkConst P k s with | .error e => .error e | .ok b => .ok (NTerm.const a, NTerm.const b)) =
          Except.ok (ε := Err) (a, b) → StandsFor A σ a (numVal n) ∧ StandsFor A σ b (numVal k) := by
        intro s e
        cases h1 : mkConst P n s with
        | error _ => rw [h1] at e; cases e
        | ok c1 =>
          cases h2 : mkConst P k s with
          | error _ => rw [h1, h2] at e; cases e
          | ok c2 =>
            rw [h1, h2] at e
            cases e
            exact ⟨(mkConst_ok h h1).1 ▸ .const c1.v c1.sort, (mkConst_ok h h2).1 ▸ .const c2.v c2.sort⟩
      cases n <;> cases k <;> exact main _ e

/-- **C114, operators.** `x op y` with a term and a term or a number, if it does not raise, stands for the result of the operation on what `x` and `y`
stand for. -/
theorem C114_operator (h : ExactMath P A) {sub : String → Bool} {σ : String → F} {f : BFun} {g : F → F → F} (hg : binMeaning A f = some g) {x y : NArg F} {v w : F}
    (hv : ArgStands A σ x v) (hw : ArgStands A σ y w) {u : NTerm F} (e : opNum P sub f x y = .ok u) : StandsFor A σ u (g v w) := by
  have key : dispatchNum P sub f x y = .ok u := by
    cases x with
    | term a => exact e
    | num n =>
      cases y with
      | term b =>
        simp only [opNum] at e
        split at e
        · exact e
        · cases e
      | num k => cases e
  unfold dispatchNum at key
  cases hc : castArgs P x y with
  | error _ => rw [hc] at key; cases key
  | ok ab =>
    obtain ⟨a, b⟩ := ab
    rw [hc] at key
    dsimp only at key
    obtain ⟨a', b', ha, hb, rfl⟩ := callBin_ok.1 key
    obtain ⟨rfl, -⟩ := fnArg_term.1 ha
    obtain ⟨rfl, -⟩ := fnArg_term.1 hb
    obtain ⟨h1, h2⟩ := castArgs_ok h hc hv hw
    exact .bin hg h1 h2

/-- **C114, when an operator applies.** `x op y` succeeds iff one of the operands is a term, the terms have subsorts of Real, a number belongs to the sort
of the other operand, and, if the number is at the left, the operator is one of `+ - * /`. -/
theorem C114_operator_iff (h : ExactMath P A) {sub : String → Bool} {f : BFun} (x y : NArg F) : (∃ u, opNum P sub f x y = .ok u) ↔
    OperandsFit P sub x y ∧ ((∃ n, x = .num n) → f = .add ∨ f = .sub ∨ f = .mul ∨ f = .div) := by
  have right : ∀ (a : NTerm F) (n : PyNum F), (∃ u, dispatchNum P sub f (.term a) (.num n) = .ok u) ↔ OperandsFit P sub (.term a) (.num n) := by
    intro a n
    constructor
    · rintro ⟨u, e⟩
      unfold dispatchNum at e
      simp only [castArgs] at e
      cases hc : numConst P a n with
      | error _ => rw [hc] at e; cases e
      | ok b =>
        rw [hc] at e
        dsimp only at e
        obtain ⟨s, m, hs, hb, rfl, -⟩ := numConst_ok h hc
        obtain ⟨_, _, ha, -, -⟩ := callBin_ok.1 e
        obtain ⟨-, s', hs', hsub⟩ := fnArg_term.1 ha
        rw [hs] at hs'
        cases hs'
        exact ⟨s, hs, hsub, hb⟩
    · rintro ⟨s, hs, hsub, hb⟩
      obtain ⟨m, hm, -⟩ := (numConst_spec h hs n).1 hb
      refine ⟨.bin f a (.const ⟨m, s⟩), ?_⟩
      unfold dispatchNum
      simp only [castArgs, hm]
      exact callBin_ok.2 ⟨_, _, fnArg_term.2 ⟨rfl, s, hs, hsub⟩, fnArg_term.2 ⟨rfl, s, rfl, hsub⟩, rfl⟩
  have left : ∀ (a : NTerm F) (n : PyNum F), (∃ u, dispatchNum P sub f (.num n) (.term a) = .ok u) ↔ OperandsFit P sub (.num n) (.term a) := by
    intro a n
    constructor
    · rintro ⟨u, e⟩
      unfold dispatchNum at e
      simp only [castArgs] at e
      cases hc : numConst P a n with
      | error _ => rw [hc] at e; cases e
      | ok b =>
        rw [hc] at e
        dsimp only at e
        obtain ⟨s, m, hs, hb, rfl, -⟩ := numConst_ok h hc
        obtain ⟨_, _, -, ha, -⟩ := callBin_ok.1 e
        obtain ⟨-, s', hs', hsub⟩ := fnArg_term.1 ha
        rw [hs] at hs'
        cases hs'
        exact ⟨s, hs, hsub, hb⟩
    · rintro ⟨s, hs, hsub, hb⟩
      obtain ⟨m, hm, -⟩ := (numConst_spec h hs n).1 hb
      refine ⟨.bin f (.const ⟨m, s⟩) a, ?_⟩
      unfold dispatchNum
      simp only [castArgs, hm]
      exact callBin_ok.2 ⟨_, _, fnArg_term.2 ⟨rfl, s, rfl, hsub⟩, fnArg_term.2 ⟨rfl, s, hs, hsub⟩, rfl⟩
  have hr : hasReflected f = true ↔ f = .add ∨ f = .sub ∨ f = .mul ∨ f = .div := by cases f <;> simp [hasReflected]
  cases x with
  | term a =>
    have hx : ¬ ∃ n, (NArg.term a : NArg F) = .num n := by rintro ⟨_, e⟩; cases e
    cases y with
    | num n => simp only [opNum, right, hx, false_implies, and_true]
    | term b =>
      simp only [opNum, hx, false_implies, and_true, dispatchNum, castArgs, callBin_ok, fnArg_term, OperandsFit]
      constructor
      · rintro ⟨_, _, _, ⟨rfl, s, h1, h2⟩, ⟨rfl, s', h3, h4⟩, -⟩; exact ⟨s, s', h1, h3, h2, h4⟩
      · rintro ⟨s, s', h1, h3, h2, h4⟩; exact ⟨_, _, _, ⟨rfl, s, h1, h2⟩, ⟨rfl, s', h3, h4⟩, rfl⟩
  | num n =>
    cases y with
    | num k => simp [opNum, OperandsFit]
    | term b =>
      simp only [opNum, NArg.num.injEq, exists_eq', true_implies, ← hr]
      by_cases hf : hasReflected f = true
      · simp only [hf, if_true, left, and_true]
      · simp [hf]

/-- **C114, comparisons with numbers.** `x < y`, ... with a term and a term or a number, if it does not raise, is an atom that holds iff the comparison holds
of what `x` and `y` stand for. -/
theorem C114_comparison (h : ExactMath P A) {sub : String → Bool} {σ : String → F} {c : Cmp} {x y : NArg F} {v w : F} (hv : ArgStands A σ x v)
    (hw : ArgStands A σ y w) {a : NAtom F} (e : cmpNumOp P sub c x y = .ok a) :
    ∃ l r, StandsFor A σ a.l l ∧ StandsFor A σ a.r r ∧ (cmpMeaning a.c l r ↔ cmpMeaning c v w) := by
  have key : ∀ {c' : Cmp} {x y : NArg F} {v w : F}, ArgStands A σ x v → ArgStands A σ y w → cmpAtom P sub c' x y = .ok a →
      a.c = c' ∧ StandsFor A σ a.l v ∧ StandsFor A σ a.r w := by
    intro c' x y v w hv hw e
    unfold cmpAtom at e
    cases hc : castArgs P x y with
    | error _ => rw [hc] at e; cases e
    | ok ab =>
      obtain ⟨l, r⟩ := ab
      obtain ⟨h1, h2⟩ := castArgs_ok h hc hv hw
      rw [hc] at e
      dsimp only at e
      split at e
      · cases e; exact ⟨rfl, h1, h2⟩
      · cases hl : fnArg P sub (.term l) with
        | error _ => rw [hl] at e; cases e
        | ok _ =>
          cases hr : fnArg P sub (.term r) with
          | error _ => rw [hl, hr] at e; cases e
          | ok _ => rw [hl, hr] at e; cases e; exact ⟨rfl, h1, h2⟩
  cases x with
  | term t =>
    obtain ⟨rfl, h1, h2⟩ := key hv hw e
    exact ⟨v, w, h1, h2, Iff.rfl⟩
  | num n =>
    cases y with
    | num k => cases e
    | term t =>
      obtain ⟨hc, h1, h2⟩ := key hw hv e
      refine ⟨w, v, h1, h2, ?_⟩
      rw [hc]
      cases c <;> simp [reflectCmp, cmpMeaning, eq_comm]

/-- `x < y`, ... succeeds iff one operand is a term and a number belongs to the sort of the other one; `<`, `<=`, `>` and `>=` take subsorts of Real only. -/
theorem C114_comparison_iff (h : ExactMath P A) {sub : String → Bool} {c : Cmp} (t : NTerm F) (s : NSort F) (hs : t.sort P = some s) (n : PyNum F) :
    ((∃ a, cmpNumOp P sub c (.term t) (.num n) = .ok a) ↔ BelongsTo n s ∧ (c = .eq ∨ c = .ne ∨ sub s.name = true)) ∧
    ((∃ a, cmpNumOp P sub c (.num n) (.term t) = .ok a) ↔ BelongsTo n s ∧ (c = .eq ∨ c = .ne ∨ sub s.name = true)) := by
  have key : ∀ c' : Cmp, (∃ a, cmpAtom P sub c' (.term t) (.num n) = .ok a) ↔ BelongsTo n s ∧ (c' = .eq ∨ c' = .ne ∨ sub s.name = true) := by
    intro c'
    unfold cmpAtom
    simp only [castArgs]
    by_cases hb : BelongsTo n s
    · obtain ⟨m, hm, -⟩ := (numConst_spec h hs n).1 hb
      simp only [hm, hb, true_and]
      by_cases hc : c' = .eq ∨ c' = .ne
      · rw [if_pos hc]
        exact ⟨fun _ => by tauto, fun _ => ⟨_, rfl⟩⟩
      · rw [if_neg hc]
        have h1 : fnArg P sub (.term t) = if sub s.name = true then .ok t else .error .sortMismatch := by simp [fnArg, hs]
        have h2 : fnArg P sub (.term (.const ⟨m, s⟩)) = if sub s.name = true then .ok (.const ⟨m, s⟩) else .error .sortMismatch := by simp [fnArg, NTerm.sort]
        rw [h1, h2]
        by_cases hsub : sub s.name = true
        · simp [hsub]
        · simp [hsub]; tauto
    · simp [(numConst_spec h hs n).2 hb, hb]
  refine ⟨key c, (key (reflectCmp c)).trans (and_congr_right fun _ => ?_)⟩
  cases c <;> simp [reflectCmp]

/-- The full claim: an operation on a numeric term and a number that is within the bounds of Real does not raise. -/
def C114_number_full (P : PyMath F) : Prop := ∀ (sub : String → Bool) (t : NTerm F) (s : NSort F) (n : PyNum F), t.sort P = some s → sub s.name = true →
  P.inBounds (numVal n) = true → (∃ a, cmpNumOp P sub .lt (.term t) (.num n) = .ok a) ∧ (∃ u, opNum P sub .mul (.term t) (.num n) = .ok u) ∧
  ∃ u, opNum P sub .pow (.num n) (.term t) = .ok u

/-- **C114 is false of numbers at large.** The number is cast to the sort of the other operand: a term of sort Integer cannot be compared with, or
multiplied by, a fraction, and a term of a bounded sort not with a number outside of its bounds. -/
theorem C114_number_refuted (h : ExactMath P A) (hb : P.inBounds (1 / 2) = true) : ¬ C114_number_full P := by
  intro hf
  have := (hf (fun _ => true) (.fn "x" intSort) intSort (.flt (1 / 2)) rfl rfl hb).1
  rw [(C114_comparison_iff h _ _ rfl _).1] at this
  obtain ⟨⟨z, hz, -⟩, -⟩ := this
  simp only [numVal] at hz
  have h2 : (2 * z : F) = 1 := by rw [← hz]; norm_num
  have h3 : (2 * z : Int) = 1 := by exact_mod_cast h2
  omega

theorem C114_bounded_refuted (h : ExactMath P A) (sub : String → Bool) : cmpNumOp P sub .le (.term (.fn "x" ⟨"Level", .int 0 10⟩)) (.num (.int 20)) = .error .value := by
  have : numConst P (.fn "x" ⟨"Level", .int 0 10⟩) (.int 20) = .error .value := by
    refine (numConst_spec (A := A) h rfl _).2 ?_
    rintro ⟨z, hz, -, hz'⟩
    simp only [numVal] at hz
    have : (20 : Int) = z := by exact_mod_cast hz
    omega
  simp [cmpNumOp, cmpAtom, castArgs, this]

omit [Field F] [LinearOrder F] [IsStrictOrderedRing F] in
/-- A number to the power of a term, and the remainder of a number, raise TypeError. -/
theorem C114_left_refuted (sub : String → Bool) (n : PyNum F) (t : NTerm F) : opNum P sub .pow (.num n) (.term t) = .error .typeError ∧
    opNum P sub .mod (.num n) (.term t) = .error .typeError := ⟨rfl, rfl⟩

/-! ### Special functions -/

theorem fnArg_stands (h : ExactMath P A) {sub : String → Bool} {σ : String → F} {x : NArg F} {v : F} (hv : ArgStands A σ x v) {a : NTerm F} (e : fnArg P sub x = .ok a) :
    StandsFor A σ a v := by
  cases hv with
  | num n =>
    simp only [fnArg] at e
    cases hc : castTo P (realSort P) n with
    | error _ => rw [hc] at e; cases e
    | ok m => rw [hc] at e; cases e; exact (castTo_ok h hc).1 ▸ .raw m
  | term ht => obtain ⟨rfl, -⟩ := fnArg_term.1 e; exact ht

theorem callBin_stands (h : ExactMath P A) {sub : String → Bool} {σ : String → F} {f : BFun} {g : F → F → F} (hg : binMeaning A f = some g) {x y : NArg F} {v w : F}
    (hv : ArgStands A σ x v) (hw : ArgStands A σ y w) {u : NTerm F} (e : callBin P sub f x y = .ok u) : StandsFor A σ u (g v w) := by
  obtain ⟨a, b, ha, hb, rfl⟩ := callBin_ok.1 e
  exact .bin hg (fnArg_stands h hv ha) (fnArg_stands h hw hb)

/-- **C114, special functions.** What `min`, `max`, `pow` and the functions of one argument build stands for the function of what the arguments stand
for; the arguments may be numbers. -/
theorem C114_special (h : ExactMath P A) {sub : String → Bool} {σ : String → F} {x y : NArg F} {v w : F} (hv : ArgStands A σ x v) (hw : ArgStands A σ y w) {u : NTerm F} :
    (specialMinMax P sub .min x y = .ok u → StandsFor A σ u (min v w)) ∧ (specialMinMax P sub .max x y = .ok u → StandsFor A σ u (max v w)) ∧
    (powFn P sub x y = .ok u → StandsFor A σ u (A.pow v w)) ∧
    ∀ f g, unMeaning A f = some g → specialUn P sub f x = .ok u → StandsFor A σ u (g v) := by
  refine ⟨fun e => ?_, fun e => ?_, fun e => ?_, fun f g hg e => ?_⟩
  · cases x <;> cases y <;> first | exact callBin_stands h (f := .min) rfl hv hw e | cases e
  · cases x <;> cases y <;> first | exact callBin_stands h (f := .max) rfl hv hw e | cases e
  · cases x <;> cases y <;> first | exact callBin_stands h (f := .pow) rfl hv hw e | cases e
  · cases x with
    | num n => cases e
    | term t =>
      simp only [specialUn, callUn] at e
      cases ha : fnArg P sub (.term t) with
      | error _ => rw [ha] at e; cases e
      | ok a => rw [ha] at e; cases e; exact .un hg (fnArg_stands h hv ha)

/-- **C114, special functions that raise.** Of two numbers, `min` and `max` have no value: the functions call themselves for ever (RecursionError). `normal` does
not take a number as mean with a term as deviation, while `gamma` takes a number and a term. -/
theorem C114_special_refuted (h : ExactMath P A) (sub : String → Bool) (m n : PyNum F) (t : NTerm F) :
    specialMinMax P sub .min (.num m) (.num n) = .error .runtime ∧ specialMinMax P sub .max (.num m) (.num n) = .error .runtime ∧
    normalFn P sub (.num m) (.term t) = .error .typeError ∧
    ∀ s, t.sort P = some s → sub s.name = true → P.inBounds (numVal m) = true →
      gammaFn P sub (.num m) (.term t) = .ok (some (.bin .gamma (.raw (.flt (numVal m))) t)) ∧ normalFn P sub (.term t) (.num m) = .ok (some (.bin .normal t (.raw (.flt (numVal m))))) := by
  refine ⟨rfl, rfl, rfl, fun s hs hsub hb => ?_⟩
  have h1 : fnArg P sub (.num m) = .ok (.raw (.flt (numVal m))) := by simp [fnArg, castTo, realSort, toFloat_exact h, hb]
  have h2 : fnArg P sub (.term t) = .ok t := fnArg_term.2 ⟨rfl, s, hs, hsub⟩
  simp [gammaFn, normalFn, callBin, h1, h2]

omit [Field F] [LinearOrder F] [IsStrictOrderedRing F] in
/-- No number among the subterms. -/
def NoRaw : NTerm F → Prop
  | .raw _ => False
  | .un _ a => NoRaw a
  | .bin _ a b => NoRaw a ∧ NoRaw b
  | _ => True

omit [Field F] [LinearOrder F] [IsStrictOrderedRing F] in
/-- A term can be hashed, and so used as an element of a set or as a key, iff it has no number among its subterms. -/
theorem C114_hash (t : NTerm F) : hashN t = .ok () ↔ NoRaw t := by
  induction t with
  | const c => simp [hashN, NoRaw]
  | raw n => simp [hashN, NoRaw]
  | var s s' => simp [hashN, NoRaw]
  | fn f s => simp [hashN, NoRaw]
  | un f a ih => simpa [hashN, NoRaw] using ih
  | bin f a b iha ihb =>
    simp only [hashN, NoRaw, ← iha, ← ihb]
    cases hashN a <;> simp

/-- **Terms built by the special functions from numbers cannot be hashed**, while those built by operators can. -/
theorem C114_hash_refuted (h : ExactMath P A) (sub : String → Bool) {t : NTerm F} {s : NSort F} (hs : t.sort P = some s) (hsub : sub s.name = true) (ht : NoRaw t) (n : PyNum F)
    (hn : P.inBounds (numVal n) = true) (hb : BelongsTo n s) : (∃ u, powFn P sub (.term t) (.num n) = .ok u ∧ hashN u = .error .attribute) ∧
    ∃ u, opNum P sub .pow (.term t) (.num n) = .ok u ∧ hashN u = .ok () := by
  have h1 : fnArg P sub (.num n) = .ok (.raw (.flt (numVal n))) := by simp [fnArg, castTo, realSort, toFloat_exact h, hn]
  have h2 : fnArg P sub (.term t) = .ok t := fnArg_term.2 ⟨rfl, s, hs, hsub⟩
  constructor
  · refine ⟨.bin .pow t (.raw (.flt (numVal n))), by simp [powFn, callBin, h1, h2], ?_⟩
    simp [hashN, (C114_hash t).2 ht]
  · obtain ⟨m, hm, -⟩ := (numConst_spec h hs n).1 hb
    have h3 : fnArg P sub (.term (.const ⟨m, s⟩)) = .ok (.const ⟨m, s⟩) := fnArg_term.2 ⟨rfl, s, rfl, hsub⟩
    refine ⟨.bin .pow t (.const ⟨m, s⟩), by simp [opNum, dispatchNum, castArgs, hm, callBin, h2, h3], ?_⟩
    exact (C114_hash _).2 ⟨ht, trivial⟩

end

/-! ### A concrete case -/

/-- Exact rational numbers, with bounds; the functions of analysis are trivial. -/
def exMath : PyMath Rat where
  add := (· + ·)
  sub := (· - ·)
  mul := (· * ·)
  div := fun a b => if b = 0 then .error .zeroDivision else .ok (a / b)
  pow := fun a b => if b = (b.num.toNat : Rat) then .ok (a ^ b.num.toNat) else .error .value
  mod := fun a b => if b = 0 then .error .zeroDivision else .ok ((Int.fmod a.num b.num : Int) : Rat)
  ofInt := fun z => .ok z
  toInt := fun x => if x = (x.num : Rat) then some x.num else none
  inBounds := fun x => decide (-1000 ≤ x ∧ x ≤ 1000)
  pyLt := fun m n => decide (numVal m < numVal n)
  pyEq := fun m n => decide (numVal m = numVal n)
  npMin := min
  npMax := max
  npAbs := fun a => |a|
  npSign := fun a => if a < 0 then -1 else if 0 < a then 1 else 0
  npSin := fun a => a
  npCos := fun _ => 1
  npTan := fun a => a
  npArcsin := fun a => a
  npArctan := fun a => a
  npExp := fun a => 1 + a
  npLog := fun a => a - 1
  npSqrt := fun a => a
  sciErf := fun a => a
  sciErfc := fun a => 1 - a

/-- The same functions, as a specification. -/
def exAnalysis : Analysis Rat where
  pow := fun a b => a ^ b.num.toNat
  powDef := fun _ b => b = (b.num.toNat : Rat)
  mod := fun a b => ((Int.fmod a.num b.num : Int) : Rat)
  sin := fun a => a
  cos := fun _ => 1
  tan := fun a => a
  arcsin := fun a => a
  arctan := fun a => a
  exp := fun a => 1 + a
  log := fun a => a - 1
  sqrt := fun a => a
  erf := fun a => a
  erfc := fun a => 1 - a

theorem exMath_exact : ExactMath exMath exAnalysis := by
  constructor <;> intros <;> try rfl
  case div => simp only [exMath]; split <;> simp_all [eq_comm]
  case pow a b r =>
    simp only [exMath, exAnalysis]
    by_cases hb : b = (b.num.toNat : Rat)
    · rw [if_pos hb]; exact ⟨fun e => ⟨hb, by cases e; rfl⟩, fun e => by rw [e.2]⟩
    · rw [if_neg hb]; exact ⟨nofun, fun e => absurd e.1 hb⟩
  case mod => simp only [exMath, exAnalysis]; split <;> simp_all [eq_comm]
  case toInt x z =>
    simp only [exMath]
    constructor
    · intro e
      split at e
      · next hx => cases e; exact hx
      · cases e
    · rintro rfl; simp
  case pyLt => simp [exMath]
  case pyEq => simp [exMath]

/-- Non-vacuity: with `x = 3`, the term `max(x * 2, 1/2) - |x - 10|` is one over real numbers and is evaluated to -1; `x < 7/2` is true. -/
example : evN exMath (fun f => if f = "x" then some ⟨.flt 3, realSort exMath⟩ else none)
      (.bin .sub (.bin .max (.bin .mul (.fn "x" (realSort exMath)) (.const ⟨.flt 2, realSort exMath⟩)) (.raw (.flt (1 / 2))))
        (.un .abs (.bin .sub (.fn "x" (realSort exMath)) (.const ⟨.flt 10, realSort exMath⟩)))) = .ok ⟨.flt (-1), realSort exMath⟩ := by
  have hst : RealState exMath (fun f => if f = "x" then some ⟨.flt 3, realSort exMath⟩ else none) (fun _ => 3) := by
    intro f c hc
    dsimp only at hc
    split at hc
    · cases hc; rfl
    · cases hc
  refine (C114_defined exMath_exact hst (.bin rfl (.bin rfl (.bin rfl (.fn _ _) (.const _)) (.raw _)) (.un rfl (.bin rfl (.fn _ _) (.const _)))) _).2 ⟨-1, ?_, rfl⟩
  have x3 : InRange exMath exAnalysis (fun f => if f = "x" then some ⟨.flt 3, realSort exMath⟩ else none) (.fn "x" (realSort exMath)) 3 := .fn rfl
  have t1 := InRange.bin (f := .mul) (g := (· * ·)) rfl x3 (InRange.const (P := exMath) (A := exAnalysis) 2 (realSort exMath)) trivial (by simp [exMath]; norm_num)
  have t2 := InRange.bin (f := .max) (g := max) rfl t1 (.raw (1 / 2) (by simp [exMath]; norm_num)) trivial (by simp [exMath]; norm_num)
  have t3 := InRange.bin (f := .sub) (g := (· - ·)) rfl x3 (InRange.const (P := exMath) (A := exAnalysis) 10 (realSort exMath)) trivial (by simp [exMath]; norm_num)
  have t4 := InRange.un (f := .abs) (g := fun a => |a|) rfl t3 (by simp [exMath]; norm_num)
  have t5 := InRange.bin (f := .sub) (g := (· - ·)) rfl t2 t4 trivial (by simp [exMath]; norm_num)
  have e : max ((3 : Rat) * 2) (1 / 2) - |3 - 10| = -1 := by norm_num
  rw [e] at t5
  exact t5

/-- Non-vacuity: with `x = 2147483647`, `x - 1` is evaluated and `x + 1` is not. -/
example : evN exMath (fun f => if f = "x" then some ⟨.int 2147483647, intSort⟩ else none) (.bin .sub (.fn "x" intSort) (.const ⟨.int 1, intSort⟩)) = .ok ⟨.int 2147483646, intSort⟩ :=
  (C114_integer_sums (f := .sub) _ rfl rfl rfl _).1.2 ⟨by decide, rfl⟩

/-- Non-vacuity of the operators: `3 - x` for `x` of sort Integer. -/
example : ∃ u, opNum exMath (fun _ => true) .sub (.num (.int 3)) (.term (.fn "x" intSort)) = .ok u :=
  (C114_operator_iff exMath_exact _ _).2 ⟨⟨intSort, rfl, rfl, 3, rfl, by decide, by decide⟩, fun _ => by decide⟩

end Tarski

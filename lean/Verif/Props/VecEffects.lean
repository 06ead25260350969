import Mathlib.Tactic.Common
import Mathlib.Order.Basic
import Verif.VecEffects
import Verif.Props.Visitors
/-! C108: the constructors of vector, black-box and choice effects. -/
namespace Tarski

/-! ### Vectorised effects -/

/-- The full statement, as the messages of the constructor put it: both sides are vector-like, the left one is a column vector, and they
have the same dimensions. -/
def C108_vectorised_full : Prop := ∀ lhs rhs : VShape, checkVectorised lhs rhs = .ok () ↔ ∃ n, lhs = some [n, 1] ∧ rhs = some [n, 1]

/-- C108, `VectorisedEffect`, what is true: the effects accepted are those whose sides have *different* shapes, the left one with at most
one row. -/
theorem C108_vectorised_partial (lhs rhs : VShape) :
    checkVectorised lhs rhs = .ok () ↔ ∃ n l r, lhs = some (n :: l) ∧ n ≤ 1 ∧ rhs = some r ∧ r ≠ n :: l := by
  cases lhs with
  | none => simp [checkVectorised]
  | some l =>
    cases l with
    | nil => simp [checkVectorised, tupleAt]
    | cons n l =>
      simp only [checkVectorised, tupleAt, List.getElem?_cons_zero]
      by_cases h : n > 1
      · rw [if_pos h]
        constructor
        · intro h'; cases h'
        · rintro ⟨n', l', r, e, hn, -⟩
          cases e; omega
      · rw [if_neg h]
        cases rhs with
        | none => simp
        | some r =>
          dsimp only
          by_cases e : n :: l = r
          · rw [if_pos e]
            constructor
            · intro h'; cases h'
            · rintro ⟨n', l', r', e1, -, e2, e3⟩
              cases e1; cases e2; exact absurd e.symm e3
          · rw [if_neg e]
            exact ⟨fun _ => ⟨n, l, r, rfl, by omega, rfl, fun h' => e h'.symm⟩, fun _ => rfl⟩

/-- No effect the messages ask for is accepted: the equation of the dimensions is inverted. -/
theorem C108_vectorised_refuted : ¬ C108_vectorised_full ∧ ∀ s : VShape, checkVectorised s s ≠ .ok () := by
  refine ⟨fun h => ?_, fun s hs => ?_⟩
  · have := (h (some [2, 1]) (some [2, 1])).2 ⟨2, rfl, rfl⟩
    exact absurd this (by simp [checkVectorised, tupleAt])
  · obtain ⟨n, l, r, e1, -, e2, e3⟩ := (C108_vectorised_partial s s).1 hs
    rw [e1] at e2
    exact e3 (Option.some.inj e2).symm

example : checkVectorised (some [1, 3]) (some [3, 1]) = .ok () := by decide

/-! ### Linear effects -/

/-- The full statement: `y := A x + b` is accepted when `y`, `x` and `b` are column vectors of the same length and `A` a square matrix of
that size. -/
def C108_linear_full : Prop := ∀ y A x b : VShape, checkLinear y A x b = .ok () ↔
  ∃ n, y = some [n, 1] ∧ A = some [n, n] ∧ x = some [n, 1] ∧ b = some [n, 1]

/-- C108, `LinearEffect`, what is true: the effects accepted are those where `y`, `x` and `b` have the same shape, with at most one row,
and the second dimension of `A` is the number of rows. -/
theorem C108_linear_partial (y A x b : VShape) : checkLinear y A x b = .ok () ↔
    ∃ n l m k, y = some (n :: l) ∧ x = some (n :: l) ∧ b = some (n :: l) ∧ n ≤ 1 ∧ A = some (m :: n :: k) := by
  cases y with
  | none => simp [checkLinear]
  | some ys =>
    cases ys with
    | nil => simp [checkLinear, tupleAt]
    | cons n l =>
      simp only [checkLinear, tupleAt, List.getElem?_cons_zero]
      by_cases h : n > 1
      · rw [if_pos h]
        constructor
        · intro h'; cases h'
        · rintro ⟨n', l', m, k, e, -, -, hn, -⟩
          cases e; omega
      · rw [if_neg h]
        cases x with
        | none => simp
        | some xs =>
          dsimp only
          by_cases ex : n :: l = xs
          · subst ex
            simp only [ne_eq, not_true_eq_false, if_false]
            cases A with
            | none => simp
            | some as =>
              match as with
              | [] => simp
              | [m] => simp
              | m :: k :: ks =>
                simp only [List.getElem?_cons_succ, List.getElem?_cons_zero]
                by_cases en : n = k
                · subst en
                  simp only [not_true_eq_false, if_false]
                  cases b with
                  | none => simp
                  | some bs =>
                    dsimp only
                    by_cases eb : n :: l = bs
                    · subst eb
                      simp only [not_true_eq_false, if_false, true_iff]
                      exact ⟨n, l, m, ks, rfl, rfl, rfl, by omega, rfl⟩
                    · rw [if_pos eb]
                      constructor
                      · intro h'; cases h'
                      · rintro ⟨n', l', m', k', e1, -, e2, -⟩
                        cases e1; cases e2; exact absurd rfl eb
                · rw [if_pos en]
                  constructor
                  · intro h'; cases h'
                  · rintro ⟨n', l', m', k', e1, -, -, -, e2⟩
                    cases e1; cases e2; exact absurd rfl en
          · rw [if_pos ex]
            constructor
            · intro h'; cases h'
            · rintro ⟨n', l', m', k', e1, e2, -⟩
              cases e1; cases e2; exact absurd rfl ex

/-- Proper effects on two or more components are refused, and effects are accepted whose right-hand side has not the shape of the
left-hand side: here a 1×5 vector is assigned a 7×5 matrix. -/
theorem C108_linear_refuted : ¬ C108_linear_full ∧
    checkLinear (some [2, 1]) (some [2, 2]) (some [2, 1]) (some [2, 1]) = .error .representation ∧
    checkLinear (some [1, 5]) (some [7, 1]) (some [1, 5]) (some [1, 5]) = .ok () := by
  refine ⟨fun h => ?_, by decide, by decide⟩
  have := (h (some [2, 1]) (some [2, 2]) (some [2, 1]) (some [2, 1])).2 ⟨2, rfl, rfl, rfl, rfl⟩
  exact absurd this (by decide)

/-- The one proper size that is accepted is one component. -/
theorem C108_linear_scalar_partial (n : Nat) : checkLinear (some [n, 1]) (some [n, n]) (some [n, 1]) (some [n, 1]) = .ok () ↔ n ≤ 1 := by
  rw [C108_linear_partial]
  constructor
  · rintro ⟨n', l, m, k, e, -, -, h, -⟩
    cases e; exact h
  · intro h
    exact ⟨n, [1], n, [], rfl, rfl, rfl, h, rfl⟩

/-! ### Black-box effects -/

theorem checkOutputs_ok (outs : List Term) : ∀ (ys : List Term) (k : Nat),
    checkOutputs outs k ys = .ok () ↔ ∀ i y, ys[i]? = some y → outs[k + i]? = some y
  | [], k => by simp [checkOutputs]
  | y :: ys, k => by
    simp only [checkOutputs]
    cases h : outs[k]? with
    | none =>
      constructor
      · intro h'; cases h'
      · intro h'
        have := h' 0 y rfl
        rw [Nat.add_zero, h] at this; cases this
    | some o =>
      dsimp only
      by_cases e : y = o
      · subst e
        rw [if_pos ((refEq_iff _ _).2 rfl), checkOutputs_ok outs ys (k + 1)]
        constructor
        · intro h' i z hz
          cases i with
          | zero => cases hz; exact h
          | succ i => rw [show k + (i + 1) = k + 1 + i by omega]; exact h' i z hz
        · intro h' i z hz
          rw [show k + 1 + i = k + (i + 1) by omega]; exact h' (i + 1) z hz
      · rw [if_neg (fun h' => e (by simpa using (refEq_iff _ _).1 h'))]
        constructor
        · intro h'; cases h'
        · intro h'
          have := h' 0 y rfl
          rw [Nat.add_zero, h] at this
          exact absurd (Option.some.inj this).symm e

theorem checkOutputs_prefix (outs ys : List Term) : checkOutputs outs 0 ys = .ok () ↔ ys <+: outs := by
  rw [checkOutputs_ok, List.prefix_iff_getElem?]
  constructor
  · intro h i hi
    have := h i ys[i] (List.getElem?_eq_getElem hi)
    rwa [Nat.zero_add] at this
  · intro h i y hy
    obtain ⟨hi, rfl⟩ := List.getElem?_eq_some_iff.1 hy
    rw [Nat.zero_add]; exact h i hi

/-- C108, `BlackBoxEffect`: an effect on a two-dimensional left-hand side is accepted exactly if this is one non-empty column, and its
components are, in order, the first outputs of the function. -/
theorem C108_blackbox (n m : Nat) (col outs : List Term) :
    checkBlackBox ⟨some [n, m], col⟩ outs = .ok () ↔ m ≤ 1 ∧ col ≠ [] ∧ col <+: outs := by
  simp only [checkBlackBox, tupleAt, List.getElem?_cons_succ, List.getElem?_cons_zero]
  by_cases h : m > 1
  · rw [if_pos h]
    constructor
    · intro h'; cases h'
    · rintro ⟨h', -⟩; omega
  · rw [if_neg h]
    cases col with
    | nil => simp
    | cons y ys =>
      dsimp only
      rw [checkOutputs_prefix]
      exact ⟨fun h' => ⟨by omega, by simp, h'⟩, fun h' => h'.2.2⟩

/-- … and no effect on another kind of object is accepted. -/
theorem C108_blackbox_shape (l : BBLhs) (outs : List Term) (h : checkBlackBox l outs = .ok ()) : ∃ n m, l.shape = some [n, m] := by
  obtain ⟨s, col⟩ := l
  match s with
  | none => cases h
  | some [] => cases h
  | some [_] => cases h
  | some [n, m] => exact ⟨n, m, rfl⟩
  | some (n :: m :: k :: ks) =>
    simp only [checkBlackBox, tupleAt, List.getElem?_cons_succ, List.getElem?_cons_zero] at h
    by_cases h' : m > 1
    · rw [if_pos h'] at h; cases h
    · rw [if_neg h'] at h; cases h

/-- A component that is not the output of the function is reported as an invalid effect. -/
theorem C108_blackbox_mismatch (n : Nat) (pre ys outs : List Term) (y o : Term) (hp : pre <+: outs) (ho : outs[pre.length]? = some o)
    (hy : y ≠ o) : checkBlackBox ⟨some [n, 1], pre ++ y :: ys⟩ outs = .error .representation := by
  have key : ∀ (pre : List Term) (k : Nat), (∀ i z, pre[i]? = some z → outs[k + i]? = some z) → outs[k + pre.length]? = some o →
      checkOutputs outs k (pre ++ y :: ys) = .error .representation := by
    intro pre
    induction pre with
    | nil =>
      intro k _ hk
      rw [List.nil_append, checkOutputs, show outs[k]? = some o from hk]
      dsimp only
      rw [if_neg (fun h' => hy (by simpa using (refEq_iff _ _).1 h'))]
    | cons z zs ih =>
      intro k hz hk
      rw [List.cons_append, checkOutputs, show outs[k]? = some z from hz 0 z rfl]
      dsimp only
      rw [if_pos ((refEq_iff _ _).2 rfl)]
      refine ih (k + 1) (fun i w hw => ?_) ?_
      · rw [show k + 1 + i = k + (i + 1) by omega]; exact hz (i + 1) w hw
      · rw [show k + 1 + zs.length = k + (z :: zs).length by simp; omega]; exact hk
  have hp' : ∀ i z, pre[i]? = some z → outs[0 + i]? = some z := (checkOutputs_ok outs pre 0).1 ((checkOutputs_prefix outs pre).2 hp)
  have := key pre 0 hp' (by rw [Nat.zero_add]; exact ho)
  simp only [checkBlackBox, tupleAt, List.getElem?_cons_succ, List.getElem?_cons_zero]
  rw [if_neg (by omega)]
  cases hc : pre ++ y :: ys with
  | nil => simp at hc
  | cons a as =>
    dsimp only
    rw [← hc]; exact this

example : checkBlackBox ⟨some [2, 1], [.app "x" [], .app "v" []]⟩ [.app "x" [], .app "v" [], .app "a" []] = .ok () ∧
    checkBlackBox ⟨some [2, 1], [.app "x" [], .app "w" []]⟩ [.app "x" [], .app "v" []] = .error .representation ∧
    checkBlackBox ⟨some [2, 1], [.app "x" [], .app "v" []]⟩ [.app "x" []] = .error .index := by decide

/-! ### Choice effects and optimization types -/

/-- C108, `ChoiceEffect` accepts exactly the applications of function symbols as objectives. -/
theorem C108_choice (obj : XExpr) : (checkChoice obj = .ok () ↔ ∃ f ts, obj = .term (.app f ts)) ∧
    (checkChoice obj ≠ .ok () → checkChoice obj = .error .representation) := by
  match obj with
  | .term (.app f ts) => exact ⟨⟨fun _ => ⟨f, ts, rfl⟩, fun _ => rfl⟩, fun h => absurd rfl h⟩
  | .term (.var v) => exact ⟨⟨nofun, by rintro ⟨f, ts, h⟩; cases h⟩, fun _ => rfl⟩
  | .term (.const n s) => exact ⟨⟨nofun, by rintro ⟨f, ts, h⟩; cases h⟩, fun _ => rfl⟩
  | .term (.ite c a b) => exact ⟨⟨nofun, by rintro ⟨f, ts, h⟩; cases h⟩, fun _ => rfl⟩
  | .form g => exact ⟨⟨nofun, by rintro ⟨f, ts, h⟩; cases h⟩, fun _ => rfl⟩

/-- C108, optimization types: `from_string` is the inverse of `str`, and asserts that its argument is the text of a type. -/
theorem C108_opt_type : (∀ t : OptType, optFromString t.text = .ok t) ∧
    (∀ s t, optFromString s = .ok t → s = t.text) ∧ (∀ s, (∀ t : OptType, s ≠ t.text) → optFromString s = .error .assertion) := by
  refine ⟨fun t => by cases t <;> decide, fun s t h => ?_, fun s h => ?_⟩
  · simp only [optFromString] at h
    by_cases h1 : s = "minimize"
    · subst h1; simp at h; subst h; rfl
    · by_cases h2 : s = "maximize"
      · subst h2; simp at h; subst h; rfl
      · rw [if_neg (by simp [h1, h2])] at h; cases h
  · have h1 := h .minimize
    have h2 := h .maximize
    simp only [OptType.text] at h1 h2
    simp [optFromString, h1, h2]

end Tarski

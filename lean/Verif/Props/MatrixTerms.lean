import Mathlib.Tactic.Common
import Mathlib.Data.Matrix.Mul
import Mathlib.LinearAlgebra.Matrix.Notation
import Mathlib.Data.List.OfFn
import Mathlib.Algebra.BigOperators.Fin
import Verif.MatrixTerms
/-! C102: matrix terms. -/
namespace Tarski

/-! ### Specification -/

/-- The constant of sort Real with a value. -/
def realConst {F : Type} (x : F) : MConst F := ⟨.flt x, "Real"⟩

/-- The matrix term of a matrix of (real) numbers. -/
def realMat {F : Type} {n m : Nat} (A : Matrix (Fin n) (Fin m) F) : Mat (MConst F) := ⟨List.ofFn fun i => List.ofFn fun j => realConst (A i j), "Real"⟩

/-- The sum of the products, from the left, starting with `z`. -/
def dotFrom {F : Type} (O : Floats F) (z : F) {m : Nat} (x y : Fin m → F) : F := (List.ofFn fun k => O.mul (x k) (y k)).foldl O.add z

/-- Floating point numbers without rounding. -/
structure ExactNum {F : Type} [CommRing F] (O : Floats F) : Prop where
  add : ∀ a b, O.add a b = a + b
  sub : ∀ a b, O.sub a b = a - b
  mul : ∀ a b, O.mul a b = a * b
  ofInt : ∀ z, O.ofInt z = .ok (z : F)

/-- No partial sum and no product is outside of the bounds of the sort Real. -/
def DotInBounds {F : Type} (O : Floats F) (z : F) {m : Nat} (x y : Fin m → F) : Prop :=
  (∀ k, O.inBounds (O.mul (x k) (y k)) = true) ∧ ∀ l, l <+: (List.ofFn fun k => O.mul (x k) (y k)) → O.inBounds (l.foldl O.add z) = true

/-! ### Lists -/

theorem mapE_ofFn {α β : Type} {f : α → Except Err β} : ∀ {n : Nat} {g : Fin n → α} {h : Fin n → β}, (∀ i, f (g i) = .ok (h i)) → mapE f (List.ofFn g) = .ok (List.ofFn h)
  | 0, _, _, _ => by simp [mapE]
  | n + 1, g, h, hf => by
    rw [List.ofFn_succ, List.ofFn_succ]
    simp only [mapE, hf, mapE_ofFn fun i => hf i.succ]

theorem mapE_ofFn_inv {α β : Type} {f : α → Except Err β} : ∀ {n : Nat} {g : Fin n → α} {l : List β}, mapE f (List.ofFn g) = .ok l → ∃ h : Fin n → β, l = List.ofFn h ∧ ∀ i, f (g i) = .ok (h i)
  | 0, _, l, e => ⟨fun i => i.elim0, by simp [mapE] at e; simp [e], fun i => i.elim0⟩
  | n + 1, g, l, e => by
    rw [List.ofFn_succ] at e
    simp only [mapE] at e
    cases h1 : f (g 0) with
    | error e' => simp [h1] at e
    | ok b =>
      cases h2 : mapE f (List.ofFn fun i => g i.succ) with
      | error e' => simp [h1, h2] at e
      | ok bs =>
        simp only [h1, h2, Except.ok.injEq] at e
        obtain ⟨h, rfl, hh⟩ := mapE_ofFn_inv h2
        refine ⟨Fin.cons b h, by rw [← e, List.ofFn_cons], fun i => ?_⟩
        refine Fin.cases ?_ (fun i => ?_) i
        · simpa using h1
        · simpa using hh i

theorem mapRows_ofFn {α β : Type} {f : α → Except Err β} {n m : Nat} {g : Fin n → Fin m → α} {h : Fin n → Fin m → β} (hf : ∀ i j, f (g i j) = .ok (h i j)) :
    mapRows f (List.ofFn fun i => List.ofFn (g i)) = .ok (List.ofFn fun i => List.ofFn (h i)) :=
  mapE_ofFn fun i => mapE_ofFn (hf i)

theorem mapRows_ofFn_inv {α β : Type} {f : α → Except Err β} {n m : Nat} {g : Fin n → Fin m → α} {l : List (List β)} (e : mapRows f (List.ofFn fun i => List.ofFn (g i)) = .ok l) :
    ∃ h : Fin n → Fin m → β, l = (List.ofFn fun i => List.ofFn (h i)) ∧ ∀ i j, f (g i j) = .ok (h i j) := by
  obtain ⟨h, rfl, hh⟩ := mapE_ofFn_inv e
  have : ∀ i, ∃ k : Fin m → β, h i = List.ofFn k ∧ ∀ j, f (g i j) = .ok (k j) := fun i => mapE_ofFn_inv (hh i)
  choose k hk using this
  exact ⟨k, by congr 1; funext i; exact (hk i).1, fun i => (hk i).2⟩

theorem isGrid_ofFn {α : Type} {n m : Nat} (hn : 0 < n) (g : Fin n → Fin m → α) : isGrid (List.ofFn fun i => List.ofFn (g i)) = true := by
  obtain ⟨k, rfl⟩ : ∃ k, n = k + 1 := ⟨n - 1, by omega⟩
  rw [List.ofFn_succ]
  simp [isGrid, List.mem_ofFn]

theorem zipCols_ofFn {α : Type} {m : Nat} : ∀ {n : Nat} (g : Fin (n + 1) → Fin m → α), zipCols (List.ofFn fun i => List.ofFn (g i)) = List.ofFn fun j => List.ofFn fun i => g i j
  | 0, g => by
    simp only [List.ofFn_succ, List.ofFn_zero, zipCols, List.map_ofFn]
    rfl
  | n + 1, g => by
    rw [List.ofFn_succ]
    have ih := zipCols_ofFn fun i => g i.succ
    have : (List.ofFn fun i : Fin (n + 1) => List.ofFn (g i.succ)) ≠ [] := by simp
    have e : ∀ (r : List α) (rs : List (List α)), rs ≠ [] → zipCols (r :: rs) = List.zipWith List.cons r (zipCols rs) := by
      intro r rs h
      cases rs with
      | nil => exact absurd rfl h
      | cons s rs => rfl
    rw [e _ _ this, ih]
    apply List.ext_getElem
    · simp
    · intro k h1 h2
      simp [List.ofFn_succ]

theorem zipWith_ofFn' {α β γ : Type} {f : α → β → γ} {n : Nat} (g : Fin n → α) (h : Fin n → β) : List.zipWith f (List.ofFn g) (List.ofFn h) = List.ofFn fun i => f (g i) (h i) := by
  apply List.ext_getElem
  · simp
  · intro k h1 h2
    simp

/-! ### Scalars -/

section
variable {F : Type} {O : Floats F} {st : String → Option (MConst F)}

/-- The operators on two floating point numbers that cannot fail. -/
def floatOp (O : Floats F) : NOp → F → F → Except Err F
  | .add, a, b => .ok (O.add a b)
  | .sub, a, b => .ok (O.sub a b)
  | .mul, a, b => .ok (O.mul a b)
  | .div, a, b => O.div a b
  | .pow, a, b => O.pow a b
  | .mod, a, b => O.mod a b
  | .matmul, _, _ => .error .attribute

theorem arithConst_real (o : NOp) (a b : F) : arithConst O o (realConst a) (realConst b) = match floatOp O o a b with
    | .error e => .error e
    | .ok x => if O.inBounds x then .ok (realConst x) else .error .value := by
  cases o <;> simp only [arithConst, realConst, pyArith, pyArith.floats, PyNum.toFloat, floatOp]
  case add => simp [inferSort, mkNum, PyNum.toFloat]
  case sub => simp [inferSort, mkNum, PyNum.toFloat]
  case mul => simp [inferSort, mkNum, PyNum.toFloat]
  case div => cases O.div a b <;> simp [inferSort, mkNum, PyNum.toFloat]
  case pow => cases O.pow a b <;> simp [inferSort, mkNum, PyNum.toFloat]
  case mod => cases O.mod a b <;> simp [inferSort, mkNum, PyNum.toFloat]

theorem mkNum_real (n : PyNum F) : mkNum O n "Real" = match n.toFloat O with
    | .error e => .error e
    | .ok x => if O.inBounds x then .ok (realConst x) else .error .value := by
  unfold mkNum
  rw [if_pos rfl]
  cases n.toFloat O <;> rfl

/-- The evaluation of a scalar term over two evaluated terms. -/
theorem evS_op_real {o : NOp} {s t : STerm F} {a b : F} (hs : evS O st s = .ok (realConst a)) (ht : evS O st t = .ok (realConst b)) :
    evS O st (.op o s t) = match floatOp O o a b with
    | .error e => .error e
    | .ok x => if O.inBounds x then .ok (realConst x) else .error .value := by
  simp only [evS, hs, ht, arithConst_real]

theorem evS_foldl_ok : ∀ (ts : List (STerm F)) (xs : List F) {s : STerm F} {a : F}, evS O st s = .ok (realConst a) → List.Forall₂ (fun t x => evS O st t = .ok (realConst x)) ts xs →
    (∀ l, l <+: xs → l ≠ [] → O.inBounds (l.foldl O.add a) = true) → evS O st (ts.foldl (opTerm .add) s) = .ok (realConst (xs.foldl O.add a))
  | _, _, s, a, hs, .nil, _ => hs
  | t :: ts, x :: xs, s, a, hs, .cons ht hts, hb => by
    simp only [List.foldl_cons]
    apply evS_foldl_ok ts xs
    · rw [opTerm, evS_op_real hs ht]
      simp only [floatOp]
      have := hb [x] (by simp) (by simp)
      simp only [List.foldl_cons, List.foldl_nil] at this
      rw [this, if_pos rfl]
    · exact hts
    · intro l hl hne
      exact hb (x :: l) (by simpa using hl) (by simp)

theorem evS_foldl_err : ∀ (ts : List (STerm F)) {s : STerm F} {e : Err}, evS O st s = .error e → evS O st (ts.foldl (opTerm .add) s) = .error e
  | [], _, _, h => h
  | t :: ts, s, e, h => evS_foldl_err ts (by simp only [opTerm, evS, h])

theorem evS_foldl_inv : ∀ (ts : List (STerm F)) (f : STerm F → F) {s : STerm F} {a : F} {c : MConst F}, evS O st s = .ok (realConst a) →
    (∀ t ∈ ts, ∀ d, evS O st t = .ok d → d = realConst (f t)) →
    evS O st (ts.foldl (opTerm .add) s) = .ok c → c = realConst ((ts.map f).foldl O.add a)
  | [], _, s, a, c, hs, _, h => by
    simp only [List.foldl_nil] at h
    rw [hs] at h
    exact (Except.ok.inj h).symm
  | t :: ts, f, s, a, c, hs, ht, h => by
    simp only [List.foldl_cons] at h ⊢
    cases h1 : evS O st (opTerm .add s t) with
    | error e => rw [evS_foldl_err ts h1] at h; cases h
    | ok d =>
      have hd : d = realConst (O.add a (f t)) := by
        cases h2 : evS O st t with
        | error e => simp only [opTerm, evS, hs, h2] at h1; cases h1
        | ok d' =>
          have := ht t (by simp) d' h2
          subst this
          rw [opTerm, evS_op_real hs h2] at h1
          simp only [floatOp] at h1
          split at h1
          · exact (Except.ok.inj h1).symm
          · cases h1
      subst hd
      exact evS_foldl_inv ts f h1 (fun u hu => ht u (by simp [hu])) h

/-! ### Matrices of constants -/

theorem evMat_real {n m : Nat} (hn : 0 < n) {g : Fin n → Fin m → STerm F} {A : Matrix (Fin n) (Fin m) F} (h : ∀ i j, evS O st (g i j) = .ok (realConst (A i j))) :
    evMat O st ⟨List.ofFn fun i => List.ofFn (g i), "Real"⟩ = .ok (realMat A) := by
  unfold evMat
  simp only
  rw [mapRows_ofFn h]
  simp only [isGrid_ofFn hn, if_true]
  rw [mapRows_ofFn (h := fun i j => realConst (A i j))]
  · rfl
  · intro i j; simp [realConst]

theorem evMat_real_inv {n m : Nat} {g : Fin n → Fin m → STerm F} {r : Mat (MConst F)} (h : evMat O st ⟨List.ofFn fun i => List.ofFn (g i), "Real"⟩ = .ok r) :
    ∃ c : Fin n → Fin m → MConst F, r = ⟨List.ofFn fun i => List.ofFn (c i), "Real"⟩ ∧ (∀ i j, evS O st (g i j) = .ok (c i j)) ∧ 0 < n := by
  unfold evMat at h
  simp only at h
  cases h1 : mapRows (evS O st) (List.ofFn fun i => List.ofFn (g i)) with
  | error e => rw [h1] at h; cases h
  | ok rs =>
    rw [h1] at h
    obtain ⟨c, rfl, hc⟩ := mapRows_ofFn_inv h1
    dsimp only at h
    split at h
    · rename_i hg
      cases h2 : mapRows (fun c : MConst F => if c.sort ≠ "Real" then Except.error Err.syntactic else .ok c) (List.ofFn fun i => List.ofFn (c i)) with
      | error e => rw [h2] at h; cases h
      | ok rs =>
        rw [h2] at h
        obtain ⟨d, rfl, hd⟩ := mapRows_ofFn_inv h2
        have : d = c := by
          funext i j
          have := hd i j
          split at this
          · cases this
          · exact (Except.ok.inj this).symm
        subst this
        refine ⟨d, (Except.ok.inj h).symm, hc, ?_⟩
        rcases Nat.eq_zero_or_pos n with rfl | h
        · simp [isGrid] at hg
        · exact h
    · cases h

theorem mkMatrix_terms {n m : Nat} (hn : 0 < n) {g : Fin n → Fin m → STerm F} (hs : ∀ i j, (g i j).sort = "Real") :
    mkMatrix O (List.ofFn fun i => List.ofFn fun j => .inr (g i j)) "Real" = .ok ⟨List.ofFn fun i => List.ofFn (g i), "Real"⟩ := by
  unfold mkMatrix
  rw [isGrid_ofFn hn, if_pos rfl, mapRows_ofFn (h := g)]
  intro i j
  simp [matrixEntry, hs]

/-! ### Products -/

theorem sumTerms_real {m : Nat} {z : F} (hz : O.ofInt 0 = .ok z) (hb : O.inBounds z = true) (x y : Fin (m + 1) → F) :
    sumTerms O (List.zipWith (fun a b => opTerm .mul (.const a) (.const b)) (List.ofFn fun k => realConst (x k)) (List.ofFn fun k => realConst (y k))) =
      .ok (.inr ((List.ofFn fun k => opTerm .mul (.const (realConst (x k))) (.const (realConst (y k)))).foldl (opTerm .add) (.const (realConst z)))) := by
  rw [zipWith_ofFn', List.ofFn_succ]
  simp only [sumTerms, opTerm, STerm.sort, mkNum_real, PyNum.toFloat, hz, hb, if_true, List.foldl_cons]

theorem foldl_sort (ts : List (STerm F)) (s : STerm F) (hs : s.sort = "Real") : (ts.foldl (opTerm .add) s).sort = "Real" := by
  induction ts generalizing s with
  | nil => exact hs
  | cons t ts ih => exact ih _ rfl

/-- The term at a place of a product. -/
def dotTerm {m : Nat} (z : F) (x y : Fin m → F) : STerm F :=
  (List.ofFn fun k => opTerm .mul (.const (realConst (x k))) (.const (realConst (y k)))).foldl (opTerm .add) (.const (realConst z))

theorem symMul_real {n m p : Nat} {z : F} (hz : O.ofInt 0 = .ok z) (hb : O.inBounds z = true) (A : Matrix (Fin n) (Fin (m + 1)) F) (B : Matrix (Fin (m + 1)) (Fin p) F) (hn : 0 < n) :
    symMul O (realMat A) (realMat B) = .ok (List.ofFn fun i => List.ofFn fun j => .inr (dotTerm z (A i) fun k => B k j)) := by
  have hl : ((realMat A).rows.headD []).length = (realMat B).rows.length := by
    obtain ⟨k, rfl⟩ : ∃ k, n = k + 1 := ⟨n - 1, by omega⟩
    simp [realMat, List.ofFn_succ]
  unfold symMul
  rw [if_neg (not_not.mpr hl)]
  have e : ((realMat A).rows.map fun r => (zipCols (realMat B).rows).map fun c => (r, c)) =
      List.ofFn fun i => List.ofFn fun j => ((List.ofFn fun k => realConst (A i k)), (List.ofFn fun k => realConst (B k j))) := by
    simp only [realMat, zipCols_ofFn, List.map_ofFn]
    rfl
  rw [e]
  exact mapRows_ofFn fun i j => sumTerms_real hz hb _ _

theorem dotTerm_ok {m : Nat} {z : F} {x y : Fin m → F} (h : DotInBounds O z x y) : evS O st (dotTerm z x y) = .ok (realConst (dotFrom O z x y)) := by
  unfold dotTerm dotFrom
  apply evS_foldl_ok
  · rfl
  · rw [List.forall₂_iff_get]
    refine ⟨by simp, fun i h1 h2 => ?_⟩
    simp only [List.get_eq_getElem, List.getElem_ofFn, opTerm]
    rw [evS_op_real (by rfl) (by rfl)]
    simp only [floatOp]
    rw [h.1, if_pos rfl]
  · exact fun l hl _ => h.2 l hl

theorem dotTerm_inv {m : Nat} {z : F} {x y : Fin m → F} {c : MConst F} (h : evS O st (dotTerm z x y) = .ok c) : c = realConst (dotFrom O z x y) := by
  unfold dotTerm at h
  unfold dotFrom
  let f : STerm F → F := fun t => match t with
    | .op _ (.const ⟨.flt a, _⟩) (.const ⟨.flt b, _⟩) => O.mul a b
    | _ => z
  have := evS_foldl_inv (a := z) _ f (by rfl) ?_ h
  · rw [List.map_ofFn] at this
    exact this
  · intro t ht d hd
    rw [List.mem_ofFn] at ht
    obtain ⟨k, rfl⟩ := ht
    rw [opTerm, evS_op_real (by rfl) (by rfl)] at hd
    simp only [floatOp] at hd
    split at hd
    · exact (Except.ok.inj hd).symm
    · cases hd

/-- The product of two real matrices, with the rounding of the operations: whenever an evaluation returns, it returns the matrix with, at row `i`
and column `j`, the sum of the products of row `i` and column `j`. -/
theorem C102_product_rounded {n m p : Nat} {z : F} (hz : O.ofInt 0 = .ok z) (hb : O.inBounds z = true) {a b : MTerm F} {A : Matrix (Fin n) (Fin m) F} {B : Matrix (Fin m) (Fin p) F}
    (hn : 0 < n) (hm : 0 < m) (ha : evM O st a = .ok (.mat (realMat A))) (hB : evM O st b = .ok (.mat (realMat B))) :
    (∀ v, evM O st (.op .matmul a b) = .ok v → v = .mat (realMat fun i j => dotFrom O z (A i) fun k => B k j)) ∧
    ((∀ i j, DotInBounds O z (A i) fun k => B k j) → evM O st (.op .matmul a b) = .ok (.mat (realMat fun i j => dotFrom O z (A i) fun k => B k j))) := by
  obtain ⟨m, rfl⟩ : ∃ k, m = k + 1 := ⟨m - 1, by omega⟩
  have e : evM O st (.op .matmul a b) = evNew O st (.ok (List.ofFn fun i => List.ofFn fun j => .inr (dotTerm z (A i) fun k => B k j))) "Real" := by
    simp only [evM, ha, hB, arithVal, if_true, symMul_real hz hb A B hn]
    rfl
  rw [e]
  unfold evNew
  dsimp only
  rw [mkMatrix_terms hn (g := fun i j => dotTerm z (A i) fun k => B k j) fun i j => foldl_sort _ _ rfl]
  dsimp only
  constructor
  · intro v hv
    cases h1 : evMat O st ⟨List.ofFn fun i => List.ofFn fun j => dotTerm z (A i) fun k => B k j, "Real"⟩ with
    | error e => rw [h1] at hv; cases hv
    | ok r =>
      rw [h1] at hv
      obtain ⟨c, rfl, hc, -⟩ := evMat_real_inv h1
      have : v = _ := (Except.ok.inj hv).symm
      rw [this]
      unfold realMat
      congr
      funext i
      congr
      funext j
      exact dotTerm_inv (hc i j)
  · intro h
    rw [evMat_real hn fun i j => dotTerm_ok (h i j)]

/-- Two matrices whose inner dimensions differ: TypeError. -/
theorem C102_product_dims {n m m' p : Nat} {a b : MTerm F} {A : Matrix (Fin n) (Fin m) F} {B : Matrix (Fin m') (Fin p) F} (hn : 0 < n)
    (ha : evM O st a = .ok (.mat (realMat A))) (hB : evM O st b = .ok (.mat (realMat B))) (hm : m ≠ m') : evM O st (.op .matmul a b) = .error .typeError := by
  obtain ⟨k, rfl⟩ : ∃ k, n = k + 1 := ⟨n - 1, by omega⟩
  simp only [evM, ha, hB, arithVal, if_true, symMul]
  rw [if_pos (by simp [realMat, List.ofFn_succ, hm])]
  rfl

theorem dotFrom_exact [CommRing F] (hO : ExactNum O) {m : Nat} (x y : Fin m → F) : dotFrom O 0 x y = ∑ k, x k * y k := by
  unfold dotFrom
  have : O.add = (· + ·) := by funext a b; exact hO.add a b
  rw [this]
  simp only [hO.mul]
  rw [← List.sum_ofFn, List.sum_eq_foldl]

/-- Without rounding: any result is the product of the matrices. -/
theorem C102_product [CommRing F] (hO : ExactNum O) {n m p : Nat} (hb : O.inBounds 0 = true) {a b : MTerm F} {A : Matrix (Fin n) (Fin m) F} {B : Matrix (Fin m) (Fin p) F}
    (hn : 0 < n) (hm : 0 < m) (ha : evM O st a = .ok (.mat (realMat A))) (hB : evM O st b = .ok (.mat (realMat B))) :
    (∀ v, evM O st (.op .matmul a b) = .ok v → v = .mat (realMat (A * B))) ∧
    ((∀ i j, DotInBounds O 0 (A i) fun k => B k j) → evM O st (.op .matmul a b) = .ok (.mat (realMat (A * B)))) := by
  have hz : O.ofInt 0 = .ok 0 := by rw [hO.ofInt]; simp
  have e : (fun i j => dotFrom O 0 (A i) fun k => B k j) = A * B := by
    funext i j
    rw [dotFrom_exact hO, Matrix.mul_apply]
  have := C102_product_rounded hz hb hn hm ha hB
  rw [e] at this
  exact this

/-! ### Literals, and operations with a number -/

theorem realMat_const {n m : Nat} (A : Matrix (Fin n) (Fin m) F) : constMat (realMat A) = ⟨List.ofFn fun i => List.ofFn fun j => .const (realConst (A i j)), "Real"⟩ := by
  simp only [constMat, realMat, List.map_ofFn]
  congr
  funext i
  simp only [Function.comp_apply, List.map_ofFn]
  rfl

/-- A matrix of numbers is its own value. -/
theorem C102_literal {n m : Nat} (hn : 0 < n) (A : Matrix (Fin n) (Fin m) F) (hb : ∀ i j, O.inBounds (A i j) = true) :
    ∃ t, mkMatrix O (List.ofFn fun i => List.ofFn fun j => .inl (.flt (A i j))) "Real" = .ok t ∧ evM O st (.mat t) = .ok (.mat (realMat A)) := by
  refine ⟨constMat (realMat A), ?_, ?_⟩
  · rw [realMat_const]
    unfold mkMatrix
    rw [isGrid_ofFn hn, if_pos rfl, mapRows_ofFn]
    intro i j
    simp [matrixEntry, mkNum_real, PyNum.toFloat, hb]
  · rw [realMat_const]
    simp only [evM]
    rw [evMat_real hn (A := A) fun i j => rfl]

/-- A matrix with evaluated entries, of whatever terms. -/
theorem C102_entries {n m : Nat} (hn : 0 < n) {g : Fin n → Fin m → STerm F} {A : Matrix (Fin n) (Fin m) F} (h : ∀ i j, evS O st (g i j) = .ok (realConst (A i j))) :
    evM O st (.mat ⟨List.ofFn fun i => List.ofFn (g i), "Real"⟩) = .ok (.mat (realMat A)) := by
  simp only [evM]
  rw [evMat_real hn h]

/-- `+`, `-`, `*`, `/`, `**`, `%` of a matrix and a number are made on each entry: if an evaluation returns, every entry is the result for the
entry; and it returns if all these results exist and are within bounds. -/
theorem C102_number {n m : Nat} {o : NOp} (ho : o ≠ .matmul) {a b : MTerm F} {A : Matrix (Fin n) (Fin m) F} {c : MConst F} {x : F} (hn : 0 < n)
    (ha : evM O st a = .ok (.mat (realMat A))) (hB : evM O st b = .ok (.num c)) (hc : c.v.toFloat O = .ok x) (hx : O.inBounds x = true) :
    (∀ v, evM O st (.op o a b) = .ok v → ∃ R : Matrix (Fin n) (Fin m) F, v = .mat (realMat R) ∧ ∀ i j, floatOp O o (A i j) x = .ok (R i j)) ∧
    (∀ R : Matrix (Fin n) (Fin m) F, (∀ i j, floatOp O o (A i j) x = .ok (R i j) ∧ O.inBounds (R i j) = true) → evM O st (.op o a b) = .ok (.mat (realMat R))) := by
  have e : evM O st (.op o a b) = evNew O st (.ok (List.ofFn fun i => List.ofFn fun j => .inr (opTerm o (.const (realConst (A i j))) (.const (realConst x))))) "Real" := by
    simp only [evM, ha, hB, arithVal, if_neg ho]
    have : mapRows (fun a => (opRight O o c.v a).map (Sum.inr : STerm F → MEntry F)) (realMat A).rows = .ok (List.ofFn fun i => List.ofFn fun j => Sum.inr (opTerm o (.const (realConst (A i j))) (.const (realConst x)))) := by
      apply mapRows_ofFn
      intro i j
      have : mkNum O c.v "Real" = .ok (realConst x) := by rw [mkNum_real, hc]; simp [hx]
      simp [opRight, realConst, this, Except.map]
    rw [this]
    rfl
  rw [e]
  unfold evNew
  dsimp only
  rw [mkMatrix_terms hn (g := fun i j => opTerm o (.const (realConst (A i j))) (.const (realConst x))) fun i j => rfl]
  dsimp only
  constructor
  · intro v hv
    cases h1 : evMat O st ⟨List.ofFn fun i => List.ofFn fun j => opTerm o (.const (realConst (A i j))) (.const (realConst x)), "Real"⟩ with
    | error e => rw [h1] at hv; cases hv
    | ok r =>
      rw [h1] at hv
      obtain ⟨d, rfl, hd, -⟩ := evMat_real_inv h1
      have : ∀ i j, ∃ y, floatOp O o (A i j) x = .ok y ∧ d i j = realConst y := by
        intro i j
        have := hd i j
        rw [opTerm, evS_op_real (by rfl) (by rfl)] at this
        cases h2 : floatOp O o (A i j) x with
        | error e => rw [h2] at this; cases this
        | ok y =>
          rw [h2] at this
          dsimp only at this
          split at this
          · exact ⟨y, rfl, (Except.ok.inj this).symm⟩
          · cases this
      choose R hR using this
      refine ⟨R, ?_, fun i j => (hR i j).1⟩
      rw [← Except.ok.inj hv]
      unfold realMat
      congr
      funext i
      congr
      funext j
      exact (hR i j).2
  · intro R hR
    rw [evMat_real hn (A := R)]
    intro i j
    rw [opTerm, evS_op_real (by rfl) (by rfl), (hR i j).1]
    simp [(hR i j).2]

/-- The same with the number on the left, for `+`, `-`, `*` and `/`. -/
theorem C102_number_left_partial {n m : Nat} {o : NOp} (ho : o = .add ∨ o = .sub ∨ o = .mul ∨ o = .div) {a b : MTerm F} {A : Matrix (Fin n) (Fin m) F} {c : MConst F} {x : F} (hn : 0 < n)
    (ha : evM O st a = .ok (.num c)) (hB : evM O st b = .ok (.mat (realMat A))) (hc : c.v.toFloat O = .ok x) (hx : O.inBounds x = true) :
    (∀ v, evM O st (.op o a b) = .ok v → ∃ R : Matrix (Fin n) (Fin m) F, v = .mat (realMat R) ∧ ∀ i j, floatOp O o x (A i j) = .ok (R i j)) ∧
    (∀ R : Matrix (Fin n) (Fin m) F, (∀ i j, floatOp O o x (A i j) = .ok (R i j) ∧ O.inBounds (R i j) = true) → evM O st (.op o a b) = .ok (.mat (realMat R))) := by
  have ho1 : o ≠ .matmul := by rintro rfl; simp at ho
  have ho2 : ¬ (o = .pow ∨ o = .mod) := by rintro (rfl | rfl) <;> simp at ho
  have e : evM O st (.op o a b) = evNew O st (.ok (List.ofFn fun i => List.ofFn fun j => .inr (opTerm o (.const (realConst x)) (.const (realConst (A i j)))))) "Real" := by
    simp only [evM, ha, hB, arithVal, if_neg ho1]
    have : mapRows (fun a => (opLeft O o c.v a).map (Sum.inr : STerm F → MEntry F)) (realMat A).rows = .ok (List.ofFn fun i => List.ofFn fun j => Sum.inr (opTerm o (.const (realConst x)) (.const (realConst (A i j))))) := by
      apply mapRows_ofFn
      intro i j
      have : mkNum O c.v "Real" = .ok (realConst x) := by rw [mkNum_real, hc]; simp [hx]
      unfold opLeft
      rw [if_neg ho2]
      simp [realConst, this, Except.map]
    rw [this]
    rfl
  rw [e]
  unfold evNew
  dsimp only
  rw [mkMatrix_terms hn (g := fun i j => opTerm o (.const (realConst x)) (.const (realConst (A i j)))) fun i j => rfl]
  dsimp only
  constructor
  · intro v hv
    cases h1 : evMat O st ⟨List.ofFn fun i => List.ofFn fun j => opTerm o (.const (realConst x)) (.const (realConst (A i j))), "Real"⟩ with
    | error e => rw [h1] at hv; cases hv
    | ok r =>
      rw [h1] at hv
      obtain ⟨d, rfl, hd, -⟩ := evMat_real_inv h1
      have : ∀ i j, ∃ y, floatOp O o x (A i j) = .ok y ∧ d i j = realConst y := by
        intro i j
        have := hd i j
        rw [opTerm, evS_op_real (by rfl) (by rfl)] at this
        cases h2 : floatOp O o x (A i j) with
        | error e => rw [h2] at this; cases this
        | ok y =>
          rw [h2] at this
          dsimp only at this
          split at this
          · exact ⟨y, rfl, (Except.ok.inj this).symm⟩
          · cases this
      choose R hR using this
      refine ⟨R, ?_, fun i j => (hR i j).1⟩
      rw [← Except.ok.inj hv]
      unfold realMat
      congr
      funext i
      congr
      funext j
      exact (hR i j).2
  · intro R hR
    rw [evMat_real hn (A := R)]
    intro i j
    rw [opTerm, evS_op_real (by rfl) (by rfl), (hR i j).1]
    simp [(hR i j).2]

/-! ### What does not work -/

/-- `A + B`, `A - B`, `A * B`, ... of two matrices raise ValueError, whatever the matrices are. -/
theorem C102_sum_refuted {o : NOp} (ho : o ≠ .matmul) {a b : MTerm F} {A B : Mat (MConst F)} (ha : evM O st a = .ok (.mat A)) (hB : evM O st b = .ok (.mat B)) :
    evM O st (.op o a b) = .error .value := by
  simp only [evM, ha, hB, arithVal, if_neg ho]

/-- `x ** A` and `x % A` raise TypeError, although `A ** x` and `A % x` are computed. -/
theorem C102_number_left_refuted {o : NOp} (ho : o = .pow ∨ o = .mod) {n m : Nat} {a b : MTerm F} {A : Matrix (Fin n) (Fin m) F} {c : MConst F} (hn : 0 < n) (hm : 0 < m)
    (ha : evM O st a = .ok (.num c)) (hB : evM O st b = .ok (.mat (realMat A))) : evM O st (.op o a b) = .error .typeError := by
  have ho1 : o ≠ .matmul := by rintro rfl; simp at ho
  obtain ⟨n, rfl⟩ : ∃ k, n = k + 1 := ⟨n - 1, by omega⟩
  obtain ⟨m, rfl⟩ : ∃ k, m = k + 1 := ⟨m - 1, by omega⟩
  simp only [evM, ha, hB, arithVal, if_neg ho1]
  have : mapRows (fun a => (opLeft O o c.v a).map .inr) (realMat A).rows = (.error .typeError : Except Err (List (List (MEntry F)))) := by
    simp only [realMat, List.ofFn_succ, mapRows, mapE, opLeft, if_pos ho, Except.map]
  rw [this]
  rfl

/-- Matrices of integers cannot be multiplied: SyntacticError, as the products are terms of sort Real. -/
theorem C102_integer_refuted {n m p : Nat} {z : F} (hz : O.ofInt 0 = .ok z) (hb : O.inBounds z = true) (A : Fin (n + 1) → Fin (m + 1) → Int) (B : Fin (m + 1) → Fin (p + 1) → Int) {a b : MTerm F}
    (ha : evM O st a = .ok (.mat ⟨List.ofFn fun i => List.ofFn fun j => ⟨.int (A i j), "Integer"⟩, "Integer"⟩))
    (hB : evM O st b = .ok (.mat ⟨List.ofFn fun i => List.ofFn fun j => ⟨.int (B i j), "Integer"⟩, "Integer"⟩)) : evM O st (.op .matmul a b) = .error .syntactic := by
  simp only [evM, ha, hB, arithVal, if_true]
  have hs : symMul O ⟨List.ofFn fun i => List.ofFn fun j => ⟨.int (A i j), "Integer"⟩, "Integer"⟩ ⟨List.ofFn fun i => List.ofFn fun j => ⟨.int (B i j), "Integer"⟩, "Integer"⟩ =
      .ok (List.ofFn fun i => List.ofFn fun j => .inr ((List.ofFn fun k => opTerm .mul (.const ⟨.int (A i k), "Integer"⟩) (.const ⟨.int (B k j), "Integer"⟩)).foldl (opTerm .add) (.const (realConst z)))) := by
    unfold symMul
    rw [if_neg (by simp [List.ofFn_succ])]
    have e : ((List.ofFn fun i => List.ofFn fun j => (⟨.int (A i j), "Integer"⟩ : MConst F)).map fun r => (zipCols (List.ofFn fun i => List.ofFn fun j => (⟨.int (B i j), "Integer"⟩ : MConst F))).map fun c => (r, c)) =
        List.ofFn fun i => List.ofFn fun j => ((List.ofFn fun k => (⟨.int (A i k), "Integer"⟩ : MConst F)), (List.ofFn fun k => (⟨.int (B k j), "Integer"⟩ : MConst F))) := by
      simp only [zipCols_ofFn, List.map_ofFn]
      rfl
    dsimp only
    rw [e]
    refine mapRows_ofFn fun i j => ?_
    rw [zipWith_ofFn', List.ofFn_succ]
    simp only [sumTerms, opTerm, STerm.sort, mkNum_real, PyNum.toFloat, hz, hb, if_true, List.foldl_cons]
  rw [hs]
  unfold evNew mkMatrix
  dsimp only
  rw [isGrid_ofFn (by omega), if_pos rfl]
  have : ∀ (t : STerm F), t.sort = "Real" → matrixEntry O "Integer" (.inr t) = .error .syntactic := by
    intro t ht
    simp [matrixEntry, ht]
  rw [List.ofFn_succ, List.ofFn_succ]
  simp only [mapRows, mapE]
  rw [this _ (foldl_sort _ _ rfl)]

/-- A real matrix with the entry `1 + 1` (of integers): accepted, and SyntacticError when it is evaluated. -/
theorem C102_entry_refuted : mkMatrix O [[.inr (.op .add (.const ⟨.int 1, "Integer"⟩) (.const ⟨.int 1, "Integer"⟩))]] "Real" =
      .ok ⟨[[.op .add (.const ⟨.int 1, "Integer"⟩) (.const ⟨.int 1, "Integer"⟩)]], "Real"⟩ ∧
    evM O st (.mat ⟨[[.op .add (.const ⟨.int 1, "Integer"⟩) (.const ⟨.int 1, "Integer"⟩)]], "Real"⟩) = .error .syntactic := by
  constructor
  · simp [mkMatrix, isGrid, mapRows, mapE, matrixEntry, STerm.sort]
  · have h : evS O st (.op .add (.const ⟨.int 1, "Integer"⟩) (.const ⟨.int 1, "Integer"⟩)) = .ok ⟨.int 2, "Integer"⟩ := by
      simp [evS, arithConst, pyArith, inferSort, mkNum]
      decide
    simp [evM, evMat, mapRows, mapE, h, isGrid]

/-- A matrix with entries cannot be hashed. -/
theorem C102_hash_refuted {n m : Nat} (A : Matrix (Fin (n + 1)) (Fin (m + 1)) F) : matHash (constMat (realMat A)) = .error .typeError := by
  rw [realMat_const]
  simp [matHash, List.ofFn_succ]

end

/-- Only rows of the same length make a matrix, and there is a row. -/
theorem C102_rows {F : Type} (O : Floats F) (rows : List (List (MEntry F))) (sort : String) (t : Mat (STerm F)) (h : mkMatrix O rows sort = .ok t) :
    rows ≠ [] ∧ ∀ r ∈ rows, ∀ s ∈ rows, r.length = s.length := by
  unfold mkMatrix at h
  split at h
  · rename_i hg
    cases rows with
    | nil => simp [isGrid] at hg
    | cons a l =>
      simp only [isGrid, List.all_eq_true, beq_iff_eq] at hg
      have h1 : ∀ r ∈ a :: l, r.length = a.length := by
        intro r hr
        rcases List.mem_cons.1 hr with rfl | hr
        · rfl
        · exact hg r hr
      exact ⟨by simp, fun r hr s hs => (h1 r hr).trans (h1 s hs).symm⟩
  · cases h

/-- A vector of numbers is its own value: a column. -/
theorem C102_vector {F : Type} (O : Floats F) (st : String → Option (MConst F)) {n : Nat} (hn : 0 < n) (v : Fin n → F) (hb : ∀ i, O.inBounds (v i) = true) :
    ∃ t, mkVector O (List.ofFn fun i => .inl (.flt (v i))) "Real" = .ok t ∧ evM O st (.mat t) = .ok (.mat (realMat (fun i (_ : Fin 1) => v i))) := by
  have h := C102_literal (O := O) (st := st) hn (fun i (_ : Fin 1) => v i) (fun i _ => hb i)
  unfold mkVector
  rw [List.map_ofFn]
  simpa [List.ofFn_succ, Function.comp_def] using h

/-- An operation with a real number, on either side, gives a constant of the sort Real. -/
theorem C102_real_operand {F : Type} (O : Floats F) (st : String → Option (MConst F)) (o : NOp) (a b : STerm F) (x y c : MConst F) (hx : evS O st a = .ok x)
    (hy : evS O st b = .ok y) (hr : (∃ r, x.v = .flt r) ∨ ∃ r, y.v = .flt r) (h : evS O st (.op o a b) = .ok c) : c.sort = "Real" ∧ ∃ r, c.v = .flt r := by
  simp only [evS, hx, hy] at h
  unfold arithConst at h
  have key : ∀ r, pyArith O o x.v y.v = .ok r → ∃ q, r = .flt q := by
    intro r hp
    rcases hr with ⟨q, hq⟩ | ⟨q, hq⟩ <;> rw [hq] at hp
    · cases hv : y.v <;> rw [hv] at hp <;> simp only [pyArith, pyArith.floats] at hp <;> (repeat' split at hp) <;> simp_all <;> exact ⟨_, hp.symm⟩
    · cases hv : x.v <;> rw [hv] at hp <;> simp only [pyArith, pyArith.floats] at hp <;> (repeat' split at hp) <;> simp_all <;> exact ⟨_, hp.symm⟩
  split at h
  · cases h
  · rename_i r hp
    obtain ⟨q, rfl⟩ := key r hp
    simp only [inferSort, mkNum, PyNum.toFloat] at h
    simp only [if_true] at h
    split at h
    · cases h
      exact ⟨rfl, _, rfl⟩
    · cases h

/-- A matrix without entries can be hashed. -/
theorem C102_hash_empty {α : Type} (n : Nat) (s : String) : matHash (α := α) ⟨List.replicate n [], s⟩ = .ok () := by
  have : (List.replicate n ([] : List α)).flatten = [] := by simp
  simp [matHash, this]

/-- Syntactic equality of matrices is equality of shapes and entries. -/
theorem C102_equal {α : Type} {eq : α → α → Bool} (heq : ∀ x y, eq x y = true ↔ x = y) {n m n' m' : Nat} (hn : 0 < n) (hn' : 0 < n') (A : Fin n → Fin m → α) (B : Fin n' → Fin m' → α) (s s' : String) :
    matEqual eq ⟨List.ofFn fun i => List.ofFn (A i), s⟩ ⟨List.ofFn fun i => List.ofFn (B i), s'⟩ = true ↔
      n = n' ∧ m = m' ∧ ∀ i j h1 h2 h1' h2', A ⟨i, h1⟩ ⟨j, h2⟩ = B ⟨i, h1'⟩ ⟨j, h2'⟩ := by
  have hh : ∀ {k l : Nat} (hk : 0 < k) (C : Fin k → Fin l → α), ((List.ofFn fun i => List.ofFn (C i)).headD []).length = l := by
    intro k l hk C
    obtain ⟨k, rfl⟩ : ∃ j, k = j + 1 := ⟨k - 1, by omega⟩
    simp [List.ofFn_succ]
  unfold matEqual
  simp only [Bool.and_eq_true, decide_eq_true_eq, List.length_ofFn, hh hn, hh hn', and_assoc]
  constructor
  · rintro ⟨rfl, rfl, h⟩
    refine ⟨rfl, rfl, fun i j h1 h2 _ _ => ?_⟩
    rw [zipWith_ofFn'] at h
    simp only [zipWith_ofFn', List.all_eq_true, List.mem_ofFn, id_eq, forall_exists_index, forall_apply_eq_imp_iff] at h
    exact (heq _ _).1 (h ⟨i, h1⟩ ⟨j, h2⟩)
  · rintro ⟨rfl, rfl, h⟩
    refine ⟨rfl, rfl, ?_⟩
    rw [zipWith_ofFn']
    simp only [zipWith_ofFn', List.all_eq_true, List.mem_ofFn, id_eq, forall_exists_index, forall_apply_eq_imp_iff]
    exact fun i j => (heq _ _).2 (h i.1 j.1 _ _ _ _)

/-! ### A concrete case -/

/-- Numbers without rounding (only integers), bounded by 1000. -/
def exNums : Floats Int where
  add := (· + ·)
  sub := (· - ·)
  mul := (· * ·)
  div := fun _ _ => .error .zeroDivision
  pow := fun a b => .ok (a ^ b.toNat)
  mod := fun _ _ => .error .zeroDivision
  ofInt := fun z => .ok z
  toInt := some
  inBounds := fun z => decide (-1000 ≤ z ∧ z ≤ 1000)

theorem exNums_exact : ExactNum exNums := ⟨fun _ _ => rfl, fun _ _ => rfl, fun _ _ => rfl, fun _ => rfl⟩

/-- Non-vacuity: `[[1, 2], [3, 4]] @ [[x], [y]]` with `x = 5` and `y = 6`, then plus 1. -/
example : ∃ r, evM exNums (fun f => if f = "x" then some (realConst 5) else if f = "y" then some (realConst 6) else none)
      (.op .matmul (.mat ⟨[[.const (realConst 1), .const (realConst 2)], [.const (realConst 3), .const (realConst 4)]], "Real"⟩) (.mat ⟨[[.fn "x" "Real"], [.fn "y" "Real"]], "Real"⟩)) = .ok (.mat r) ∧
    r = realMat ((!![1, 2; 3, 4] : Matrix (Fin 2) (Fin 2) Int) * (!![5; 6] : Matrix (Fin 2) (Fin 1) Int)) ∧
    evM exNums (fun _ => none) (.op .add (.mat (constMat r)) (.scalar (.const ⟨.int 1, "Integer"⟩))) = .ok (.mat (realMat (!![18; 40] : Matrix (Fin 2) (Fin 1) Int))) :=
  ⟨⟨[[realConst 17], [realConst 39]], "Real"⟩, by rfl, by decide, by rfl⟩

/-! ### Transposition: specification -/

/-- A term with matrices: an array seen directly or transposed, or an arithmetic term. -/
inductive MTree where
  | mat (arr : Nat) (tr : Bool)
  | op (o : NOp) (l r : MTree)
deriving DecidableEq

/-- Object `a` is the term `t`; the list has the identities of its arithmetic terms. -/
inductive Unfolds (h : MHeap) : Nat → MTree → List Nat → Prop
  | mat {a arr tr} : h[a]? = some (.mat arr tr) → Unfolds h a (.mat arr tr) []
  | op {a o l r tl tr as bs} : h[a]? = some (.op o l r) → Unfolds h l tl as → Unfolds h r tr bs → Unfolds h a (.op o tl tr) (a :: (as ++ bs))

/-- The matrix that a term stands for, given the arrays: `+`, `-`, and `*` for the product. -/
inductive MeansMatrix {F : Type} [CommRing F] (arrs : Nat → List (List F)) : MTree → (n m : Nat) → Matrix (Fin n) (Fin m) F → Prop
  | mat {arr n m} {A : Matrix (Fin n) (Fin m) F} : arrs arr = (List.ofFn fun i => List.ofFn fun j => A i j) → MeansMatrix arrs (.mat arr false) n m A
  | matT {arr n m} {A : Matrix (Fin n) (Fin m) F} : arrs arr = (List.ofFn fun i => List.ofFn fun j => A i j) → MeansMatrix arrs (.mat arr true) m n A.transpose
  | add {l r n m A B} : MeansMatrix arrs l n m A → MeansMatrix arrs r n m B → MeansMatrix arrs (.op .add l r) n m (A + B)
  | sub {l r n m A B} : MeansMatrix arrs l n m A → MeansMatrix arrs r n m B → MeansMatrix arrs (.op .sub l r) n m (A - B)
  | mul {l r n k m A B} : MeansMatrix arrs l n k A → MeansMatrix arrs r k m B → MeansMatrix arrs (.op .mul l r) n m (A * B)

/-- The transposed term. -/
def MTree.flip : MTree → MTree
  | .mat arr tr => .mat arr (!tr)
  | .op .mul l r => .op .mul r.flip l.flip
  | .op o l r => .op o l.flip r.flip

/-- Made with `+`, `-` and `*`. -/
def MTree.Plain : MTree → Prop
  | .mat _ _ => True
  | .op o l r => (o = .add ∨ o = .sub ∨ o = .mul) ∧ l.Plain ∧ r.Plain

def MTree.depth : MTree → Nat
  | .mat _ _ => 1
  | .op _ l r => max l.depth r.depth + 1

/-! ### Transposition: proofs -/

theorem flip_means {F : Type} [CommRing F] {arrs : Nat → List (List F)} {t : MTree} {n m : Nat} {A : Matrix (Fin n) (Fin m) F} (h : MeansMatrix arrs t n m A) : MeansMatrix arrs t.flip m n A.transpose := by
  induction h with
  | mat h => exact .matT h
  | matT h => exact .mat h
  | add _ _ ih1 ih2 => rw [Matrix.transpose_add]; exact .add ih1 ih2
  | sub _ _ ih1 ih2 => rw [Matrix.transpose_sub]; exact .sub ih1 ih2
  | mul _ _ ih1 ih2 => rw [Matrix.transpose_mul]; exact .mul ih2 ih1

theorem Unfolds.isOp {h : MHeap} {a : Nat} {t : MTree} {as : List Nat} (hu : Unfolds h a t as) : ∀ b ∈ as, ∃ o l r, h[b]? = some (.op o l r) := by
  induction hu with
  | mat _ => simp
  | @op a o l r _ _ _ _ e _ _ ih1 ih2 =>
    intro b hb
    simp only [List.mem_cons, List.mem_append] at hb
    rcases hb with rfl | hb | hb
    · exact ⟨o, l, r, e⟩
    · exact ih1 b hb
    · exact ih2 b hb

/-- Terms do not change if their objects do not. -/
theorem Unfolds.frame {h h' : MHeap} {a : Nat} {t : MTree} {as S : List Nat} (hu : Unfolds h a t as) (hS : ∀ b ∈ S, ∃ o l r, h[b]? = some (.op o l r)) (hd : ∀ b ∈ as, b ∉ S)
    (hf : ∀ b x, b ∉ S → h[b]? = some x → h'[b]? = some x) : Unfolds h' a t as := by
  induction hu with
  | @mat a arr tr e =>
    refine .mat (hf a _ (fun ha => ?_) e)
    obtain ⟨o, l, r, e'⟩ := hS a ha
    rw [e] at e'
    cases e'
  | op e _ _ ih1 ih2 => exact .op (hf _ _ (hd _ (by simp)) e) (ih1 fun b hb => hd b (by simp [hb])) (ih2 fun b hb => hd b (by simp [hb]))

/-- What `transpose` does on a term that shares no arithmetic term. -/
theorem transpose_spec : ∀ (t : MTree), t.Plain → ∀ {n : Nat} {h : MHeap} {a : Nat} {as : List Nat}, t.depth ≤ n → Unfolds h a t as → as.Nodup →
    ∃ h' a' as', transposeM n h a = some (h', .ok a') ∧ Unfolds h' a' t.flip as' ∧ (∀ b ∈ as', b ∈ as) ∧ as'.Nodup ∧
      (∀ b x, b ∉ as → h[b]? = some x → h'[b]? = some x) ∧ (∀ b ∈ as, ∃ o l r, h'[b]? = some (.op o l r))
  | .mat arr tr, _, n, h, a, as, hn, hu, _ => by
    cases hu with
    | mat e =>
      obtain ⟨n, rfl⟩ : ∃ k, n = k + 1 := ⟨n - 1, by simp only [MTree.depth] at hn; omega⟩
      refine ⟨h ++ [.mat arr (!tr)], h.length, [], by simp only [transposeM, e], .mat (by simp), by simp, by simp, ?_, by simp⟩
      intro b x _ hb
      have := (List.getElem?_eq_some_iff.mp hb).1
      rw [List.getElem?_append_left this, hb]
  | .op o tl tr, hp, n, h, a, as, hn, hu, hnd => by
    cases hu with
    | @op _ _ l r _ _ as bs e hl hr =>
      obtain ⟨n, rfl⟩ : ∃ k, n = k + 1 := ⟨n - 1, by simp only [MTree.depth] at hn; omega⟩
      simp only [MTree.depth, Nat.add_le_add_iff_right] at hn
      simp only [MTree.Plain] at hp
      obtain ⟨ho, hpl, hpr⟩ := hp
      simp only [List.nodup_cons, List.mem_append, not_or, List.nodup_append] at hnd
      obtain ⟨⟨ha1, ha2⟩, hnd1, hnd2, hdis⟩ := hnd
      -- both orders of the two calls
      have key : ∀ (x y : Nat) (tx ty : MTree) (xs ys : List Nat), tx.Plain → ty.Plain → tx.depth ≤ n → ty.depth ≤ n → Unfolds h x tx xs → Unfolds h y ty ys → xs.Nodup → ys.Nodup →
          (∀ b ∈ xs, b ∉ ys) → a ∉ xs → a ∉ ys → (∀ {n h a as}, tx.depth ≤ n → Unfolds h a tx as → as.Nodup → ∃ h' a' as', transposeM n h a = some (h', .ok a') ∧ Unfolds h' a' tx.flip as' ∧ (∀ b ∈ as', b ∈ as) ∧ as'.Nodup ∧
            (∀ b x, b ∉ as → h[b]? = some x → h'[b]? = some x) ∧ (∀ b ∈ as, ∃ o l r, h'[b]? = some (.op o l r))) →
          (∀ {n h a as}, ty.depth ≤ n → Unfolds h a ty as → as.Nodup → ∃ h' a' as', transposeM n h a = some (h', .ok a') ∧ Unfolds h' a' ty.flip as' ∧ (∀ b ∈ as', b ∈ as) ∧ as'.Nodup ∧
            (∀ b x, b ∉ as → h[b]? = some x → h'[b]? = some x) ∧ (∀ b ∈ as, ∃ o l r, h'[b]? = some (.op o l r))) →
          ∃ h' as', transposeBoth (transposeM n) h a o x y = some (h', .ok a) ∧ Unfolds h' a (.op o tx.flip ty.flip) as' ∧ (∀ b ∈ as', b = a ∨ b ∈ xs ∨ b ∈ ys) ∧ as'.Nodup ∧
            (∀ b x, b ≠ a → b ∉ xs → b ∉ ys → h[b]? = some x → h'[b]? = some x) ∧ (∀ b, b = a ∨ b ∈ xs ∨ b ∈ ys → ∃ o l r, h'[b]? = some (.op o l r)) := by
        intro x y tx ty xs ys hpx hpy hdx hdy hx hy hnx hny hxy hax hay ihx ihy
        obtain ⟨h1, x', xs', c1, u1, s1, d1, f1, o1⟩ := ihx hdx hx hnx
        have hy1 : Unfolds h1 y ty ys := hy.frame (S := xs) hx.isOp (fun b hb hb' => hxy b hb' hb) f1
        obtain ⟨h2, y', ys', c2, u2, s2, d2, f2, o2⟩ := ihy hdy hy1 hny
        have hx2 : Unfolds h2 x' tx.flip xs' := u1.frame (S := ys) hy1.isOp (fun b hb => hxy b (s1 b hb)) f2
        have ea : h2[a]? = some (.op o l r) := f2 a _ hay (f1 a _ hax e)
        have hlen : a < h2.length := (List.getElem?_eq_some_iff.mp ea).1
        have fr : ∀ b x, b ∉ [a] → h2[b]? = some x → (h2.set a (.op o x' y'))[b]? = some x := by
          intro b x hb hb'
          rw [List.getElem?_set_ne (by simpa [eq_comm] using hb), hb']
        have Sop : ∀ b ∈ [a], ∃ o l r, h2[b]? = some (.op o l r) := by
          intro b hb
          simp only [List.mem_singleton] at hb
          subst hb
          exact ⟨o, l, r, ea⟩
        refine ⟨h2.set a (.op o x' y'), a :: (xs' ++ ys'), by simp only [transposeBoth, c1, c2], .op (by simp [hlen])
          (hx2.frame Sop (fun b hb hb' => ?_) fr) (u2.frame Sop (fun b hb hb' => ?_) fr), ?_, ?_, ?_, ?_⟩
        · simp only [List.mem_singleton] at hb'; subst hb'; exact hax (s1 _ hb)
        · simp only [List.mem_singleton] at hb'; subst hb'; exact hay (s2 _ hb)
        · intro b hb
          simp only [List.mem_cons, List.mem_append] at hb
          rcases hb with rfl | hb | hb
          · exact .inl rfl
          · exact .inr (.inl (s1 b hb))
          · exact .inr (.inr (s2 b hb))
        · simp only [List.nodup_cons, List.mem_append, not_or, List.nodup_append]
          refine ⟨⟨fun hb => hax (s1 _ hb), fun hb => hay (s2 _ hb)⟩, d1, d2, ?_⟩
          intro b hb c hc hbc
          subst hbc
          exact hxy b (s1 b hb) (s2 b hc)
        · intro b z hba hbx hby hb
          exact fr b z (by simpa using hba) (f2 b z hby (f1 b z hbx hb))
        · intro b hb
          by_cases hba : b = a
          · subst hba
            exact ⟨o, x', y', by simp [hlen]⟩
          · rw [List.getElem?_set_ne (fun h => hba h.symm)]
            rcases hb with rfl | hb | hb
            · exact absurd rfl hba
            · obtain ⟨o', l', r', e'⟩ := o1 b hb
              exact ⟨o', l', r', f2 b _ (hxy b hb) e'⟩
            · exact o2 b hb
      have hxy : ∀ b ∈ as, b ∉ bs := fun b hb hb' => hdis b hb b hb' rfl
      by_cases hmul : o = .mul
      · subst hmul
        obtain ⟨h', as', c, u, s, d, f, q⟩ := key r l tr tl bs as hpr hpl (by omega) (by omega) hr hl hnd2 hnd1 (fun b hb hb' => hxy b hb' hb) ha2 ha1
          (fun hn hu hnd => transpose_spec tr hpr hn hu hnd) (fun hn hu hnd => transpose_spec tl hpl hn hu hnd)
        refine ⟨h', a, as', ?_, u, ?_, d, ?_, ?_⟩
        · simp only [transposeM, e]
          exact c
        · intro b hb; have := s b hb; simp only [List.mem_cons, List.mem_append]; tauto
        · intro b x hb; simp only [List.mem_cons, List.mem_append, not_or] at hb; exact f b x hb.1 hb.2.2 hb.2.1
        · intro b hb; simp only [List.mem_cons, List.mem_append] at hb; exact q b (by tauto)
      · obtain ⟨h', as', c, u, s, d, f, q⟩ := key l r tl tr as bs hpl hpr (by omega) (by omega) hl hr hnd1 hnd2 hxy ha1 ha2
          (fun hn hu hnd => transpose_spec tl hpl hn hu hnd) (fun hn hu hnd => transpose_spec tr hpr hn hu hnd)
        have hadd : o = .add ∨ o = .sub := by tauto
        refine ⟨h', a, as', ?_, ?_, ?_, d, ?_, ?_⟩
        · simp only [transposeM, e, if_pos hadd]
          exact c
        · rcases hadd with rfl | rfl <;> exact u
        · intro b hb; have := s b hb; simp only [List.mem_cons, List.mem_append]; tauto
        · intro b x hb; simp only [List.mem_cons, List.mem_append, not_or] at hb; exact f b x hb.1 hb.2.1 hb.2.2
        · intro b hb; simp only [List.mem_cons, List.mem_append] at hb; exact q b (by tauto)

theorem transpose_more : ∀ {n k : Nat} {h : MHeap} {a : Nat} {r}, n ≤ k → transposeM n h a = some r → transposeM k h a = some r
  | 0, _, _, _, _, _, e => by simp [transposeM] at e
  | n + 1, k, h, a, r, hk, e => by
    obtain ⟨k, rfl⟩ : ∃ j, k = j + 1 := ⟨k - 1, by omega⟩
    have two : ∀ (o : NOp) (x y : Nat), transposeBoth (transposeM n) h a o x y = some r → transposeBoth (transposeM k) h a o x y = some r := by
      intro o x y e
      unfold transposeBoth at e ⊢
      cases h1 : transposeM n h x with
      | none => simp [h1] at e
      | some r1 =>
        rw [transpose_more (by omega) h1]
        rw [h1] at e
        obtain ⟨g1, _ | x'⟩ := r1
        · exact e
        · dsimp only at e ⊢
          cases h2 : transposeM n g1 y with
          | none => simp [h2] at e
          | some r2 =>
            rw [transpose_more (by omega) h2]
            rw [h2] at e
            exact e
    unfold transposeM at e ⊢
    split at e
    · exact e
    · split at e
      · rename_i ho
        rw [if_pos ho]
        exact two _ _ _ e
      · rename_i ho
        rw [if_neg ho]
        split at e
        · rename_i ho
          rw [if_pos ho]
          exact two _ _ _ e
        · rename_i ho
          rw [if_neg ho]
          exact e
    · exact e
    · exact e

/-- Transposition: a term made with `+`, `-` and `*` of matrices, in which no arithmetic term occurs twice as the same object, is turned into a term
for the transposed matrix. -/
theorem C102_transpose_partial {F : Type} [CommRing F] {arrs : Nat → List (List F)} {h : MHeap} {a : Nat} {t : MTree} {as : List Nat} (hu : Unfolds h a t as) (hnd : as.Nodup) (hp : t.Plain)
    {n m : Nat} {A : Matrix (Fin n) (Fin m) F} (hA : MeansMatrix arrs t n m A) :
    ∃ h' a' t' as', (∀ k, t.depth ≤ k → transposeM k h a = some (h', .ok a')) ∧ Unfolds h' a' t' as' ∧ MeansMatrix arrs t' m n A.transpose := by
  obtain ⟨h', a', as', c, u, -⟩ := transpose_spec t hp (Nat.le_refl _) hu hnd
  refine ⟨h', a', t.flip, as', fun k hk => ?_, u, flip_means hA⟩
  exact transpose_more hk c

/-- Non-vacuity: `(A + B) * C` with the arrays 0, 1, 2. -/
example : ∃ h a, Unfolds [.mat 0 false, .mat 1 false, .op .add 0 1, .mat 2 false, .op .mul 2 3] 4 (.op .mul (.op .add (.mat 0 false) (.mat 1 false)) (.mat 2 false)) [4, 2] ∧
    transposeM 3 [.mat 0 false, .mat 1 false, .op .add 0 1, .mat 2 false, .op .mul 2 3] 4 = some (h, .ok a) ∧
    Unfolds h a (.op .mul (.mat 2 true) (.op .add (.mat 0 true) (.mat 1 true))) [4, 2] := by
  refine ⟨_, _, .op (as := [2]) (bs := []) rfl (.op (as := []) (bs := []) rfl (.mat rfl) (.mat rfl)) (.mat rfl), rfl, ?_⟩
  exact .op (as := []) (bs := [2]) rfl (.mat rfl) (.op (as := []) (bs := []) rfl (.mat rfl) (.mat rfl))

/-- A shared term is transposed twice: with `x = A + B`, the transposed of `x + x` is `x + x`. -/
theorem C102_shared_refuted : ∃ h', transposeM 3 [.mat 0 false, .mat 1 false, .op .add 0 1, .op .add 2 2] 3 = some (h', .ok 3) ∧
    Unfolds h' 3 (.op .add (.op .add (.mat 0 false) (.mat 1 false)) (.op .add (.mat 0 false) (.mat 1 false))) [3, 2, 2] := by
  refine ⟨_, rfl, ?_⟩
  exact .op (as := [2]) (bs := [2]) rfl (.op (as := []) (bs := []) rfl (.mat rfl) (.mat rfl)) (.op (as := []) (bs := []) rfl (.mat rfl) (.mat rfl))

/-- The argument is changed: after `transpose(A + B)`, the given term is the transposed one, so that it stands for another matrix. -/
theorem C102_argument_refuted : ∃ h', transposeM 2 [.mat 0 false, .mat 1 false, .op .add 0 1] 2 = some (h', .ok 2) ∧ Unfolds h' 2 (.op .add (.mat 0 true) (.mat 1 true)) [2] := by
  refine ⟨_, rfl, ?_⟩
  exact .op (as := []) (bs := []) rfl (.mat rfl) (.mat rfl)

/-- A failed call leaves changes: `transpose((A + B) + c)` raises ValueError, and `A + B` is transposed. -/
theorem C102_failed_refuted : ∃ h', transposeM 3 [.mat 0 false, .mat 1 false, .op .add 0 1, .leaf, .op .add 2 3] 4 = some (h', .error .value) ∧ Unfolds h' 2 (.op .add (.mat 0 true) (.mat 1 true)) [2] := by
  refine ⟨_, rfl, ?_⟩
  exact .op (as := []) (bs := []) rfl (.mat rfl) (.mat rfl)

/-- Scalars have no transposed, and products made with `@` neither. -/
theorem C102_scalar_refuted (n : Nat) (h : MHeap) (a : Nat) : (h[a]? = some .leaf → transposeM (n + 1) h a = some (h, .error .value)) ∧
    ∀ l r, h[a]? = some (.op .matmul l r) → transposeM (n + 1) h a = some (h, .error .syntactic) := by
  refine ⟨fun e => by simp only [transposeM, e], fun l r e => ?_⟩
  simp [transposeM, e]

/-- The transposed matrix sees the array of the matrix: an assignment to one changes the other. -/
theorem C102_view_refuted {α : Type} {n : Nat} {h : MHeap} {a arr : Nat} {tr : Bool} (e : h[a]? = some (.mat arr tr)) : ∃ h' b, transposeM (n + 1) h a = some (h', .ok b) ∧
    h'[a]? = some (.mat arr tr) ∧ h'[b]? = some (.mat arr (!tr)) ∧
    ∀ (arrs : Nat → List (List α)) (i j : Nat) (x : α), (getEntry arrs arr tr i j).isSome → getEntry (setEntry arrs arr (!tr) j i x) arr tr i j = some x := by
  refine ⟨h ++ [.mat arr (!tr)], h.length, by simp only [transposeM, e], ?_, by simp, ?_⟩
  · rw [List.getElem?_append_left (List.getElem?_eq_some_iff.mp e).1, e]
  · intro arrs i j x hi
    cases tr
    · simp only [getEntry, setEntry, Bool.not_false, if_true, Bool.false_eq_true, if_false, List.getElem?_modify, if_true] at hi ⊢
      cases h1 : (arrs arr)[i]? with
      | none => simp [h1] at hi
      | some r =>
        simp only [h1, Option.bind_some] at hi
        obtain ⟨y, hy⟩ := Option.isSome_iff_exists.mp hi
        simp [(List.getElem?_eq_some_iff.mp hy).1]
    · simp only [getEntry, setEntry, Bool.not_true, if_true, Bool.false_eq_true, if_false, List.getElem?_modify, if_true] at hi ⊢
      cases h1 : (arrs arr)[j]? with
      | none => simp [h1] at hi
      | some r =>
        simp only [h1, Option.bind_some] at hi
        obtain ⟨y, hy⟩ := Option.isSome_iff_exists.mp hi
        simp [(List.getElem?_eq_some_iff.mp hy).1]

end Tarski

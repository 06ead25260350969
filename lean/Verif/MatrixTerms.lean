import Verif.Evaluator
/-! Model of matrix terms: /repo/src/tarski/syntax/algebra/matrix.py, their evaluation in /repo/src/tarski/evaluators/simple.py:77-90, 132-143,
179-211 and their transposition in /repo/src/tarski/syntax/arithmetic/__init__.py:135-159. -/
namespace Tarski

/-- What is used of Python's `float` type: the operators, the conversion from integers, `is_integer` with the conversion to integers, and the bounds
of the sort Real (sorts.py:229-232). -/
structure Floats (F : Type) where
  add : F → F → F
  sub : F → F → F
  mul : F → F → F
  div : F → F → Except Err F
  pow : F → F → Except Err F
  mod : F → F → Except Err F
  ofInt : Int → Except Err F
  toInt : F → Option Int
  inBounds : F → Bool

/-- A Python number -/
inductive PyNum (F : Type) where
  | int (z : Int)
  | flt (x : F)
deriving DecidableEq

/-- A numeric constant: its value and the name of its sort. -/
structure MConst (F : Type) where
  v : PyNum F
  sort : String
deriving DecidableEq

/-- The binary arithmetic functions (builtins.py:21-27). -/
inductive NOp where
  | add | sub | mul | matmul | div | pow | mod
deriving DecidableEq

/-- Scalar terms: constants, variables, the value of a function without arguments, and arithmetic terms. -/
inductive STerm (F : Type) where
  | const (c : MConst F)
  | var (s : String) (sort : String)
  | fn (f : String) (sort : String)
  | op (o : NOp) (a b : STerm F)

/-- `term.sort`: arithmetic terms are of sort Real (theories.py:91-106). -/
def STerm.sort {F} : STerm F → String
  | .const c => c.sort
  | .var _ s => s
  | .fn _ s => s
  | .op _ _ _ => "Real"

/-- `float(n)` -/
def PyNum.toFloat {F} (O : Floats F) : PyNum F → Except Err F
  | .int z => O.ofInt z
  | .flt x => .ok x

/-- `Constant(n, sort)` for the sorts Real and Integer: the value is cast (sorts.py:105-117, 195-202; terms.py:308-314). A sort that is no
interval is not modelled (KeyError stands for it). -/
def mkNum {F} (O : Floats F) (n : PyNum F) (sort : String) : Except Err (MConst F) :=
  if sort = "Real" then match n.toFloat O with
    | .error e => .error e
    | .ok x => if O.inBounds x then .ok ⟨.flt x, sort⟩ else .error .value
  else if sort = "Integer" then
    match (match n with | .int z => some z | .flt x => O.toInt x) with
    | none => .error .value
    | some z => if theIntegers.contains z then .ok ⟨.int z, sort⟩ else .error .value
  else .error .keyError

/-- `operator.add`, ... on two numbers: integers with integers give integers, except `/` and negative exponents; `operator.matmul` is replaced by
`symbolic_matrix_multiplication`, which looks for the shape of a number (simple.py:133). The quotient of two integers is computed after their
conversion (a simplification: Python rounds once). -/
def pyArith {F} (O : Floats F) (o : NOp) : PyNum F → PyNum F → Except Err (PyNum F)
  | .int a, .int b => match o with
    | .add => .ok (.int (a + b))
    | .sub => .ok (.int (a - b))
    | .mul => .ok (.int (a * b))
    | .matmul => .error .attribute
    | .mod => if b = 0 then .error .zeroDivision else .ok (.int (Int.fmod a b))
    | .pow => if 0 ≤ b then .ok (.int (a ^ b.toNat)) else floats O.pow (.int a) (.int b)
    | .div => floats O.div (.int a) (.int b)
  | x, y => match o with
    | .add => floats (fun a b => .ok (O.add a b)) x y
    | .sub => floats (fun a b => .ok (O.sub a b)) x y
    | .mul => floats (fun a b => .ok (O.mul a b)) x y
    | .matmul => .error .attribute
    | .mod => floats O.mod x y
    | .pow => floats O.pow x y
    | .div => floats O.div x y
where
  floats (f : F → F → Except Err F) (x y : PyNum F) : Except Err (PyNum F) :=
    match x.toFloat O with
    | .error e => .error e
    | .ok a => match y.toFloat O with
      | .error e => .error e
      | .ok b => match f a b with
        | .error e => .error e
        | .ok r => .ok (.flt r)

/-- `infer_numeric_sort` (ops.py:40-45). -/
def inferSort {F} : PyNum F → String
  | .int _ => "Integer"
  | .flt _ => "Real"

/-- The end of `_arithmetic_evaluator_2` (simple.py:209-211). -/
def arithConst {F} (O : Floats F) (o : NOp) (a b : MConst F) : Except Err (MConst F) :=
  match pyArith O o a.v b.v with
  | .error e => .error e
  | .ok r => mkNum O r (inferSort r)

/-- Models `evaluate_term` on scalar terms (simple.py:91-115, 190-211); `st` gives the values of the functions in the state. -/
def evS {F} (O : Floats F) (st : String → Option (MConst F)) : STerm F → Except Err (MConst F)
  | .const c => .ok c
  | .var _ _ => .error .assertion
  | .fn f _ => match st f with
    | none => .error .undefinedTerm
    | some c => .ok c
  | .op o a b => match evS O st a with
    | .error e => .error e
    | .ok x => match evS O st b with
      | .error e => .error e
      | .ok y => arithConst O o x y

/-- A matrix: its entries by rows, and its sort. Arrays with no row are not modelled. -/
structure Mat (α : Type) where
  rows : List (List α)
  sort : String
deriving DecidableEq

/-- `f` on each element, left to right, up to the first exception. -/
def mapE {α β : Type} (f : α → Except Err β) : List α → Except Err (List β)
  | [] => .ok []
  | a :: as => match f a with
    | .error e => .error e
    | .ok b => match mapE f as with
      | .error e => .error e
      | .ok bs => .ok (b :: bs)

/-- `f` on each entry, row by row. -/
def mapRows {α β : Type} (f : α → Except Err β) (rows : List (List α)) : Except Err (List (List β)) := mapE (mapE f) rows

/-- `N, M = self.matrix.shape` after `np.array(rows, dtype=object)` (matrix.py:10-13): rows of different lengths, or no row, give an array
that is not two-dimensional, and ValueError. -/
def isGrid {α : Type} : List (List α) → Bool
  | [] => false
  | r :: rs => rs.all fun s => s.length == r.length

/-- What `Matrix(...)` is given: numbers or terms. -/
abbrev MEntry (F : Type) := PyNum F ⊕ STerm F

/-- The loop body of `Matrix.__init__` (matrix.py:16-25). -/
def matrixEntry {F} (O : Floats F) (sort : String) : MEntry F → Except Err (STerm F)
  | .inr t => if t.sort ≠ sort then .error .syntactic else .ok t
  | .inl n => match mkNum O n sort with
    | .error e => .error e
    | .ok c => .ok (.const c)

/-- Models `Matrix.__init__` (matrix.py:8-25). -/
def mkMatrix {F} (O : Floats F) (rows : List (List (MEntry F))) (sort : String) : Except Err (Mat (STerm F)) :=
  if isGrid rows then match mapRows (matrixEntry O sort) rows with
    | .error e => .error e
    | .ok rs => .ok ⟨rs, sort⟩
  else .error .value

/-- Models `vector` (fol.py:270-272) on at least one element. -/
def mkVector {F} (O : Floats F) (l : List (MEntry F)) (sort : String) : Except Err (Mat (STerm F)) := mkMatrix O (l.map fun x => [x]) sort

/-- Terms with matrices: entries of matrices are scalars (a simplification). -/
inductive MTerm (F : Type) where
  | scalar (s : STerm F)
  | mat (m : Mat (STerm F))
  | op (o : NOp) (a b : MTerm F)

/-- The result of an evaluation -/
inductive MVal (F : Type) where
  | num (c : MConst F)
  | mat (m : Mat (MConst F))

/-- The constants of a matrix (all entries of the result of an evaluation are constants). -/
def constMat {F} (m : Mat (MConst F)) : Mat (STerm F) := ⟨m.rows.map (·.map .const), m.sort⟩

/-- Models `evaluate_term` on a matrix (simple.py:81-87): the evaluated entries make a new matrix of the same sort, which checks their sorts. -/
def evMat {F} (O : Floats F) (st : String → Option (MConst F)) (m : Mat (STerm F)) : Except Err (Mat (MConst F)) :=
  match mapRows (evS O st) m.rows with
  | .error e => .error e
  | .ok rs => if isGrid rs then
      match mapRows (fun c : MConst F => if c.sort ≠ m.sort then Except.error Err.syntactic else .ok c) rs with
      | .error e => .error e
      | .ok rs => .ok ⟨rs, m.sort⟩
    else .error .value

/-- `lhs + rhs`, ... for a term and a term (terms.py:66-101). -/
def opTerm {F} (o : NOp) (a b : STerm F) : STerm F := .op o a b

/-- `term op number` (ops.py:17-26, terms.py:66-101): the number becomes a constant of the sort of the term. -/
def opRight {F} (O : Floats F) (o : NOp) (n : PyNum F) (a : MConst F) : Except Err (STerm F) :=
  match mkNum O n a.sort with
  | .error e => .error e
  | .ok c => .ok (opTerm o (.const a) (.const c))

/-- `number op term` (ops.py:31-32, terms.py:81-91): there is no `__rpow__` and no `__rmod__`, so TypeError. -/
def opLeft {F} (O : Floats F) (o : NOp) (n : PyNum F) (a : MConst F) : Except Err (STerm F) :=
  if o = .pow ∨ o = .mod then .error .typeError
  else match mkNum O n a.sort with
    | .error e => .error e
    | .ok c => .ok (opTerm o (.const c) (.const a))

/-- `zip(*rows)`: the columns, as many as the shortest row has. -/
def zipCols {α : Type} : List (List α) → List (List α)
  | [] => []
  | [r] => r.map fun a => [a]
  | r :: rs => List.zipWith List.cons r (zipCols rs)

/-- `sum(a * b for a, b in zip(row, col))`: the sum starts with the number 0, which becomes a constant of sort Real. The empty sum is the number 0. -/
def sumTerms {F} (O : Floats F) : List (STerm F) → Except Err (MEntry F)
  | [] => .ok (.inl (.int 0))
  | t :: ts => match mkNum O (.int 0) t.sort with
    | .error e => .error e
    | .ok z => .ok (.inr (ts.foldl (opTerm .add) (opTerm .add (.const z) t)))

/-- Models `symbolic_matrix_multiplication` (simple.py:132-143). -/
def symMul {F} (O : Floats F) (A B : Mat (MConst F)) : Except Err (List (List (MEntry F))) :=
  if (A.rows.headD []).length ≠ B.rows.length then .error .typeError
  else mapRows (fun p : List (MConst F) × List (MConst F) => sumTerms O (List.zipWith (fun a b => opTerm .mul (.const a) (.const b)) p.1 p.2))
    (A.rows.map fun r => (zipCols B.rows).map fun c => (r, c))

/-- `evaluate_term(Matrix(value, sort))` (simple.py:200, 203, 206). -/
def evNew {F} (O : Floats F) (st : String → Option (MConst F)) (value : Except Err (List (List (MEntry F)))) (sort : String) : Except Err (MVal F) :=
  match value with
  | .error e => .error e
  | .ok rows => match mkMatrix O rows sort with
    | .error e => .error e
    | .ok m => match evMat O st m with
      | .error e => .error e
      | .ok r => .ok (.mat r)

/-- Models `_arithmetic_evaluator_2` (simple.py:190-211) on two evaluated operands. For two matrices only the product works on matrices; the other
operators make one (symbolic) term, which is no array: ValueError from the shape. -/
def arithVal {F} (O : Floats F) (st : String → Option (MConst F)) (o : NOp) : MVal F → MVal F → Except Err (MVal F)
  | .mat A, .mat B => if o = .matmul then evNew O st (symMul O A B) A.sort else .error .value
  | .mat A, .num c => if o = .matmul then .error .attribute
    else evNew O st (mapRows (fun a => (opRight O o c.v a).map .inr) A.rows) A.sort
  | .num c, .mat B => if o = .matmul then .error .attribute
    else evNew O st (mapRows (fun b => (opLeft O o c.v b).map .inr) B.rows) B.sort
  | .num a, .num b => match arithConst O o a b with
    | .error e => .error e
    | .ok c => .ok (.num c)

/-- Models `evaluate_term` on terms with matrices (simple.py:77-115, 190-211). -/
def evM {F} (O : Floats F) (st : String → Option (MConst F)) : MTerm F → Except Err (MVal F)
  | .scalar s => match evS O st s with
    | .error e => .error e
    | .ok c => .ok (.num c)
  | .mat m => match evMat O st m with
    | .error e => .error e
    | .ok r => .ok (.mat r)
  | .op o a b => match evM O st a with
    | .error e => .error e
    | .ok x => match evM O st b with
      | .error e => .error e
      | .ok y => arithVal O st o x y

/-! ### Transposition -/

/-- An object: a matrix, with the identity of its array and whether it sees it transposed (`.T` is a view); an arithmetic term with the identities
of its subterms; a constant or a variable; anything else. -/
inductive MObj where
  | mat (arr : Nat) (tr : Bool)
  | op (o : NOp) (l r : Nat)
  | leaf
  | other
deriving DecidableEq

/-- The objects, by identity. -/
abbrev MHeap := List MObj

/-- `m.subterms = (transpose(x), transpose(y))` (arithmetic/__init__.py:144, 147, 150), where `tr` is the recursive call. -/
def transposeBoth (tr : MHeap → Nat → Option (MHeap × Except Err Nat)) (h : MHeap) (a : Nat) (o : NOp) (x y : Nat) : Option (MHeap × Except Err Nat) :=
  match tr h x with
  | none => none
  | some (h1, .error e) => some (h1, .error e)
  | some (h1, .ok x') => match tr h1 y with
    | none => none
    | some (h2, .error e) => some (h2, .error e)
    | some (h2, .ok y') => some (h2.set a (.op o x' y'), .ok a)

/-- Models `transpose` (arithmetic/__init__.py:135-159): a matrix is copied, an arithmetic term is changed in place. A constant or a variable gives
ValueError, as `Matrix([m], ...)` makes a one-dimensional array; also here the objects already changed stay so. `n` bounds the depth of the
recursion. -/
def transposeM : Nat → MHeap → Nat → Option (MHeap × Except Err Nat)
  | 0, _, _ => none
  | n + 1, h, a => match h[a]? with
    | some (.mat arr tr) => some (h ++ [.mat arr (!tr)], .ok h.length)
    | some (.op o l r) =>
      if o = .add ∨ o = .sub then transposeBoth (transposeM n) h a o l r
      else if o = .mul then transposeBoth (transposeM n) h a o r l
      else some (h, .error .syntactic)
    | some .leaf => some (h, .error .value)
    | _ => some (h, .error .syntactic)
/-- Models `__setitem__` (matrix.py:39-40) on the arrays: entry `(i, j)` of a matrix that sees its array transposed is entry `(j, i)` of the array. -/
def setEntry {α : Type} (arrs : Nat → List (List α)) (arr : Nat) (tr : Bool) (i j : Nat) (x : α) : Nat → List (List α) := fun k =>
  if k = arr then if tr then (arrs k).modify j (·.set i x) else (arrs k).modify i (·.set j x) else arrs k

/-- Models `__getitem__` (matrix.py:42-44); negative indices are not modelled. -/
def getEntry {α : Type} (arrs : Nat → List (List α)) (arr : Nat) (tr : Bool) (i j : Nat) : Option α :=
  if tr then ((arrs arr)[j]?).bind (·[i]?) else ((arrs arr)[i]?).bind (·[j]?)

/-- Models `hash` (matrix.py:51-57) up to the value: a tuple with a term cannot be hashed (terms.py:121). -/
def matHash {α : Type} (m : Mat α) : Except Err Unit := if m.rows.flatten.isEmpty then .ok () else .error .typeError

/-- Models `is_syntactically_equal` (matrix.py:59-67); `eq` is the one of the entries. -/
def matEqual {α : Type} (eq : α → α → Bool) (a b : Mat α) : Bool :=
  decide (a.rows.length = b.rows.length) && decide ((a.rows.headD []).length = (b.rows.headD []).length) &&
    (List.zipWith (fun r s => (List.zipWith eq r s).all id) a.rows b.rows).all id

end Tarski

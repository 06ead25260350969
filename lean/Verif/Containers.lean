import Verif.Syntax
/-! Models of `SymbolIndex` (/repo/src/tarski/util.py:10-55), `VariableBinding`
(/repo/src/tarski/syntax/formulas.py:351-404) and `Interval` sorts (/repo/src/tarski/syntax/sorts.py:80-164). -/
namespace Tarski

/-- Lookup in an ordered dictionary given by its items (keys are distinct). -/
def dlookup {α β} [DecidableEq α] : List (α × β) → α → Option β
  | [], _ => none
  | (k, v) :: d, a => if k = a then some v else dlookup d a

/-- `d[k] = v` on an ordered dictionary: overwrites in place or appends. -/
def dinsert {α β} [DecidableEq α] : List (α × β) → α → β → List (α × β)
  | [], a, b => [(a, b)]
  | (k, v) :: d, a, b => if k = a then (k, b) :: d else (k, v) :: dinsert d a b

/-- Python list indexing, negative indices included. -/
def pyGet {α} (l : List α) (i : Int) : Except Err α :=
  let j := if i < 0 then i + l.length else i
  if j < 0 then .error .index
  else match l[j.toNat]? with
    | some x => .ok x
    | none => .error .index

/-- The two attributes of a `SymbolIndex` (util.py:13-15). -/
structure SymIndex (α : Type) where
  data : List (α × Nat)
  objects : List α

/-- Models `add` (util.py:24-28). -/
def SymIndex.add {α} [DecidableEq α] (s : SymIndex α) (o : α) : SymIndex α × Option Err :=
  if (dlookup s.data o).isSome then (s, some .duplicateVariable)
  else (⟨dinsert s.data o s.data.length, s.objects ++ [o]⟩, none)

/-- Models `get_index` (util.py:18-19). -/
def SymIndex.getIndex {α} [DecidableEq α] (s : SymIndex α) (o : α) : Except Err Nat :=
  match dlookup s.data o with
  | some i => .ok i
  | none => .error .keyError

/-- Models `get_object` (util.py:21-22). -/
def SymIndex.getObject {α} (s : SymIndex α) (i : Int) : Except Err α := pyGet s.objects i

/-- Models `__len__` (util.py:54-55). -/
def SymIndex.len {α} (s : SymIndex α) : Nat := s.data.length

/-- The empty index. -/
def SymIndex.empty {α} : SymIndex α := ⟨[], []⟩

/-- A history of `add` calls whose exceptions are caught by the caller (`__init__` with distinct elements is
such a history, too). -/
def SymIndex.addAll {α} [DecidableEq α] (s : SymIndex α) (os : List α) : SymIndex α :=
  os.foldl (fun s o => (s.add o).1) s

/-! ### VariableBinding -/

/-- The three attributes of a `VariableBinding` (formulas.py:354-359). -/
structure VBinding where
  variables : List (String × Var)
  values : List Var
  index : List (String × Nat)

/-- `{k: v for ...}` -/
def dictOf {α β} [DecidableEq α] (l : List (α × β)) : List (α × β) :=
  l.foldl (fun d kv => dinsert d kv.1 kv.2) []

/-- `enumerate` -/
def enumFrom {α} (n : Nat) : List α → List (Nat × α)
  | [] => []
  | a :: l => (n, a) :: enumFrom (n + 1) l

/-- Models `__init__` (formulas.py:354-359). -/
def VBinding.ofList (vs : List Var) : VBinding where
  variables := dictOf (vs.map (fun v => (v.sym, v)))
  values := vs
  index := dictOf ((enumFrom 0 vs).map (fun p => (p.2.sym, p.1)))

/-- Models `add` (formulas.py:367-373). -/
def VBinding.add (b : VBinding) (v : Var) : VBinding × Option Err :=
  if (dlookup b.variables v.sym).isSome then (b, some .duplicateVariable)
  else (⟨dinsert b.variables v.sym v, b.values ++ [v], dinsert b.index v.sym b.index.length⟩, none)

/-- Models `get` (formulas.py:375-379). -/
def VBinding.get (b : VBinding) (n : String) : Except Err Var :=
  match dlookup b.variables n with
  | some v => .ok v
  | none => .error .undefinedVariable

/-- Models `index` (formulas.py:381-385). -/
def VBinding.indexOf (b : VBinding) (n : String) : Except Err Nat :=
  match dlookup b.index n with
  | some i => .ok i
  | none => .error .undefinedVariable

/-- Models `__getitem__` (formulas.py:364-365). -/
def VBinding.item (b : VBinding) (i : Int) : Except Err Var := pyGet b.values i

/-- Models `vars` / `__iter__` (formulas.py:395-399). -/
def VBinding.vars (b : VBinding) : List Var := b.variables.map (·.2)

/-- Models `__len__` (formulas.py:361-362). -/
def VBinding.len (b : VBinding) : Nat := b.variables.length

/-- A history of `add` calls. -/
def VBinding.addAll (b : VBinding) (vs : List Var) : VBinding := vs.foldl (fun b v => (b.add v).1) b

/-! ### Interval sorts over the integers -/

/-- An integer interval sort; `encode` is `int` (sorts.py:196-199), the identity on integers. -/
structure IvSort where
  lb : Int
  ub : Int
  builtin : Bool

/-- Models `is_within_bounds` / `contains` (sorts.py:87-91, 125-131) on an integer. -/
def IvSort.contains (s : IvSort) (x : Int) : Bool := s.lb ≤ x && x ≤ s.ub

/-- Models `cast` (sorts.py:105-116) on an integer. -/
def IvSort.cast (s : IvSort) (x : Int) : Except Err Int := if s.contains x then .ok x else .error .value

/-- Models `cardinality` (sorts.py:102-103). -/
def IvSort.cardinality (s : IvSort) : Int := s.ub - s.lb + 1

/-- Python's `range(a, b)`. -/
def pyRange (a b : Int) : List Int := (List.range (b - a).toNat).map (fun (k : Nat) => a + (k : Int))

/-- Models `domain` (sorts.py:159-164). -/
def IvSort.domain (s : IvSort) : Except Err (List Int) :=
  if s.builtin || decide (s.ub - s.lb > 9999) then .error .value else .ok (pyRange s.lb (s.ub + 1))

/-- Models the bounds check of `interval` (fol.py:175-176) for a parent with the given sort; the bounds of the
parent are not consulted. -/
def mkInterval (_parent : IvSort) (lb ub : Int) : Except Err IvSort :=
  if ub ≤ lb then .error .language else .ok ⟨lb, ub, false⟩

/-- `build_the_naturals` (sorts.py:217-220). -/
def theNaturals : IvSort := ⟨0, 2 ^ 32 - 1, true⟩
/-- `build_the_integers` (sorts.py:223-226). -/
def theIntegers : IvSort := ⟨-(2 ^ 31 - 1), 2 ^ 31 - 1, true⟩

end Tarski

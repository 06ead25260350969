import Verif.Syntax
import Verif.Containers
/-! Model of first-order models (states): /repo/src/tarski/model.py. -/
namespace Tarski

/-- A constant: its name and (the name of) its sort (terms.py:308-345). Two constants are the same point
component iff both agree (terms.py:344-345, symrefs.py:27-28; sorts are compared by name, sorts.py:32-33). -/
structure Const where
  name : Name
  sort : String
deriving DecidableEq, Repr, Inhabited

/-- What a user can pass as an argument: a constant of the language, a constant of another language, a python
literal, a variable, or a compound (or if-then-else) term. -/
inductive Arg where
  | const (c : Const)
  | foreign (c : Const)
  | lit (n : Name)
  | var (v : Var)
  | term
deriving DecidableEq, Repr, Inhabited

/-- The part of a language that models consult. -/
structure MLang where
  /-- declared argument sorts of a predicate (predicate.py:9) -/
  psorts : String → List String
  /-- declared argument sorts and codomain of a function (function.py:9-10, 38-39) -/
  fsorts : String → List String
  /-- `language.is_subtype` (fol.py:351-354) -/
  isSub : String → String → Bool
  /-- whether the domain of a sort contains a name: `x in self._domain` (sorts.py:46, 49) or, for intervals,
  encoding and bounds check (sorts.py:113-115) -/
  contains : String → Name → Bool
  /-- whether the sort is an interval (sorts.py:80) -/
  interval : String → Bool

/-- `predicate.signature` (predicate.py:25-27). -/
def MLang.psig (L : MLang) (p : String) : List String := p :: L.psorts p
/-- `function.signature` (function.py:26-28). -/
def MLang.fsig (L : MLang) (f : String) : List String := f :: L.fsorts f

/-- Models one iteration of the loop in `_check_assignment` (model.py:20-32). A literal is cast to a constant of
the expected sort and rejected when the sort does not contain it (sorts.py:43-51, 105-116). A variable goes through
the same cast: `Sort.cast` returns its symbol if this happens to name an element of the sort and `None` otherwise
(sorts.py:45-47, 52); interval sorts cannot encode a variable (TypeError from `int`). The symbol of a compound term is
a function object, which is never an element of a domain, so the cast yields `None`. Not modelled: the constructor of
the constant `None` also extends the domain of its sort (terms.py:315-317). -/
def checkElement (L : MLang) (a : Arg) (s : String) : Except Err Const :=
  match a with
  | .const c => if L.isSub c.sort s then .ok c else .error .sortMismatch
  | .foreign _ => .error .languageMismatch
  | .lit n => if L.contains s n then
                (if L.isSub s s then .ok ⟨n, s⟩ else .error .sortMismatch) else .error .value
  | .var v => if L.interval s then .error .typeError
              else if L.isSub s s then
                (if L.contains s (.str v.sym) then .ok ⟨.str v.sym, s⟩ else .ok ⟨.pyNone, s⟩)
              else .error .sortMismatch
  | .term => if L.interval s then .error .typeError
             else if L.isSub s s then .ok ⟨.pyNone, s⟩ else .error .sortMismatch

/-- The loop of `_check_assignment` (model.py:20-32). -/
def checkElements (L : MLang) : List Arg → List String → Except Err (List Const)
  | [], _ => .ok []
  | _, [] => .ok []
  | a :: as, s :: ss =>
    match checkElement L a s with
    | .error e => .error e
    | .ok c => match checkElements L as ss with
      | .error e => .error e
      | .ok cs => .ok (c :: cs)

/-- Models `_check_assignment` (model.py:8-38) on the list `point + (value,)` resp. `point`. -/
def checkAssignment (L : MLang) (sorts : List String) (elements : List Arg) : Except Err (List Const) :=
  if sorts.length ≠ elements.length then .error .arity else checkElements L elements sorts

/-- A model: extension of each predicate signature (a set of points) and of each function signature (a dictionary
from points to values) (model.py:48-49, 223-230). Sets are lists of distinct points. -/
structure MState where
  preds : List (List String × List (List Const))
  fns : List (List String × List (List Const × Const))
deriving Inhabited

/-- `Model.__init__` (model.py:44-49). -/
def MState.empty : MState := ⟨[], []⟩

/-- `set.add` -/
def ptAdd {α} [DecidableEq α] (s : List α) (a : α) : List α := if a ∈ s then s else s ++ [a]
/-- `set.discard` -/
def ptDiscard {α} [DecidableEq α] (s : List α) (a : α) : List α := s.filter (fun b => decide (b ≠ a))
/-- `del d[k]` for a key of the dictionary -/
def ddelete {α β} [DecidableEq α] (d : List (α × β)) (a : α) : List (α × β) := d.filter (fun kv => decide (kv.1 ≠ a))

/-- `wrap_tuple` (model.py:242-244): python literals are rejected by `symref` (symrefs.py:12). `none` stands for a
tuple mentioning a variable or a compound term: it differs from every point stored in a model, all of which consist of constants. -/
def wrapTuple : List Arg → Except Err (Option (List Const))
  | [] => .ok (some [])
  | a :: as =>
    match a with
    | .lit _ => .error .runtime
    | .const c => match wrapTuple as with
      | .error e => .error e
      | .ok r => .ok (r.map (c :: ·))
    | .foreign c => match wrapTuple as with
      | .error e => .error e
      | .ok r => .ok (r.map (c :: ·))
    | .var _ => match wrapTuple as with
      | .error e => .error e
      | .ok _ => .ok none
    | .term => match wrapTuple as with
      | .error e => .error e
      | .ok _ => .ok none

/-- Models `Model.add` (model.py:102-116). -/
def MState.add (L : MLang) (m : MState) (p : PSym) (args : List Arg) : MState × Option Err :=
  match p with
  | .cmp _ => (m, some .semantic)
  | .user n =>
    match checkAssignment L (L.psorts n) args with
    | .error e => (m, some e)
    | .ok pt => ({ m with preds := dinsert m.preds (L.psig n) (ptAdd ((dlookup m.preds (L.psig n)).getD []) pt) }, none)

/-- Models `Model.remove` (model.py:118-121). -/
def MState.remove (L : MLang) (m : MState) (p : String) (args : List Arg) : MState × Option Err :=
  match dlookup m.preds (L.psig p) with
  | none => (m, some .keyError)
  | some ext => match wrapTuple args with
    | .error e => (m, some e)
    | .ok none => (m, some .keyError)
    | .ok (some pt) =>
      if pt ∈ ext then ({ m with preds := dinsert m.preds (L.psig p) (ptDiscard ext pt) }, none)
      else (m, some .keyError)

/-- Models `Model.discard` (model.py:123-128). -/
def MState.discard (L : MLang) (m : MState) (p : String) (args : List Arg) : MState × Option Err :=
  match dlookup m.preds (L.psig p) with
  | none => (m, none)
  | some ext => match wrapTuple args with
    | .error e => (m, some e)
    | .ok none => (m, none)
    | .ok (some pt) => ({ m with preds := dinsert m.preds (L.psig p) (ptDiscard ext pt) }, none)

/-- `isinstance(st, Constant)` (model.py:93). -/
def Arg.isConst : Arg → Bool
  | .const _ => true
  | .foreign _ => true
  | _ => false

/-- Models `Model.set` (model.py:78-100) on a term `f(args)`; `builtin` tells whether the symbol is builtin. The value
`None` is a literal that makes `_check_assignment` ignore it (model.py:11), which always is an arity mismatch. The
deprecated calling convention (lines 80-86) raises TypeError (`list + tuple`) and is not modelled further. -/
def MState.set (L : MLang) (m : MState) (f : String) (builtin : Bool) (args : List Arg) (v : Arg) : MState × Option Err :=
  if builtin then (m, some .semantic)
  else if args.all Arg.isConst = false then (m, some .semantic)
  else match checkAssignment L (L.fsorts f) (if v = .lit .pyNone then args else args ++ [v]) with
    | .error e => (m, some e)
    | .ok cs =>
      if v = .lit .pyNone then (m, some .assertion)
      else
        let d := dinsert ((dlookup m.fns (L.fsig f)).getD []) cs.dropLast (cs.getLastD default)
        ({ m with fns := dinsert m.fns (L.fsig f) d }, none)

/-- Models `Model.holds` (model.py:135-140) on a tuple of constants. -/
def MState.holds (L : MLang) (m : MState) (p : String) (pt : List Const) : Bool :=
  match dlookup m.preds (L.psig p) with
  | none => false
  | some ext => decide (pt ∈ ext)

/-- Models `Model.value` (model.py:130-133, 232-233) on a tuple of constants. -/
def MState.value (L : MLang) (m : MState) (f : String) (pt : List Const) : Except Err Const :=
  match dlookup m.fns (L.fsig f) with
  | none => .error .keyError
  | some d => match dlookup d pt with
    | none => .error .keyError
    | some c => .ok c

/-- Models `Model.remove_symbol` (model.py:207-215); `sig` is the signature of the symbol. -/
def MState.removeSymbol (m : MState) (sig : List String) : MState :=
  if (dlookup m.fns sig).isSome then { m with fns := ddelete m.fns sig }
  else if (dlookup m.preds sig).isSome then { m with preds := ddelete m.preds sig }
  else m

/-- Calls that modify a model. -/
inductive MOp where
  | add (p : PSym) (args : List Arg)
  | remove (p : String) (args : List Arg)
  | discard (p : String) (args : List Arg)
  | set (f : String) (builtin : Bool) (args : List Arg) (v : Arg)
  | removePred (p : String)
  | removeFun (f : String)

/-- One call; the exception, if any, is caught by the caller. -/
def MState.step (L : MLang) (m : MState) : MOp → MState × Option Err
  | .add p args => m.add L p args
  | .remove p args => m.remove L p args
  | .discard p args => m.discard L p args
  | .set f b args v => m.set L f b args v
  | .removePred p => (m.removeSymbol (L.psig p), none)
  | .removeFun f => (m.removeSymbol (L.fsig f), none)

/-- A history of calls. -/
def MState.run (L : MLang) (m : MState) (ops : List MOp) : MState := ops.foldl (fun m o => (m.step L o).1) m

end Tarski

import Verif.Model
import Verif.Equality
import Verif.Sas
/-! Model of the ways to read a whole model: `list_all_extensions`, `as_atoms`, `__str__`, `__eq__`
(/repo/src/tarski/model.py:51-57, 142-205). -/
namespace Tarski

/-- A true atom, as returned by `as_atoms`: the name of the symbol, the point, and the value for functions. -/
abbrev TrueAtom := String × List Const × Option Const

/-- `pred(*unwrap_tuple(tup))` (model.py:173): the constructor checks the number and the sorts of the arguments
(formulas.py:313-333). The stored constants belong to the language of the model. The name is looked up with
`language.get_predicate` (line 171); the language is fixed here, so that this finds the symbol the point was stored for. -/
def trueAtom (L : MLang) (p : String) (pt : List Const) : Except Err TrueAtom :=
  match checkAssignment L (L.psorts p) (pt.map .const) with
  | .error e => .error e
  | .ok _ => .ok (p, pt, none)

/-- `(fun(*unwrap_tuple(point)), value)` (model.py:178): the constructor checks the number and the sorts of the
arguments (terms.py:167-185). -/
def trueValue (L : MLang) (f : String) (pt : List Const) (v : Const) : Except Err TrueAtom :=
  match checkAssignment L (L.fsorts f).dropLast (pt.map .const) with
  | .error e => .error e
  | .ok _ => .ok (f, pt, some v)

/-- A list comprehension whose element expression may raise. -/
def comprehension {α β : Type} (f : α → Except Err β) : List α → Except Err (List β)
  | [] => .ok []
  | a :: as => match f a with
    | .error e => .error e
    | .ok b => match comprehension f as with
      | .error e => .error e
      | .ok bs => .ok (b :: bs)

/-- Models `Model.as_atoms` (model.py:165-180). The name of a symbol is the first component of its signature. -/
def asAtoms (L : MLang) (m : MState) : Except Err (List TrueAtom) :=
  match comprehension (fun kv : List String × List (List Const) => comprehension (trueAtom L (kv.1.headD "")) kv.2) m.preds with
  | .error e => .error e
  | .ok ps => match comprehension (fun kv : List String × List (List Const × Const) =>
      comprehension (fun pv => trueValue L (kv.1.headD "") pv.1 pv.2) kv.2) m.fns with
    | .error e => .error e
    | .ok fs => .ok (ps.flatten ++ fs.flatten)

/-- Models `Model.list_all_extensions` (model.py:142-163). `preds` and `funs` are the predicates and functions of the
language that are not builtin, in the order of the language; `get_symbols` leaves out `total-cost`
(syntax/util.py:18-19). The empty extensions (a set, lines 156-158, or a function definition, lines 159-161) are empty
lists here: both iterate over nothing. -/
def listAllExtensions (L : MLang) (preds funs : List String) (m : MState) : List (List String × List (List Const)) :=
  let exts := m.fns.foldl (fun d kv => dinsert d kv.1 (kv.2.map fun pv => pv.1 ++ [pv.2])) m.preds
  let exts := (preds.filter (· ≠ "total-cost")).foldl
    (fun d p => if (dlookup d (L.psig p)).isSome then d else dinsert d (L.psig p) []) exts
  (funs.filter (· ≠ "total-cost")).foldl
    (fun d f => if (dlookup d (L.fsig f)).isSome then d else dinsert d (L.fsig f) []) exts

/-- The text of an atom (formulas.py:335-336, terms.py:335-336), or of a pair of a term and a value: the text of a tuple
shows its elements with `repr` (terms.py:195-198, 338-339). -/
def trueAtomText : TrueAtom → String
  | (p, pt, none) => p ++ "(" ++ strJoin "," (pt.map fun c => c.name.render) ++ ")"
  | (f, pt, some v) => "(" ++ (f ++ "(" ++ strJoin ", " (pt.map fun c => c.name.render) ++ ")") ++ ", " ++
      (v.name.render ++ " (" ++ v.sort ++ ")") ++ ")"

/-- Insertion into a sorted list. -/
def insertText (x : String) : List String → List String
  | [] => [x]
  | y :: l => if x < y then x :: y :: l else y :: insertText x l

/-- `sorted` on texts: python and Lean both compare texts lexicographically by code points. -/
def sortTexts : List String → List String
  | [] => []
  | x :: l => insertText x (sortTexts l)

/-- Models `Model.__str__` (model.py:202-203). -/
def modelText (L : MLang) (m : MState) : Except Err String :=
  match asAtoms L m with
  | .error e => .error e
  | .ok l => .ok ("Model[" ++ strJoin ", " (sortTexts (l.map trueAtomText)) ++ "]")

/-- Models `Model.__eq__` (model.py:51-53): the texts are compared. -/
def modelEq (L : MLang) (m m' : MState) : Except Err Bool :=
  match modelText L m with
  | .error e => .error e
  | .ok s => match modelText L m' with
    | .error e => .error e
    | .ok s' => .ok (decide (s = s'))

end Tarski

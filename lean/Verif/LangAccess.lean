import Verif.Language
/-! Model of the access to the elements of a language by their names: /repo/src/tarski/fol.py:415-461. -/
namespace Tarski

/-- The generator in `get` (fol.py:437), run to its end by `tuple`: the first name that is not there raises. -/
def getTuple (L : Lang) : List String → Except Err (List LObj)
  | [] => .ok []
  | a :: as =>
    match L.get a with
    | .error e => .error e
    | .ok o =>
      match getTuple L as with
      | .error e => .error e
      | .ok os => .ok (o :: os)

/-- What `get` returns: an element, or a tuple of elements. -/
inductive Got where
  | one (o : LObj)
  | tuple (os : List LObj)

/-- Models `get(first, *args)` (fol.py:415-437). -/
def Lang.getAny (L : Lang) (first : String) (args : List String) : Except Err Got :=
  match args with
  | [] =>
    match L.get first with
    | .error e => .error e
    | .ok o => .ok (.one o)
  | _ :: _ =>
    match getTuple L (first :: args) with
    | .error e => .error e
    | .ok os => .ok (.tuple os)

/-- What an attribute of `lang.ns` can be: the language itself (fol.py:457-458), something that every Python object has, or an
element of the language. -/
inductive NsValue where
  | language
  | python (name : String)
  | element (o : LObj)

/-- Models `getattr(lang.ns, name)` (fol.py:440-461). Python calls `__getattr__` only when the object has no attribute of that
name: `own` are the names of the attributes that every object has (`__class__`, `__doc__`, ...), `lang` is the one that is set in
`__init__`. The accessor refers to the language and copies nothing, so `L` is the language at the time of the access. -/
def nsGet (own : List String) (L : Lang) (name : String) : Except Err NsValue :=
  if name = "lang" then .ok .language
  else if name ∈ own then .ok (.python name)
  else match L.get name with
    | .error e => .error e
    | .ok o => .ok (.element o)

end Tarski

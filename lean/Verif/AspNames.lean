import Verif.Containers
/-! Model of the symbol translation of /repo/src/tarski/reachability/asp.py:365-392, 427-429.
Strings are lists of characters. -/
namespace Tarski

/-- Strings, as character lists. -/
abbrev AStr := List Char

/-- Models `sanitize`, `name.replace("-", "__")` (reachability/asp.py:427-429). -/
def sanitize (n : AStr) : AStr := n.flatMap fun c => if c = '-' then ['_', '_'] else [c]

/-- The attributes `d` and `inv` of a `Translator` (reachability/asp.py:366-368). -/
structure Translator where
  d : List (AStr × AStr)
  inv : List (AStr × AStr)

/-- `Translator()` (reachability/asp.py:366-368). -/
def Translator.empty : Translator := ⟨[], []⟩

/-- `prefix + "_" if prefix else ""` (reachability/asp.py:372). -/
def namePrefix (pre : AStr) : AStr := if pre = [] then [] else pre ++ ['_']

/-- Models `normalize` with `_insert` (reachability/asp.py:370-388); `Err.runtime` is the reported clash. -/
def Translator.normalize (t : Translator) (name pre : AStr) : Translator × Except Err AStr :=
  let p := namePrefix pre
  let prefixed := p ++ name
  match dlookup t.d prefixed with
  | some r => (t, .ok r)
  | none =>
    let translated := p ++ sanitize name
    if (dlookup t.inv prefixed).isSome || (dlookup t.inv translated).isSome then (t, .error .runtime)
    else if translated = prefixed then (t, .ok translated)
    else (⟨dinsert t.d prefixed translated, dinsert t.inv translated prefixed⟩, .ok translated)

/-- Models `back` (reachability/asp.py:390-392). -/
def Translator.back (t : Translator) (name : AStr) : AStr := (dlookup t.inv name).getD name

/-- A history of `normalize(name, prefix)` calls on one translator, whose exceptions are caught by the caller: the final
translator and the list of answers. -/
def Translator.run (t : Translator) : List (AStr × AStr) → Translator × List (Except Err AStr)
  | [] => (t, [])
  | c :: cs =>
    let r := t.normalize c.1 c.2
    let rest := Translator.run r.1 cs
    (rest.1, r.2 :: rest.2)

end Tarski

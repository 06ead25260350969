import Verif.LanguageTerm
import Mathlib.Tactic.Common
/-! Model of the questions that can be asked of a language: listings, vocabulary, dump, well-formedness, and the
queries of the sort hierarchy. /repo/src/tarski/fol.py and /repo/src/tarski/syntax/sorts.py.

The calls that change a language are those of `Verif.Language` (`lstep`). Here the language is extended with the
order of the keys of its dictionaries (python dictionaries list their keys in order of insertion), the bounds of
interval sorts and the `builtin` flag of symbols. -/
namespace Tarski

/-- A `FirstOrderLanguage` (fol.py:16-37) with the order of its dictionaries `_sorts`, `_predicates`, `_functions`,
`_constants`, `immediate_parent`, the attributes `lower_bound`, `upper_bound` of interval sorts (sorts.py:81-83,
rounded to integers) and the names of the symbols with `builtin = True` (predicate.py:10, function.py:11). -/
structure OLang where
  lang : Lang
  sortKeys : List String
  predKeys : List String
  funKeys : List String
  constKeys : List String
  parKeys : List String
  bounds : String → Int × Int
  marked : List String

/-- Models `__init__` (fol.py:16-37, 95-102). -/
def OLang.init : OLang where
  lang := Lang.init
  sortKeys := ["object"]
  predKeys := []
  funKeys := []
  constKeys := []
  parKeys := ["object"]
  bounds := fun _ => (0, 0)
  marked := []

/-- The keys of a dictionary after a call: deleted keys disappear, an assignment to a key that is not there appends
it, an assignment to a key that is there keeps its place. `has` is membership after the call and `name` the key the
call may have assigned to. -/
def keysAfter (keys : List String) (has : String → Bool) (name : String) : List String :=
  if has name && !keys.contains name then keys.filter has ++ [name] else keys.filter has

/-- The key a call may assign to or delete. -/
def LOp.key : LOp → String
  | .sort name _ => name
  | .attachBuiltin name _ => name
  | .attachForeign name => name
  | .interval name _ _ _ => name
  | .predicate name _ => name
  | .function name _ => name
  | .constant name _ _ => name
  | .removeSymbol name => name
  | .setParent s _ => s
  | .isSubtype t _ => t

/-- The bounds of the builtin numeric sorts (sorts.py:216-231). -/
def builtinBounds (name : String) : Int × Int :=
  if name = "Natural" then (0, 4294967295)
  else if name = "Integer" then (-2147483647, 2147483647)
  else (-340282000000000000000000000000000000000, 340282000000000000000000000000000000000)

/-- The bounds after a call: `interval` (fol.py:180) and the builders of the builtin sorts (sorts.py:216-231) set
them. -/
def boundsAfter (b : String → Int × Int) (op : LOp) (e : Option Err) : String → Int × Int :=
  match op, e with
  | .interval name _ lb ub, none => upd b name (lb, ub)
  | .attachBuiltin name _, none => upd b name (builtinBounds name)
  | _, _ => b

/-- Calls: those of `LOp`, the declaration of a symbol followed by `symbol.builtin = True` (theories.py:83-84, 91-112),
and `set_bounds` (sorts.py:93-95). -/
inductive OOp where
  | call (op : LOp)
  | builtinSymbol (op : LOp)
  | setBounds (s : String) (lb ub : Int)

/-- One call of `LOp`. -/
def OLang.run (n : Nat) (O : OLang) (op : LOp) (mark : Bool) : Option (OLang × Option Err) :=
  match lstep n O.lang op with
  | none => none
  | some (L', e) =>
    some ({ lang := L'
            sortKeys := keysAfter O.sortKeys (fun x => (L'.sorts x).isSome) op.key
            predKeys := keysAfter O.predKeys (fun x => (L'.preds x).isSome) op.key
            funKeys := keysAfter O.funKeys (fun x => (L'.funs x).isSome) op.key
            constKeys := keysAfter O.constKeys (fun x => (L'.consts x).isSome) op.key
            parKeys := keysAfter O.parKeys (fun x => (L'.parent x).isSome) op.key
            bounds := boundsAfter O.bounds op e
            marked :=
              let kept := O.marked.filter (fun x => (L'.preds x).isSome || (L'.funs x).isSome)
              if mark && e.isNone then op.key :: kept else kept }, e)

/-- One call. -/
def ostep (n : Nat) (O : OLang) : OOp → Option (OLang × Option Err)
  | .call op => O.run n op false
  | .builtinSymbol op => O.run n op true
  | .setBounds s lb ub =>
    if O.lang.isIntervalB s then some ({ O with bounds := upd O.bounds s (lb, ub) }, none)
    else some (O, some .attribute)

/-! ### The questions -/

/-- Models the property `sorts` (fol.py:83-85). -/
def OLang.sorts (O : OLang) : List String := O.sortKeys

/-- The signature of a symbol: its name followed by its sorts (predicate.py:24-26, function.py:26-28). -/
abbrev Signature := String × List String

/-- Models the property `predicates` (fol.py:87-89), each predicate given by its signature. -/
def OLang.predicates (O : OLang) : List Signature := O.predKeys.map (fun p => (p, (O.lang.preds p).getD []))

/-- Models the property `functions` (fol.py:91-93). -/
def OLang.functions (O : OLang) : List Signature := O.funKeys.map (fun f => (f, (O.lang.funs f).getD []))

/-- Models `constants` (fol.py:266-267), each constant given by its signature (terms.py:331-333). -/
def OLang.constants (O : OLang) : List (String × String) := O.constKeys.map (fun c => (c, (O.lang.consts c).getD ""))

/-- Models `vocabulary` (fol.py:74-81). -/
def OLang.vocabulary (O : OLang) : List Signature × List Signature × List (String × String) :=
  (O.predicates.filter (fun p => !O.marked.contains p.1), O.functions.filter (fun f => !O.marked.contains f.1), O.constants)

/-- Models `has_sort`, `has_predicate`, `has_function`, `has_constant` (fol.py:153-154, 258-259, 297-298, 324-325). -/
def OLang.hasSort (O : OLang) (n : String) : Bool := (O.lang.sorts n).isSome
def OLang.hasPredicate (O : OLang) (n : String) : Bool := (O.lang.preds n).isSome
def OLang.hasFunction (O : OLang) (n : String) : Bool := (O.lang.funs n).isSome
def OLang.hasConstant (O : OLang) (n : String) : Bool := (O.lang.consts n).isSome

/-- The four numbers of `__str__` (fol.py:386-390). -/
def OLang.counts (O : OLang) : Nat × Nat × Nat × Nat :=
  (O.sortKeys.length, O.predKeys.length, O.funKeys.length, O.constants.length)

/-- What `dump` says of a sort (sorts.py:67-68, 155-156). -/
inductive SortDump where
  | enumerated (name : String) (domain : List String)
  | interval (name : String) (lb ub : Int)
deriving DecidableEq, Repr

/-- Models `Sort.dump` and `Interval.dump` (sorts.py:67-68, 155-156). The order of a python set is not modelled. -/
def OLang.dumpSort (O : OLang) (s : String) : SortDump :=
  if O.lang.isIntervalB s then .interval s (O.bounds s).1 (O.bounds s).2 else .enumerated s (O.lang.dom s)

/-- Models `Function.dump` (function.py:41-42): name, domain and codomain. -/
def dumpFunction (f : Signature) : String × List String × String := (f.1, f.2.dropLast, f.2.getLastD "")

/-- Models `dump` (fol.py:332-337, predicate.py:40-41). -/
def OLang.dump (O : OLang) : List SortDump × List Signature × List (String × List String × String) :=
  (O.sorts.map O.dumpSort, O.predicates, O.functions.map dumpFunction)

/-- Models `Sort.cardinality` and `Interval.cardinality` (sorts.py:64-65, 102-103). -/
def OLang.cardinality (O : OLang) (s : String) : Int :=
  if O.lang.isIntervalB s then (O.bounds s).2 - (O.bounds s).1 + 1 else (O.lang.dom s).length

/-- Models `check_well_formed` (fol.py:339-342): the error of the first empty sort. -/
def OLang.checkWellFormed (O : OLang) : Option Err :=
  match O.sorts.find? (fun s => O.cardinality s == 0) with
  | some _ => some .language
  | none => none

/-- Models `children` (sorts.py:186-192). -/
def OLang.children (O : OLang) (s : String) : List String :=
  O.parKeys.filter (fun c => O.lang.parent c == some (some s))

/-- Is the sort builtin? -/
def OLang.sortBuiltin (O : OLang) (s : String) : Bool := ((O.lang.sorts s).map SortInfo.builtin).getD false

/-- Models `get_closest_builtin_sort` (sorts.py:255-259), following at most `n` parents. `inclusion_closure`
(sorts.py:167-171) is a generator: the search stops at the first builtin sort. -/
def OLang.closestBuiltin (O : OLang) : Nat → String → Option (Except Err (Option String))
  | 0, _ => none
  | n + 1, s =>
    if O.sortBuiltin s then some (.ok (some s))
    else
      match O.lang.parent s with
      | none => some (.error .assertion)
      | some none => some (.ok none)
      | some (some p) => O.closestBuiltin n p

/-- Languages reachable by calls that return and are applied to registered sorts; `ok` selects the allowed calls.
`builtinSymbol` is used with declarations of predicates and functions only. -/
inductive OReach (ok : OOp → Prop) : OLang → Prop where
  | init : OReach ok OLang.init
  | step O op n O' e : OReach ok O → ok op →
      (∀ s p, op = .call (.setParent s p) → (O.lang.sorts s).isSome ∧ (O.lang.sorts p).isSome) →
      (∀ s p, op = .call (.attachBuiltin s p) → (O.lang.sorts p).isSome) →
      (∀ op', op = .builtinSymbol op' → (∃ n a, op' = .predicate n a) ∨ ∃ n a, op' = .function n a) →
      ostep n O op = some (O', e) → OReach ok O'

/-- Calls allowed by a predicate on `LOp`; `set_bounds` is allowed iff `sb`. -/
def OOp.only (ok : LOp → Prop) (sb : Bool) : OOp → Prop
  | .call op => ok op
  | .builtinSymbol op => ok op
  | .setBounds _ _ _ => sb = true

end Tarski

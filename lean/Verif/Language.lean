import Verif.Syntax
/-! Model of first-order languages: declarations, sort hierarchy, constants.
/repo/src/tarski/fol.py and /repo/src/tarski/syntax/sorts.py.

Sorts are identified by their name (sorts.py:29-33). Dictionaries are functions into `Option`,
python sets are lists. Loops whose termination depends on the shape of the sort hierarchy take a number
of steps; `none` means that they are still running after that many steps (so "for all numbers of steps
`none`" is a call that does not return). -/
namespace Tarski

/-- Attributes of a sort object: `isinstance(s, Interval)` and `s.builtin` (sorts.py:13-17, 80-85). -/
structure SortInfo where
  interval : Bool
  builtin : Bool
deriving DecidableEq, Repr

/-- What a name can denote in the global index of a language. -/
inductive LObj where
  | sort (name : String)
  | pred (name : String) (args : List String)
  | func (name : String) (args : List String)
  | const (name : String) (sort : String)
deriving DecidableEq, Repr

/-- Models the attributes of `FirstOrderLanguage` (fol.py:16-37). `dom` holds the `_domain` set of each sort
(sorts.py:16). Theories, operators and the language name are not modelled.
`hist` is a ghost field that records every parent ever set. -/
structure Lang where
  sorts : String → Option SortInfo
  preds : String → Option (List String)
  funs : String → Option (List String)
  consts : String → Option String
  index : String → Option LObj
  parent : String → Option (Option String)
  anc : String → List String
  cache : String → List String
  dom : String → List String
  hist : List (String × String)

/-- Dictionary update. -/
def upd {α β} [DecidableEq α] (f : α → β) (a : α) (b : β) : α → β := fun x => if x = a then b else f x

/-- Models `__init__` and `_attach_object_sort` (fol.py:16-37, 95-102). -/
def Lang.init : Lang where
  sorts := upd (fun _ => none) "object" (some ⟨false, false⟩)
  preds := fun _ => none
  funs := fun _ => none
  consts := fun _ => none
  index := upd (fun _ => none) "object" (some (.sort "object"))
  parent := upd (fun _ => none) "object" (some none)
  anc := fun _ => []
  cache := fun _ => []
  dom := fun _ => []
  hist := []

/-- Models `inclusion_closure` (sorts.py:167-177), with `n` steps; the assertion of `parent` is an
exception (`some (error ..)`). -/
def inclusionClosure (parent : String → Option (Option String)) : Nat → String → Option (Except Err (List String))
  | 0, _ => none
  | n + 1, s =>
    match parent s with
    | none => some (.error .value)
    | some none => some (.ok [s])
    | some (some p) =>
      match inclusionClosure parent n p with
      | none => none
      | some (.error e) => some (.error e)
      | some (.ok l) => some (.ok (s :: l))

/-- Result of a call: the language afterwards, and the exception raised if any. -/
abbrev Res := Lang × Option Err

/-- The test `self.immediate_parent.get(sort) is not None` (fol.py:198). -/
def Lang.hasParent (L : Lang) (s : String) : Bool :=
  match L.parent s with
  | some (some _) => true
  | _ => false

/-- The class of the sort object: is it an `Interval`? -/
def Lang.isIntervalB (L : Lang) (s : String) : Bool :=
  match L.sorts s with
  | some i => i.interval
  | none => false

/-- Models `set_parent` (fol.py:194-206) for a parent of the same language. -/
def setParent (n : Nat) (L : Lang) (s p : String) (overwrite : Bool) : Option Res :=
  if !overwrite && L.hasParent s then some (L, some .language)
  else
    let L1 := { L with parent := upd L.parent s (some (some p)) }
    match inclusionClosure L1.parent n p with
    | none => none
    | some (.error e) => some (L1, some e)
    | some (.ok l) =>
      some ({ L1 with anc := upd L1.anc s (l.foldl (fun acc x => if x ∈ acc then acc else x :: acc) (L1.anc s))
                      cache := fun _ => []
                      hist := (s, p) :: L.hist }, none)

/-- Models `_check_name_not_defined` (fol.py:278-286). -/
def checkName (L : Lang) (inContainer : Bool) (name : String) : Option Err :=
  if inContainer then some .duplicateVariable
  else if (L.index name).isSome then some .duplicateVariable
  else none

/-- Models `attach_sort` (fol.py:140-151); `parent = none` stands for a sort of another language, which makes
`set_parent` raise (fol.py:195-196) after the name has been registered. -/
def attachSort (n : Nat) (L : Lang) (name : String) (info : SortInfo) (parent : Option String) : Option Res :=
  match checkName L (L.sorts name).isSome name with
  | some e => some (L, some e)
  | none =>
    let L1 := { L with sorts := upd L.sorts name (some info), index := upd L.index name (some (.sort name)) }
    match parent with
    | none => some (L1, some .language)
    | some p => setParent n L1 name p false

/-- Models `sort` (fol.py:129-138) with the parent given by name. -/
def declSort (n : Nat) (L : Lang) (name parent : String) : Option Res :=
  match L.sorts parent with
  | none => some (L, some .undefinedVariable)
  | some _ => attachSort n L name ⟨false, false⟩ (some parent)

/-- Models `interval` (fol.py:161-186); bounds are integers. -/
def declInterval (n : Nat) (L : Lang) (name parent : String) (lb ub : Int) : Option Res :=
  match checkName L (L.sorts name).isSome name with
  | some e => some (L, some e)
  | none =>
    if (L.sorts parent).isNone then some (L, some .undefinedVariable)
    else if (L.sorts "Real").isNone || (L.sorts "Natural").isNone || (L.sorts "Integer").isNone then
      some (L, some .undefinedVariable)
    else if parent ≠ "Real" ∧ parent ≠ "Natural" ∧ parent ≠ "Integer" then some (L, some .language)
    else if ub ≤ lb then some (L, some .language)
    else
      let L1 := { L with sorts := upd L.sorts name (some ⟨true, false⟩), index := upd L.index name (some (.sort name)) }
      setParent n L1 name parent false

/-- Models `predicate` (fol.py:288-295), arguments given by sort name. -/
def declPredicate (L : Lang) (name : String) (args : List String) : Res :=
  match checkName L (L.preds name).isSome name with
  | some e => (L, some e)
  | none =>
    if args.any (fun a => (L.sorts a).isNone) then (L, some .undefinedVariable)
    else ({ L with preds := upd L.preds name (some args), index := upd L.index name (some (.pred name args)) }, none)

/-- Models `function` (fol.py:315-322); the last argument is the codomain (function.py:9-10), without any
argument an IndexError is raised. -/
def declFunction (L : Lang) (name : String) (args : List String) : Res :=
  match checkName L (L.funs name).isSome name with
  | some e => (L, some e)
  | none =>
    if args.any (fun a => (L.sorts a).isNone) then (L, some .undefinedVariable)
    else if args.isEmpty then (L, some .index)
    else ({ L with funs := upd L.funs name (some args), index := upd L.index name (some (.func name args)) }, none)

/-- `set.add` on a domain. -/
def addDom (dom : String → List String) (s c : String) : String → List String :=
  upd dom s (if c ∈ dom s then dom s else c :: dom s)

/-- The loop over ancestors (sorts.py:73-74); `f` is the recursive call. -/
def extendList (f : (String → List String) → String → Option (String → List String)) :
    (String → List String) → List String → Option (String → List String)
  | dom, [] => some dom
  | dom, p :: ps =>
    match f dom p with
    | none => none
    | some dom' => extendList f dom' ps

/-- Models `Sort.extend` / `Interval.extend` (sorts.py:70-74, 97-100), recursion depth at most `n`: the sort
itself and, recursively, its ancestors. -/
def extend (L : Lang) : Nat → (String → List String) → String → String → Option (String → List String)
  | 0, _, _, _ => none
  | n + 1, dom, s, c =>
    if L.isIntervalB s then some dom
    else extendList (fun d p => extend L n d p c) (addDom dom s c) (L.anc s)

/-- Models `constant` (fol.py:233-256) and `Constant.__init__` (terms.py:309-317). `castOk` says whether the
name can be cast to the (interval or builtin) sort. Constants of builtin sorts are not stored. -/
def declConstant (n : Nat) (L : Lang) (name sort : String) (castOk : Bool) : Option Res :=
  match L.sorts sort with
  | none => some (L, some .undefinedVariable)
  | some i =>
    if i.builtin then some (L, if castOk then none else some .value)
    else
      match checkName L (L.consts name).isSome name with
      | some e => some (L, some e)
      | none =>
        let register := fun (L : Lang) =>
          { L with consts := upd L.consts name (some sort), index := upd L.index name (some (.const name sort)) }
        if i.interval then
          if castOk then some (register L, none) else some (L, some .value)
        else
          match extend L n L.dom sort name with
          | none => none
          | some dom' => some (register { L with dom := dom' }, none)

/-- Models `remove_symbol` (fol.py:305-313) for a symbol with the given name. -/
def removeSymbol (L : Lang) (name : String) : Res :=
  if (L.preds name).isSome then
    ({ L with preds := upd L.preds name none, index := upd L.index name none }, none)
  else if (L.funs name).isSome then
    ({ L with funs := upd L.funs name none, index := upd L.index name none }, none)
  else (L, some .undefinedVariable)

/-- Models `get` with one name (fol.py:426-433). -/
def Lang.get (L : Lang) (name : String) : Except Err LObj :=
  match L.index name with
  | some o => .ok o
  | none => .error .undefinedVariable

/-- The loop of `connected_in_type_hierarchy` (fol.py:365-374), `n` iterations. The stack `OPEN` is kept
with its top first; the python sets are traversed in some order. -/
def connLoop (L : Lang) (goal : String) : Nat → List String → Option Bool
  | _, [] => some false
  | 0, _ :: _ => none
  | n + 1, t :: opn =>
    if t = goal then some true
    else connLoop L goal n ((L.anc t).foldl (fun o t2 => if t2 ∈ o then o else t2 :: o) opn)

/-- Models `is_subtype` (fol.py:351-379) on registered sorts, with the update of the cache. -/
def isSubtype (n : Nat) (L : Lang) (t st : String) : Option (Bool × Lang) :=
  if t = st then some (true, L)
  else if st ∈ L.anc t then some (true, L)
  else if st ∈ L.cache t then some (true, L)
  else
    match connLoop L st n (L.anc t) with
    | none => none
    | some true => some (true, { L with cache := upd L.cache t (st :: L.cache t) })
    | some false => some (false, L)

/-- API calls that change a language. -/
inductive LOp where
  | sort (name parent : String)
  | attachBuiltin (name parent : String)
  | attachForeign (name : String)
  | interval (name parent : String) (lb ub : Int)
  | predicate (name : String) (args : List String)
  | function (name : String) (args : List String)
  | constant (name sort : String) (castOk : Bool)
  | removeSymbol (name : String)
  | setParent (s p : String)
  | isSubtype (t s : String)

/-- One call. `attachBuiltin` is `attach_sort` with one of the builtin numeric sorts (sorts.py:216-237),
`setParent` is `set_parent(..., overwrite=True)`. -/
def lstep (n : Nat) (L : Lang) : LOp → Option Res
  | .sort name parent => declSort n L name parent
  | .attachBuiltin name parent => attachSort n L name ⟨true, true⟩ (some parent)
  | .attachForeign name => attachSort n L name ⟨false, false⟩ none
  | .interval name parent lb ub => declInterval n L name parent lb ub
  | .predicate name args => some (declPredicate L name args)
  | .function name args => some (declFunction L name args)
  | .constant name sort castOk => declConstant n L name sort castOk
  | .removeSymbol name => some (removeSymbol L name)
  | .setParent s p => setParent n L s p true
  | .isSubtype t s => (isSubtype n L t s).map (fun r => (r.2, none))

/-! ### Specification side -/

/-- Languages reachable by calls that are applied to registered sorts; `ok` selects the allowed calls. -/
inductive LReach (ok : LOp → Prop) : Lang → Prop where
  | init : LReach ok Lang.init
  | step L op n L' e : LReach ok L → ok op →
      (∀ s p, op = .setParent s p → (L.sorts s).isSome ∧ (L.sorts p).isSome) →
      (∀ s p, op = .attachBuiltin s p → (L.sorts p).isSome) →
      lstep n L op = some (L', e) → LReach ok L'

/-- Declarations only: no re-parenting and no foreign parents. -/
def LOp.plain : LOp → Prop
  | .setParent _ _ => False
  | .attachForeign _ => False
  | _ => True

/-- Everything except `attach_sort` with a foreign parent. -/
def LOp.noForeign : LOp → Prop
  | .attachForeign _ => False
  | _ => True

/-- `p` is the direct parent of `s`. -/
def Lang.ParentOf (L : Lang) (s p : String) : Prop := L.parent s = some (some p)

/-- Reflexive-transitive closure. -/
inductive Star {α} (R : α → α → Prop) : α → α → Prop where
  | refl a : Star R a a
  | step a b c : R a b → Star R b c → Star R a c

end Tarski

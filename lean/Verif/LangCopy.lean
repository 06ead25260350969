import Verif.Language
/-! Model of several first-order languages living side by side, with sort *objects* that languages can share:
/repo/src/tarski/fol.py (constructor, `deepcopy`, declarations) and /repo/src/tarski/syntax/sorts.py.

In Language.lean a language owns its sorts. Here sorts are references into a heap, since
`FirstOrderLanguage.deepcopy` (fol.py:65-72) copies all dictionaries of a language but, because
`Sort.__deepcopy__` (sorts.py:24-27) returns the object itself, not the sort objects in them.

Not modelled here: numeric and interval sorts (their `extend` does nothing, sorts.py:97-100), `set_parent` with
`overwrite=True`, `remove_symbol`, subtype queries, operators and theories (fol.py:392-397: two dictionaries whose
keys and values `copy.deepcopy` does not duplicate either). -/
namespace Tarski

/-- A `Sort` object (sorts.py:13-17): its name, the identity of the language it was made for, its `_domain` set. -/
structure SortObj where
  name : String
  owner : Nat
  dom : List String
deriving DecidableEq, Repr

/-- What the global index of a language gives for a name: the object, described by its name and sorts. -/
inductive GObj where
  | sort (r : Nat)
  | pred (name : String) (sorts : List Nat)
  | func (name : String) (sorts : List Nat)
  | const (name : String) (sort : Nat)
deriving DecidableEq, Repr

/-- The attributes of a `FirstOrderLanguage` (fol.py:16-37). Dictionaries with sorts as keys are keyed by the name
of the sort, since sorts are hashed and compared by name (sorts.py:29-33). `anc s = none` says that `s` is not a
key of the dictionary `ancestor_sorts`. -/
structure LangRec where
  sorts : String → Option Nat
  preds : String → Option (List Nat)
  funs : String → Option (List Nat)
  consts : String → Option Nat
  index : String → Option GObj
  parent : String → Option (Option Nat)
  anc : String → Option (List Nat)

/-- All the languages of a program (numbered in the order of their creation) and all its sort objects. -/
structure World where
  langs : Nat
  lang : Nat → LangRec
  objs : Nat
  obj : Nat → SortObj

/-- A program before it has made a language. The values of `lang` and `obj` above the counters mean nothing. -/
def World.empty : World where
  langs := 0
  lang := fun _ => ⟨fun _ => none, fun _ => none, fun _ => none, fun _ => none, fun _ => none, fun _ => none, fun _ => none⟩
  objs := 0
  obj := fun _ => ⟨"", 0, []⟩

/-- Models `FirstOrderLanguage()` (fol.py:16-37) with `_attach_object_sort` (fol.py:95-102). -/
def World.newLang (w : World) : World where
  langs := w.langs + 1
  lang := upd w.lang w.langs
    { sorts := upd (fun _ => none) "object" (some w.objs)
      preds := fun _ => none
      funs := fun _ => none
      consts := fun _ => none
      index := upd (fun _ => none) "object" (some (.sort w.objs))
      parent := upd (fun _ => none) "object" (some none)
      anc := upd (fun _ => none) "object" (some []) }
  objs := w.objs + 1
  obj := upd w.obj w.objs ⟨"object", w.langs, []⟩

/-- Models `deepcopy` (fol.py:65-72): a new language whose dictionaries are copies of those of language `l`. The
predicates, functions and constants in them are copies, too, described by the same names and sorts; the sorts are
the same objects (sorts.py:24-27). The `object` sort of `type(self)()` is dropped with the `_sorts` dictionary that
held it. -/
def World.copy (w : World) (l : Nat) : World where
  langs := w.langs + 1
  lang := upd w.lang w.langs (w.lang l)
  objs := w.objs + 1
  obj := upd w.obj w.objs ⟨"object", w.langs, []⟩

/-- A sort as an argument of a call: by its name, or as an object. -/
inductive SArg where
  | name (s : String)
  | obj (r : Nat)
deriving DecidableEq, Repr

/-- Models `_retrieve_sort` / `_retrieve_object` (fol.py:208-231) for a string or another object: `.obj r` with a
number that is not the one of a sort object stands for an object of another type (fol.py:216-217). -/
def World.retrieve (w : World) (l : Nat) : SArg → Except Err Nat
  | .obj r =>
    if w.objs ≤ r then .error .typeError
    else if (w.obj r).owner = l then .ok r else .error .languageMismatch
  | .name s =>
    match (w.lang l).sorts s with
    | none => .error .undefinedVariable
    | some r => .ok r

/-- The list comprehensions of fol.py:291 and 318. -/
def World.retrieveAll (w : World) (l : Nat) : List SArg → Except Err (List Nat)
  | [] => .ok []
  | a :: as =>
    match w.retrieve l a with
    | .error e => .error e
    | .ok r =>
      match w.retrieveAll l as with
      | .error e => .error e
      | .ok rs => .ok (r :: rs)

/-- Models `inclusion_closure` with `parent` (sorts.py:167-177) from the sort object `r`; each object is looked up in
the language it was made for. `none`: more than `n` steps. -/
def World.closure (w : World) : Nat → Nat → Option (Except Err (List Nat))
  | 0, _ => none
  | n + 1, r =>
    match (w.lang (w.obj r).owner).parent (w.obj r).name with
    | none => some (.error .assertion)
    | some none => some (.ok [r])
    | some (some p) =>
      match w.closure n p with
      | none => none
      | some (.error e) => some (.error e)
      | some (.ok l) => some (.ok (r :: l))

/-- `set.update` on a set of sort objects: an object is not added if there is one of the same name. -/
def World.addAnc (w : World) (acc : List Nat) (l : List Nat) : List Nat :=
  l.foldl (fun acc r => if acc.any (fun q => (w.obj q).name == (w.obj r).name) then acc else r :: acc) acc

/-- The dictionary `ancestor_sorts` with default value (fol.py:24). -/
def LangRec.ancD (L : LangRec) (s : String) : List Nat :=
  match L.anc s with
  | some l => l
  | none => []

/-- The outcome of a call: the world afterwards, and the exception if one is raised. -/
abbrev WRes := World × Option Err

/-- Replaces the dictionaries of language `l`. -/
def World.setLang (w : World) (l : Nat) (L : LangRec) : World := { w with lang := upd w.lang l L }

/-- Models `set_parent` (fol.py:194-206) on language `l` with `overwrite=False`. -/
def World.setParent (w : World) (n : Nat) (l : Nat) (r p : Nat) : Option WRes :=
  if (w.obj p).owner ≠ l then some (w, some .language)
  else
    let s := (w.obj r).name
    match (w.lang l).parent s with
    | some (some _) => some (w, some .language)
    | _ =>
      let w1 := w.setLang l { w.lang l with parent := upd (w.lang l).parent s (some (some p)) }
      match w1.closure n p with
      | none => none
      | some (.error e) => some (w1, some e)
      | some (.ok c) =>
        some (w1.setLang l { w1.lang l with anc := upd (w1.lang l).anc s (some (w1.addAnc ((w1.lang l).ancD s) c)) }, none)

/-- Models `_check_name_not_defined` (fol.py:278-286). -/
def LangRec.checkNew (L : LangRec) (inContainer : Bool) (name : String) : Option Err :=
  if inContainer then some .duplicateVariable
  else if (L.index name).isSome then some .duplicateVariable
  else none

/-- Models `sort` and `attach_sort` (fol.py:129-151); `parent = none` is the default, the sort `object`. -/
def World.declSort (w : World) (n : Nat) (l : Nat) (name : String) (parent : Option SArg) : Option WRes :=
  match w.retrieve l (parent.getD (.name "object")) with
  | .error e => some (w, some e)
  | .ok p =>
    match (w.lang l).checkNew ((w.lang l).sorts name).isSome name with
    | some e => some (w, some e)
    | none =>
      let w1 : World := { w with objs := w.objs + 1, obj := upd w.obj w.objs ⟨name, l, []⟩ }
      let w2 := w1.setLang l { w1.lang l with sorts := upd (w1.lang l).sorts name (some w.objs), index := upd (w1.lang l).index name (some (.sort w.objs)) }
      w2.setParent n l w.objs p

/-- Models `_check_well_formed` of predicates and functions (predicate.py:13-19, function.py:14-20). -/
def World.ownAll (w : World) (l : Nat) (rs : List Nat) : Bool := rs.all fun r => (w.obj r).owner == l

/-- Models `predicate` (fol.py:288-295) with `Predicate.__init__` (predicate.py:5-11). -/
def World.declPred (w : World) (l : Nat) (name : String) (args : List SArg) : WRes :=
  match (w.lang l).checkNew ((w.lang l).preds name).isSome name with
  | some e => (w, some e)
  | none =>
    match w.retrieveAll l args with
    | .error e => (w, some e)
    | .ok rs =>
      if w.ownAll l rs then
        (w.setLang l { w.lang l with preds := upd (w.lang l).preds name (some rs), index := upd (w.lang l).index name (some (.pred name rs)) }, none)
      else (w, some .languageMismatch)

/-- Models `function` (fol.py:315-322) with `Function.__init__` (function.py:5-12). -/
def World.declFunc (w : World) (l : Nat) (name : String) (args : List SArg) : WRes :=
  match (w.lang l).checkNew ((w.lang l).funs name).isSome name with
  | some e => (w, some e)
  | none =>
    match w.retrieveAll l args with
    | .error e => (w, some e)
    | .ok rs =>
      if rs.isEmpty then (w, some .index)
      else if w.ownAll l rs then
        (w.setLang l { w.lang l with funs := upd (w.lang l).funs name (some rs), index := upd (w.lang l).index name (some (.func name rs)) }, none)
      else (w, some .languageMismatch)

/-- `self._domain.add(constant.symbol)` (sorts.py:72). -/
def World.addDom (w : World) (r : Nat) (c : String) : World :=
  let o := w.obj r
  { w with obj := upd w.obj r { o with dom := if c ∈ o.dom then o.dom else c :: o.dom } }

/-- The loop of sorts.py:73-74; `f` is the recursive call. -/
def extendEach (f : World → Nat → Option WRes) : World → List Nat → Option WRes
  | w, [] => some (w, none)
  | w, p :: ps =>
    match f w p with
    | none => none
    | some (w', some e) => some (w', some e)
    | some (w', none) => extendEach f w' ps

/-- Models `Sort.extend` with `ancestors` (sorts.py:70-74, 180-183); the ancestors are those in the language the sort
object was made for. -/
def World.extend : Nat → World → Nat → String → Option WRes
  | 0, _, _, _ => none
  | n + 1, w, r, c =>
    match (w.lang (w.obj r).owner).anc (w.obj r).name with
    | none => some (w.addDom r c, some .assertion)
    | some l => extendEach (fun w p => World.extend n w p c) (w.addDom r c) l

/-- Models `constant` (fol.py:233-256) with `Constant.__init__` (terms.py:309-317). -/
def World.declConst (w : World) (n : Nat) (l : Nat) (name : String) (sort : SArg) : Option WRes :=
  match w.retrieve l sort with
  | .error e => some (w, some e)
  | .ok r =>
    match (w.lang l).checkNew ((w.lang l).consts name).isSome name with
    | some e => some (w, some e)
    | none =>
      match World.extend n w r name with
      | none => none
      | some (w', some e) => some (w', some e)
      | some (w', none) =>
        some (w'.setLang l { w'.lang l with consts := upd (w'.lang l).consts name (some r), index := upd (w'.lang l).index name (some (.const name r)) }, none)

/-- A call on a language. -/
inductive LCall where
  | sort (name : String) (parent : Option SArg)
  | pred (name : String) (args : List SArg)
  | func (name : String) (args : List SArg)
  | const (name : String) (sort : SArg)
deriving DecidableEq, Repr

/-- What a program does: it makes a language, it copies one, or it calls a language. -/
inductive WOp where
  | new
  | copy (l : Nat)
  | call (l : Nat) (c : LCall)
deriving DecidableEq, Repr

/-- The effect of a call on language `l`. -/
def World.call (w : World) (n : Nat) (l : Nat) : LCall → Option WRes
  | .sort name parent => w.declSort n l name parent
  | .pred name args => some (w.declPred l name args)
  | .func name args => some (w.declFunc l name args)
  | .const name sort => w.declConst n l name sort

/-- One step of a program. The program goes on after an exception. `none`: there is no language `l`, or the call is
still running after `n` steps. -/
def World.step (w : World) (n : Nat) : WOp → Option World
  | .new => some w.newLang
  | .copy l => if l < w.langs then some (w.copy l) else none
  | .call l c => if l < w.langs then (w.call n l c).map Prod.fst else none

/-- A program. -/
def World.run (n : Nat) : World → List WOp → Option World
  | w, [] => some w
  | w, op :: ops =>
    match w.step n op with
    | none => none
    | some w' => World.run n w' ops

/-- Models `get` with one name (fol.py:426-433): the element, told by the names of its sorts. -/
def World.get (w : World) (l : Nat) (name : String) : Except Err LObj :=
  match (w.lang l).index name with
  | none => .error .undefinedVariable
  | some (.sort r) => .ok (.sort (w.obj r).name)
  | some (.pred p rs) => .ok (.pred p (rs.map fun r => (w.obj r).name))
  | some (.func f rs) => .ok (.func f (rs.map fun r => (w.obj r).name))
  | some (.const c r) => .ok (.const c (w.obj r).name)

/-- The names in `_domain` of the sort with the given name (sorts.py:68). -/
def World.members (w : World) (l : Nat) (s : String) : Except Err (List String) :=
  match (w.lang l).sorts s with
  | none => .error .undefinedVariable
  | some r => .ok (w.obj r).dom

/-- Models the iteration over `Sort.domain()` (sorts.py:76-77) for the sort of language `l` with the given name, with
`get_constant` (fol.py:261-264) of the language the object was made for. -/
def World.domain (w : World) (l : Nat) (s : String) : Except Err (List String) :=
  match (w.lang l).sorts s with
  | none => .error .undefinedVariable
  | some r =>
    if (w.obj r).dom.all (fun c => ((w.lang (w.obj r).owner).consts c).isSome) then .ok (w.obj r).dom
    else .error .undefinedVariable

end Tarski

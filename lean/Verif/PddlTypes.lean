import Verif.Language
/-! Model of the type and object declarations of the PLY-based PDDL reader:
/repo/src/tarski/io/pddl/instance.py (54-83, 160-203) and /repo/src/tarski/io/pddl/parser.py (225-236, 295-316,
1275-1289).

The reader builds a language by calls to `sort`, `set_parent` and `constant` (Language.lean). As there, calls whose
termination depends on the sort hierarchy take a number of steps, and `none` means "still running". -/
namespace Tarski

/-- The part of `InstanceModel` used by type and object declarations (instance.py:54-83): the keys of `types`
(each one is bound to the sort of the same name) and the language. -/
structure PInst where
  types : List String
  lang : Lang

/-- Result of a call: the instance afterwards, and the exception raised if any. -/
abbrev PRes := PInst × Option Err

/-- An element of the list parsed from `(:types ...)` (parser.py:238-257): `sub ... - super`, or a bare name. -/
inductive TypeEntry where
  | group (super : String) (subs : List String)
  | single (name : String)
deriving DecidableEq, Repr

/-- Models `self.types[name] = self.L.sort(name, parent)` (instance.py:170, 182, 190). -/
def declType (n : Nat) (st : PInst) (name parent : String) : Option PRes :=
  match declSort n st.lang name parent with
  | none => none
  | some (L, some e) => some ({ st with lang := L }, some e)
  | some (L, none) => some (⟨name :: st.types, L⟩, none)

/-- Models the loop over the subtypes (instance.py:173-182). The exception meant for a repeated subtype is built
with `lineno()`, where `lineno` is an integer (parser.py:234), so that a TypeError is raised instead. -/
def subDefs (n : Nat) (super : String) (added : Bool) : PInst → List String → Option PRes
  | st, [] => some (st, none)
  | st, s :: ss =>
    if s ∈ st.types then
      if added then
        match setParent n st.lang s super true with
        | none => none
        | some (L, some e) => some ({ st with lang := L }, some e)
        | some (L, none) => subDefs n super added { st with lang := L } ss
      else some (st, some .typeError)
    else
      match declType n st s super with
      | none => none
      | some (st', some e) => some (st', some e)
      | some (st', none) => subDefs n super added st' ss

/-- Models `process_supertype_definition` (instance.py:160-182). -/
def superDef (n : Nat) (st : PInst) (super : String) (subs : List String) : Option PRes :=
  if super ∈ st.types then subDefs n super false st subs
  else
    match declType n st super "object" with
    | none => none
    | some (st', some e) => some (st', some e)
    | some (st', none) => subDefs n super true st' subs

/-- One iteration of the loop in `p_types_def` (parser.py:231-236); `process_type_definition` is
instance.py:184-190. -/
def typeEntry (n : Nat) (st : PInst) : TypeEntry → Option PRes
  | .group super subs => superDef n st super subs
  | .single name => declType n st name "object"

/-- Models `p_types_def` (parser.py:225-236): the first exception ends the section. -/
def typesSection (n : Nat) : PInst → List TypeEntry → Option PRes
  | st, [] => some (st, none)
  | st, e :: es =>
    match typeEntry n st e with
    | none => none
    | some (st', some x) => some (st', some x)
    | some (st', none) => typesSection n st' es

/-- Models the list comprehension of `process_constant_definition` (instance.py:198-203). -/
def constDefs (n : Nat) (type : String) : PInst → List String → Option PRes
  | st, [] => some (st, none)
  | st, c :: cs =>
    match declConstant n st.lang c type true with
    | none => none
    | some (L, some e) => some ({ st with lang := L }, some e)
    | some (L, none) => constDefs n type { st with lang := L } cs

/-- Models `p_primitive_type` (parser.py:283-293): the type name denoted by a word. -/
def primitiveType (word : String) : String :=
  if word = "object" then "Object" else if word = "number" then "Real" else word

/-- One iteration of the loops in `p_constants_def` and `p_object_declaration` (parser.py:303-316, 1282-1289). -/
def constEntry (n : Nat) (st : PInst) : TypeEntry → Option PRes
  | .group type cs => if type ∈ st.types then constDefs n type st cs else some (st, some .semantic)
  | .single _ => some (st, some .semantic)

/-- Models `p_constants_def` and `p_object_declaration` (parser.py:295-316, 1275-1289). -/
def constsSection (n : Nat) : PInst → List TypeEntry → Option PRes
  | st, [] => some (st, none)
  | st, e :: es =>
    match constEntry n st e with
    | none => none
    | some (st', some x) => some (st', some x)
    | some (st', none) => constsSection n st' es

/-- The sorts of the language of `InstanceModel.__init__` (instance.py:74-83; theories.py:57-59; sorts.py:234-237):
`Real`, `Integer`, `Natural` and `Bool`. -/
def pddlSorts : List LOp := [.attachBuiltin "Real" "object", .attachBuiltin "Integer" "Real",
  .attachBuiltin "Natural" "Integer", .attachBuiltin "Bool" "Integer"]

/-- Calls in sequence, on the language. -/
def runOps (n : Nat) : Lang → List LOp → Option Lang
  | L, [] => some L
  | L, op :: ops => match lstep n L op with | some (L', none) => runOps n L' ops | _ => none

/-- Models `InstanceModel.__init__` (instance.py:54-83). -/
def PInst.init : PInst := ⟨["object"], (runOps 5 Lang.init pddlSorts).getD Lang.init⟩

end Tarski

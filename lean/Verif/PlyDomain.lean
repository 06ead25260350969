import Verif.PlyActions
import Verif.PddlTypes
/-! Model of the requirements, of the declarations of predicates and functions, and of whole domains and problems of the
PLY-based PDDL reader: /repo/src/tarski/io/pddl/parser.py (73-223, 320-334, 442-492, 1271-1273), instance.py (54-83, 205-213,
242-260) and io/pddl/__init__.py. -/
namespace Tarski

/-- `Features` (io/pddl/__init__.py:14-33) -/
inductive Feature where
  | strips | typing | negativePreconditions | disjunctivePreconditions | equality | existentialPreconditions
  | universalPreconditions | conditionalEffects | numericFluents | durativeActions | durationInequalities
  | continuousEffects | derivedPredicates | timedInitialLiterals | preferences | constraints | actionCosts | objectFluents
deriving DecidableEq

/-- `supported_features` (io/pddl/__init__.py:36-45) -/
def supportedFeatures : List Feature := [.strips, .typing, .negativePreconditions, .equality, .durativeActions, .objectFluents,
  .derivedPredicates, .numericFluents]

/-- The alternatives of `requirement_key_list` (parser.py:143-163), by the words of the keys. `:object-fluents` is none of
them. -/
inductive ReqKey where
  | strips | typing | negativePreconditions | disjunctivePreconditions | equality | existentialPreconditions
  | universalPreconditions | quantifiedPreconditions | conditionalEffects | fluents | numericFluents | adl | durativeActions
  | durationInequalities | continuousEffects | derivedPredicates | timedInitialLiterals | preferences | constraints | actionCosts
deriving DecidableEq

/-- Models the body of `p_requirement_key_list` (parser.py:164-223): the features that a key adds. The second test for timed
initial literals (214-216) is never reached. -/
def ReqKey.features : ReqKey → List Feature
  | .strips => [.strips]
  | .typing => [.typing]
  | .negativePreconditions => [.negativePreconditions]
  | .disjunctivePreconditions => [.disjunctivePreconditions]
  | .equality => [.equality]
  | .existentialPreconditions => [.existentialPreconditions]
  | .universalPreconditions => [.universalPreconditions]
  | .quantifiedPreconditions => [.universalPreconditions, .existentialPreconditions]
  | .conditionalEffects => [.conditionalEffects]
  | .fluents => [.objectFluents, .numericFluents]
  | .numericFluents => [.numericFluents]
  | .adl => [.strips, .typing, .negativePreconditions, .disjunctivePreconditions, .equality, .universalPreconditions,
      .existentialPreconditions, .conditionalEffects]
  | .durativeActions => [.durativeActions]
  | .durationInequalities => [.durativeActions, .durationInequalities]
  | .continuousEffects => [.continuousEffects]
  | .derivedPredicates => [.derivedPredicates]
  | .timedInitialLiterals => [.timedInitialLiterals]
  | .preferences => [.preferences]
  | .constraints => [.constraints]
  | .actionCosts => [.actionCosts]

/-- Models the reading of a section of requirements (parser.py:128-223, 1271-1273): the keys are added from the last to the first
to what is required so far, then `check_requirements_support` raises an UnsupportedFeature if something is not supported. -/
def readReqs (required : List Feature) (keys : List ReqKey) : Except Err (List Feature) :=
  let all := keys.reverse.foldl (fun acc k => k.features.foldl (fun acc f => if f ∈ acc then acc else acc ++ [f]) acc) required
  if all.all (· ∈ supportedFeatures) then .ok all else .error .notImplemented

/-- The part of the instance that conditions, actions and the other structures use (parser.py, instance.py:85-158, 215-240): the
symbols of the language, its sorts and the types. `is_subtype` takes a number of steps (Language.lean). Domains and parents of
sorts are not used by them. -/
def PInst.yLang (st : PInst) (n : Nat) : YLang where
  base := {
    sym := fun n => match st.lang.index n with
      | some (.sort _) => some .sort
      | some (.pred _ args) => some (.pred args)
      | some (.func _ sig) => some (.fn sig.dropLast (sig.getLastD ""))
      | some (.const _ s) => some (.const s)
      | none => none
    sub := fun a b => ((isSubtype n st.lang a b).map Prod.fst).getD false
    parent := fun _ => none
    dom := fun _ => .ok []
    zeroOk := fun _ => true }
  types := st.types
  castOk := fun s i => s == "Integer" || s == "Real" || (s == "Natural" && decide (0 ≤ i)) || (s == "Bool" && decide (0 ≤ i ∧ i ≤ 1))

/-- `atomic_formula_skeleton` (parser.py:368-375): a name and a typed list of variables. -/
structure YSkel where
  name : String
  params : List VTok
deriving DecidableEq

/-- An entry of `function_typed_list` (parser.py:457-470): `atomic_function_skeleton`, and the word of a type. -/
structure YFunSkel where
  skel : YSkel
  cod : Option String
deriving DecidableEq

/-- Models `normalize_typed_variable_list` on the skeletons of a section (parser.py:337-366, 472-486). -/
def readSkels (L : YLang) : List YSkel → Except Err (List (String × List String))
  | [] => .ok []
  | p :: ps => match normalizeVars L [] p.params with
    | .error e => .error e
    | .ok vs => match readSkels L ps with
      | .error e => .error e
      | .ok ds => .ok ((p.name, vs.map (·.sort)) :: ds)

/-- Models the loops that call `L.function` (parser.py:330-331, 451-452; instance.py:213, 260). -/
def declSyms : PInst → List (String × List String) → PRes
  | st, [] => (st, none)
  | st, (f, sig) :: ds => match declFunction st.lang f sig with
    | (L, some e) => ({ st with lang := L }, some e)
    | (L, none) => declSyms { st with lang := L } ds

/-- Models `p_predicates_def` and `process_predicate_definition` (parser.py:320-334, instance.py:205-213): predicates are functions
with values in `Bool`. -/
def predsSection (n : Nat) (st : PInst) (ps : List YSkel) : PRes :=
  match readSkels (st.yLang n) ps with
  | .error e => (st, some e)
  | .ok ds => declSyms st (ds.map fun d => (d.1, d.2 ++ ["Bool"]))

/-- The codomain of a function (parser.py:457-470, instance.py:252-256). -/
def YFunSkel.codomain (f : YFunSkel) : String := match f.cod with
  | none => "Integer"
  | some w => primitiveType w

/-- Models `p_functions_def` and `process_function_skeleton` (parser.py:442-486, instance.py:242-260). -/
def funsSection (n : Nat) (st : PInst) (fs : List YFunSkel) : PRes :=
  match readSkels (st.yLang n) (fs.map (·.skel)) with
  | .error e => (st, some e)
  | .ok ds => declSyms st ((ds.zip fs).map fun d => (d.1.1, d.1.2 ++ [d.2.codomain]))

/-- The sections of `domain_body_def` (parser.py:88-95), without constraints, and the `:objects` of a problem. -/
inductive YSect where
  | types (es : List TypeEntry)
  | constants (es : List TypeEntry)
  | predicates (ps : List YSkel)
  | functions (fs : List YFunSkel)

/-- One section. -/
def readSect (n : Nat) (st : PInst) : YSect → Option PRes
  | .types es => typesSection n st es
  | .constants es => constsSection n st es
  | .predicates ps => some (predsSection n st ps)
  | .functions fs => some (funsSection n st fs)

/-- Models `p_domain_body_def` (parser.py:88-96): the sections in their order; the first exception ends the reading. -/
def readBody (n : Nat) : PInst → List YSect → Option PRes
  | st, [] => some (st, none)
  | st, s :: ss => match readSect n st s with
    | none => none
    | some (st', some e) => some (st', some e)
    | some (st', none) => readBody n st' ss

/-- The keys of `instance.predicates` (instance.py:213). -/
def bodyPreds : List YSect → List String
  | [] => []
  | .predicates ps :: ss => ps.map (·.name) ++ bodyPreds ss
  | _ :: ss => bodyPreds ss

/-- `instance.predicates`: the domains of the predicates. -/
def predDomains (st : PInst) (preds : List String) (p : String) : Option (List String) :=
  if p ∈ preds then (st.lang.funs p).map List.dropLast else none

/-- `domain` (parser.py:79-102) -/
structure YDomain where
  name : String
  reqs : List ReqKey
  body : List YSect
  structs : List YStruct

/-- Models the reading of a domain (parser.py:73-102, 128-131): requirements, declarations, actions and derived predicates. -/
def readYDomain (n : Nat) (d : YDomain) : Option (Except Err (List Feature × PInst × YInstance)) :=
  match readReqs [] d.reqs with
  | .error e => some (.error e)
  | .ok req => match readBody n PInst.init d.body with
    | none => none
    | some (_, some e) => some (.error e)
    | some (st, none) => match readStructs (st.yLang n) (predDomains st (bodyPreds d.body)) d.structs [] ⟨[], [], []⟩ with
      | .error e => some (.error e)
      | .ok (i, _) => some (.ok (req, st, i))

/-- Models `p_domain_ref` (parser.py:121-126): `domain_name` is the name of the domain that has been read, if any. -/
def domainRef (read : Option String) (expected : String) : Except Err Unit :=
  if some expected = read then .ok () else .error .semantic

end Tarski

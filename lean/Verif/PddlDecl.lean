import Verif.PddlEff
import Verif.PddlInit
/-! Model of the PDDL/FSTRIPS writer and reader on declarations and on whole domain and instance files:
/repo/src/tarski/io/fstrips.py:41-100, 120-141, 164-323, the templates in /repo/src/tarski/io/templates,
/repo/src/tarski/io/_fstrips/reader.py:70-179, 419-425 and /repo/src/tarski/io/_fstrips/common.py (grammar:
fstrips.g4:67-184, 345-442). -/
namespace Tarski

/-! ### Languages and problems -/

/-- A sort that the user declared (fol.py:129-186): its parent, and its bounds if it is an interval. Bounds are whole
numbers here. -/
structure SDecl where
  name : String
  parent : String
  bounds : Option (Int × Int)
deriving DecidableEq

/-- The declarations of a language, in the order in which they were made (the dictionaries of fol.py:30-50), and the
theories that are loaded. Names of constants may be integers: a constant of an interval sort is stored under its value
(fol.py:251-255, terms.py:313-314). -/
structure PDecls where
  equality : Bool
  arithmetic : Bool
  special : Bool
  sorts : List SDecl
  consts : List (Name × String)
  preds : List (String × List String)
  funs : List (String × List String × String)
deriving DecidableEq

/-- The sorts `Real`, `Integer` and `Natural` are there (theories.py:60-62). -/
def PDecls.numeric (D : PDecls) : Bool := D.arithmetic || D.special

/-- The builtin sorts with their parents and bounds (sorts.py:216-237). The bounds of `Real` are floats; here they are the
integers of the same decimal notation. -/
def builtinSorts : List SDecl :=
  [⟨"Real", "object", some (-340282 * 10 ^ 33, 340282 * 10 ^ 33)⟩, ⟨"Integer", "Real", some (-(2 ^ 31 - 1), 2 ^ 31 - 1)⟩,
   ⟨"Natural", "Integer", some (0, 2 ^ 32 - 1)⟩]

/-- All sorts but `object`, by name. -/
def PDecls.allSorts (D : PDecls) : List SDecl := (if D.numeric then builtinSorts else []) ++ D.sorts

/-- `get_sort` (fol.py:156-159), for sorts other than `object`. -/
def PDecls.sort (D : PDecls) (s : String) : Option SDecl := D.allSorts.find? (fun d => d.name == s)

/-- `has_sort` (fol.py:153-154). -/
def PDecls.hasSort (D : PDecls) (s : String) : Bool := s == "object" || (D.sort s).isSome

/-- Climbing the hierarchy of sorts, at most the given number of steps (fol.py:351-380). -/
def subGo (parent : String → Option String) : Nat → String → String → Bool
  | 0, s, t => s == t
  | n + 1, s, t => s == t || match parent s with
    | none => false
    | some p => subGo parent n p t

/-- `is_subtype` (fol.py:351-354); a hierarchy is not deeper than its number of sorts. -/
def PDecls.isSub (D : PDecls) (s t : String) : Bool :=
  subGo (fun u => (D.sort u).map SDecl.parent) (D.allSorts.length + 1) s t

/-- The bounds of an interval sort; none for the others. -/
def PDecls.bounds (D : PDecls) (s : String) : Option (Int × Int) := (D.sort s).bind SDecl.bounds

/-- The values of the sort are floats (`encode` is inherited from the parent, fol.py:180). -/
def PDecls.real (D : PDecls) (s : String) : Bool :=
  (D.bounds s).isSome && (s == "Real" || (D.sort s).any (fun d => d.parent == "Real"))

/-- Membership in the domain of a sort (sorts.py:35-41, 70-74, 87-91). -/
def PDecls.contains (D : PDecls) (s : String) (n : Name) : Bool :=
  match D.bounds s with
  | some (l, u) => match n with
    | .int n => decide (l ≤ n ∧ n ≤ u)
    | _ => false
  | none => D.consts.any (fun c => decide (c.1 = n) && D.isSub c.2 s)

/-- `sort.cast` of an integer (sorts.py:43-52, 105-116). -/
def PDecls.castInt (D : PDecls) (s : String) (n : Int) : Except Err Name :=
  if D.contains s (.int n) then .ok (.int n) else .error .value

/-- What the reader and the writer consult of the language. -/
def PDecls.rlang (D : PDecls) : RLang where
  preds p := dlookup D.preds p
  funs f := dlookup D.funs f
  consts c := dlookup D.consts (.str c)
  hasSort := D.hasSort
  isSub := D.isSub
  castInt := D.castInt
  equality := D.equality
  arithmetic := D.arithmetic
  special := D.special

/-- What states consult of the language. -/
def PDecls.mlang (D : PDecls) : MLang := D.rlang.toM D.contains (fun s => (D.bounds s).isSome)

/-- A planning problem (fstrips/problem.py:10-22). The metric is a flag (minimize) and an expression; derived predicates
have a name, parameters and a formula. State constraints are not modelled. -/
structure PProblem where
  name : String
  domainName : String
  lang : PDecls
  init : MState
  goal : Option Formula
  actions : List PAction
  derived : List (String × List Var × Formula)
  metric : Option (Bool × Term)

/-! ### Writer -/

/-- Models `tarski_to_pddl_type` (common.py:19-22). -/
def pddlType (s : String) : String :=
  if s = "Integer" ∨ s = "Natural" then "int" else if s = "Real" then "number" else s

/-- A line break and the indentation of an entry: `"\n" + _TAB * 2` (io/fstrips.py:275, 285, 294). -/
def nl8 : Text := '\n' :: List.replicate 8 ' '

/-- One entry of `get_types` (io/fstrips.py:268-272). -/
def printType (d : SDecl) : Text := (pddlType d.name).toList ++ [' ', '-', ' '] ++ (pddlType d.parent).toList

/-- Models `get_types` (io/fstrips.py:263-275). -/
def printTypes (D : PDecls) : Text := joinWith nl8 (D.sorts.map printType ++ ["object".toList])

/-- `x1`, `x2`, ... with the given sorts (io/fstrips.py:323). -/
def sigVars : Nat → List String → List Var
  | _, [] => []
  | i, s :: ss => ⟨String.ofList ('x' :: Nat.toDigits 10 i), pddlType s⟩ :: sigVars (i + 1) ss

/-- Models `build_signature_string` (io/fstrips.py:319-323). -/
def printSig (ss : List String) : Text := printVarList (sigVars 1 ss)

/-- One entry of `get_predicates` (io/fstrips.py:292-293). -/
def printPredDecl (p : String × List String) : Text := '(' :: p.1.toList ++ ' ' :: printSig p.2 ++ [')']

/-- One entry of `get_functions` (io/fstrips.py:282-284). -/
def printFunDecl (f : String × List String × String) : Text :=
  '(' :: f.1.toList ++ ' ' :: printSig f.2.1 ++ [')', ' ', '-', ' '] ++ (pddlType f.2.2).toList

/-- The sorts of the objects, each once (the keys of the dictionary of io/fstrips.py:123-125). -/
def objectSorts : List (Name × String) → List String
  | [] => []
  | c :: cs => if c.2 ∈ objectSorts cs then objectSorts cs else c.2 :: objectSorts cs

/-- `sorted` on strings: by code points. -/
def sortStrings (l : List String) : List String := l.mergeSort (fun a b => decide (a ≤ b))

/-- The names of the objects; `" ".join` takes strings only (io/fstrips.py:129). -/
def objectNames : List (Name × String) → Except Err (List (String × String))
  | [] => .ok []
  | (.str n, s) :: cs => match objectNames cs with
    | .error e => .error e
    | .ok ns => .ok ((n, s) :: ns)
  | _ :: _ => .error .typeError

/-- `"{names} - {sort}"` (io/fstrips.py:129-130). -/
def printGroup (ns : List (String × String)) (s : String) : Text :=
  joinWith [' '] ((sortStrings ((ns.filter (fun c => c.2 == s)).map (·.1))).map String.toList) ++ [' ', '-', ' '] ++ s.toList

/-- Models `print_objects` (io/fstrips.py:120-132). -/
def printObjects (cs : List (Name × String)) : Except Err Text :=
  match objectNames cs with
  | .error e => .error e
  | .ok ns => .ok (lines2 ((sortStrings (objectSorts cs)).map (printGroup ns)))

/-- Whether a symbol other than `total-cost` has an interval sort in its signature (common.py:59-61; util.py:4-20). -/
def PDecls.numericFluents (D : PDecls) : Bool :=
  D.preds.any (fun p => p.1 != "total-cost" && p.2.any (fun s => (D.bounds s).isSome)) ||
  D.funs.any (fun f => f.1 != "total-cost" && (f.2.1 ++ [f.2.2]).any (fun s => (D.bounds s).isSome))

/-- Models `get_requirements_string` (common.py:41-63) and `is_typed_problem` (representation.py:38-40). The code returns a
set, whose elements are printed in any order. -/
def PDecls.requirements (D : PDecls) : List Text :=
  (if D.sorts = [] then [] else [":typing".toList]) ++
  (if D.equality then [":equality".toList] else []) ++
  (if (dlookup D.funs "total-cost").isSome then [":action-costs".toList] else []) ++
  (if D.numericFluents then [":numeric-fluents".toList] else [])

/-- Models `get_actions` (io/fstrips.py:296-297): the texts that are joined. -/
def printActions (D : PDecls) : List PAction → Except Err (List Text)
  | [] => .ok []
  | a :: as => match printAction D.real (D.rlang.funs "total-cost").isSome a with
    | .error e => .error e
    | .ok t => match printActions D as with
      | .error e => .error e
      | .ok ts => .ok (t :: ts)

/-- Models `get_derived` (io/fstrips.py:312-316) with the template of lines 113-117. -/
def printDerived (D : PDecls) : List (String × List Var × Formula) → Except Err (List Text)
  | [] => .ok []
  | (n, vs, f) :: ds => match printF D.real f with
    | .error e => .error e
    | .ok t => match printDerived D ds with
      | .error e => .error e
      | .ok ts => .ok (("\n    (:derived (".toList ++ n.toList ++ ' ' :: printVarList vs ++ ")\n              ".toList ++ t ++
          "\n    )\n".toList) :: ts)

/-- `(:keyword` with an indented content, as in the templates. -/
def sectionText (k : Text) (content : Text) : Text := '(' :: k ++ nl8 ++ content ++ "\n    )".toList

/-- The comment on top of a file, as in the templates. -/
def headerText (what : Text) : Text :=
  '\n' :: List.replicate 40 ';' ++ "\n;;; ".toList ++ what ++
    " file automatically generated by the Tarski FSTRIPS writer\n;;; \n".toList ++ List.replicate 40 ';' ++ ['\n', '\n']

/-- Models `print_domain` (io/fstrips.py:208-227) with templates/fstrips_domain.tpl; `reqs` are the requirements in the
order in which they are printed, `dom` the constants that are declared in the domain. -/
def printDomain (p : PProblem) (reqs : List Text) (dom : List (Name × String)) : Except Err Text :=
  match printActions p.lang p.actions with
  | .error e => .error e
  | .ok as => match printDerived p.lang p.derived with
    | .error e => .error e
    | .ok ds => match printObjects dom with
      | .error e => .error e
      | .ok os => .ok (headerText "Domain".toList ++ "(define (domain ".toList ++ p.domainName.toList ++
          ")\n    (:requirements ".toList ++ joinWith [' '] reqs ++ ")\n    ".toList ++
          sectionText ":types".toList (printTypes p.lang) ++ "\n\n    ".toList ++
          sectionText ":constants".toList os ++ "\n\n    ".toList ++
          sectionText ":predicates".toList (joinWith nl8 (p.lang.preds.map printPredDecl)) ++ "\n\n    ".toList ++
          sectionText ":functions".toList (joinWith nl8 (p.lang.funs.map printFunDecl)) ++ "\n\n    ".toList ++
          joinWith ['\n'] ds ++ "\n\n    ".toList ++ joinWith ['\n'] as ++ "\n)\n".toList)

/-- One entry of `print_domain_bounds` (io/fstrips.py:171-177). -/
def printBound (d : SDecl) : Option Text :=
  match d.bounds with
  | none => none
  | some (l, u) =>
    if d.parent = "Integer" ∨ d.parent = "Natural" then
      some ('(' :: d.name.toList ++ " - int[".toList ++ intText l ++ ['.', '.'] ++ intText u ++ [']', ')'])
    else none

/-- Models `print_domain_bounds` (io/fstrips.py:168-183). -/
def printBounds (D : PDecls) : Text :=
  match D.sorts.filterMap printBound with
  | [] => []
  | bs => "(:bounds\n".toList ++ joinWith ['\n'] (bs.map (indentBy 2)) ++ [')']

/-- Models `print_problem_metric` (io/fstrips.py:190-195). -/
def printMetric (D : PDecls) : Option (Bool × Term) → Except Err Text
  | none => .ok []
  | some (min, t) => match printT D.real t with
    | .error e => .error e
    | .ok s => .ok ("(:metric ".toList ++ (if min then "minimize".toList else "maximize".toList) ++ ' ' :: s ++ [')'])

/-- Models `print_goal` (io/fstrips.py:164-165): a problem without goal fails the assertion of `print_formula`. -/
def printGoal (D : PDecls) : Option Formula → Except Err Text
  | none => .error .assertion
  | some f => printF D.real f

/-- Models `print_instance` (io/fstrips.py:233-257) with templates/fstrips_instance.tpl. -/
def printInstance (p : PProblem) (dom : List (Name × String)) : Except Err Text :=
  match printObjects (p.lang.consts.filter (fun c => decide (c ∉ dom))) with
  | .error e => .error e
  | .ok os => match printGoal p.lang p.goal with
    | .error e => .error e
    | .ok g => match printMetric p.lang p.metric with
      | .error e => .error e
      | .ok m => .ok (headerText "Instance".toList ++ "(define (problem ".toList ++ p.name.toList ++ ")\n    (:domain ".toList ++
          p.domainName.toList ++ ")\n\n    ".toList ++
          sectionText ":objects".toList os ++ "\n\n    ".toList ++
          sectionText ":init".toList (printInit p.lang.real p.init) ++ "\n\n    ".toList ++
          sectionText ":goal".toList g ++ "\n\n    \n    ".toList ++
          printBounds p.lang ++ "\n    ".toList ++ m ++ "\n)\n".toList)

/-! ### Reader: declarations -/

/-- The names that are taken (`_global_index`, fol.py:278-286); the symbols of the theories other than `ite` are not
strings (theories.py:77-121). -/
def PDecls.used (D : PDecls) (n : String) : Bool :=
  D.hasSort n || (D.arithmetic && n == "ite") || (dlookup D.consts (.str n)).isSome || (dlookup D.preds n).isSome ||
    (dlookup D.funs n).isSome

/-- Models `pddl_to_tarski_type` (common.py:11-16). -/
def tarskiType (s : String) : String :=
  if s = "int" then "Integer" else if s = "real" ∨ s = "number" then "Real" else s

/-- `lang.sort(name, parent)` for a parent that exists (fol.py:129-151). -/
def PDecls.addSort (D : PDecls) (d : SDecl) : Except Err PDecls :=
  if D.used d.name then .error .language else .ok { D with sorts := D.sorts ++ [d] }

/-- Models `create_sort` (common.py:74-95). -/
def createSort (D : PDecls) (ty base : String) : Except Err PDecls :=
  if ty = "object" then .ok D
  else
    let ty := tarskiType ty
    let base := tarskiType base
    if base = "Natural" ∨ base = "Integer" ∨ base = "Real" then
      match D.bounds base with
      | none => .error .undefinedVariable
      | some b => D.addSort ⟨ty, base, some b⟩
    else if D.hasSort base then D.addSort ⟨ty, base, none⟩
    else .error .undefinedVariable

/-- Models `visitDeclaration_of_types` (reader.py:91-93). -/
def createSorts : PDecls → List (String × String) → Except Err PDecls
  | D, [] => .ok D
  | D, (t, b) :: l => match createSort D t b with
    | .error e => .error e
    | .ok D' => createSorts D' l

/-- Models `language.constant` (fol.py:233-256) on a name: a name is never a number. -/
def createConst (D : PDecls) (n s : String) : Except Err PDecls :=
  if D.hasSort s then
    if (D.bounds s).isSome then .error .value
    else if D.used n then .error .language
    else .ok { D with consts := D.consts ++ [(.str n, s)] }
  else .error .undefinedVariable

/-- Models `visitObject_declaration` (reader.py:172-176). -/
def createConsts : PDecls → List (String × String) → Except Err PDecls
  | D, [] => .ok D
  | D, (n, s) :: l => match createConst D n s with
    | .error e => .error e
    | .ok D' => createConsts D' l

/-- A possibly typed list of names; `obj` tells whether `object` may be in its untyped part (reader.py:95-129;
fstrips.g4:102-121). `pend` are the names since the last type, `so` tells whether `object` was among them. Returns the
untyped names and the typed ones. -/
def readNamesGo (obj : Bool) : List String → Bool → List SX → Except Err (List (String × String) × List (String × String))
  | pend, _, [] => .ok (pend.map (fun n => (n, "object")), [])
  | pend, so, x :: xs => match x with
    | .tok (.name s) => readNamesGo obj (pend ++ [lowerS s]) so xs
    | .tok (.kw .kObject) => if obj then readNamesGo obj pend true xs else .error .syntactic
    | .tok .dash => match xs with
      | [] => .error .syntactic
      | ty :: ys =>
        if pend = [] ∨ so = true then .error .syntactic
        else match readTypename ty with
          | .error e => .error e
          | .ok s => match readNamesGo obj [] false ys with
            | .error e => .error e
            | .ok (u, t) => .ok (u, pend.map (fun n => (n, s)) ++ t)
    | _ => .error .syntactic

/-- The untyped names come first (reader.py:118, 129). -/
def readNames (obj : Bool) (xs : List SX) : Except Err (List (String × String)) :=
  match readNamesGo obj [] false xs with
  | .error e => .error e
  | .ok (u, t) => .ok (u ++ t)

/-- Models `visitSingle_predicate_definition` (reader.py:131-134; fol.py:288-295). -/
def readPredDecl (D : PDecls) : SX → Except Err PDecls
  | .list (.tok (.name p) :: vs) => match readVarsList D.rlang vs with
    | .error e => .error e
    | .ok vs => if D.used (lowerS p) then .error .language
      else .ok { D with preds := D.preds ++ [(lowerS p, vs.map Var.sort)] }
  | _ => .error .syntactic

def readPredDecls : PDecls → List SX → Except Err PDecls
  | D, [] => .ok D
  | D, x :: xs => match readPredDecl D x with
    | .error e => .error e
    | .ok D' => readPredDecls D' xs

/-- Models `visitTyped_function_definition` (reader.py:151-155; fol.py:315-322), given the codomain. -/
def readFunDecl (D : PDecls) (x : SX) (s : String) : Except Err PDecls :=
  match x with
  | .list (.tok t :: vs) => match actionName t with
    | none => .error .syntactic
    | some f => match readVarsList D.rlang vs with
      | .error e => .error e
      | .ok vs => if D.used (lowerS f) then .error .language
        else if D.hasSort s then .ok { D with funs := D.funs ++ [(lowerS f, vs.map Var.sort, s)] }
        else .error .undefinedVariable
  | _ => .error .syntactic

/-- `single_function_definition*` (reader.py:151-159; fstrips.g4:143-158): without a type, the codomain is `number`. -/
def readFunDecls : PDecls → List SX → Except Err PDecls
  | D, [] => .ok D
  | D, x :: xs => match xs with
    | .tok .dash :: ty :: ys => match readTypename ty with
      | .error e => .error e
      | .ok s => match readFunDecl D x s with
        | .error e => .error e
        | .ok D' => readFunDecls D' ys
    | ys => match readFunDecl D x "number" with
      | .error e => .error e
      | .ok D' => readFunDecls D' ys

/-- A requirement key. -/
def isKey : SX → Bool
  | .tok (.ckw .key) => true
  | .tok (.ckw .actionCosts) => true
  | .tok (.ckw .numericFluents) => true
  | _ => false

def isCosts : SX → Bool
  | .tok (.ckw .actionCosts) => true
  | _ => false

def isFluents : SX → Bool
  | .tok (.ckw .numericFluents) => true
  | _ => false

/-- Loading the arithmetic theory into a language without it (theories.py:44-65, 86-110). -/
def PDecls.loadArith (D : PDecls) : Except Err PDecls :=
  if ["Real", "Integer", "Natural", "ite"].any D.used then .error .language else .ok { D with arithmetic := true }

/-- Models `visitRequireDef` and `process_requirements` (reader.py:84-89, common.py:33-38, 66-71). The parser keeps the
requirements of both files in one set; those of the domain have no further effect on the instance, since the sort
`Integer` is there already. -/
def readRequire (D : PDecls) (xs : List SX) : Except Err PDecls :=
  if xs.all isKey then
    if xs.any isCosts && !D.numeric then match D.loadArith with
      | .error e => .error e
      | .ok D' => createSort D' "number" "number"
    else if xs.any isFluents && !D.numeric then D.loadArith
    else .ok D
  else .error .syntactic

/-! ### Reader: files -/

/-- The content of a section with the given keyword. -/
def secOf (k : CKw) : SX → Option (List SX)
  | .list (.tok (.ckw k') :: xs) => if k' = k then some xs else none
  | _ => none

/-- An optional section: its content, if it is there, is processed by the visitor. -/
def readSec (k : CKw) (f : PDecls → List SX → Except Err PDecls) (D : PDecls) (xs : List SX) : Except Err (PDecls × List SX) :=
  match xs with
  | [] => .ok (D, [])
  | x :: ys => match secOf k x with
    | none => .ok (D, x :: ys)
    | some zs => match f D zs with
      | .error e => .error e
      | .ok D' => .ok (D', ys)

/-- Declarations of types (reader.py:91-93). -/
def readTypes (D : PDecls) (xs : List SX) : Except Err PDecls :=
  match readNames true xs with
  | .error e => .error e
  | .ok l => createSorts D l

/-- Declarations of objects and constants (reader.py:172-179). -/
def readObjects (D : PDecls) (xs : List SX) : Except Err PDecls :=
  match readNames false xs with
  | .error e => .error e
  | .ok l => createConsts D l

/-- `structureDef*` (fstrips.g4:178-184): actions (with `problem.action`, problem.py:36-41); derived predicates are not
supported (reader.py:450-451); events and constraints are not modelled. -/
def readStructures (D : PDecls) : List PAction → List SX → Except Err (List PAction)
  | as, [] => .ok as
  | as, x :: xs => match secOf .action x with
    | none => .error .notImplemented
    | some _ => match readAction D.rlang x with
      | .error e => .error e
      | .ok a => if as.any (fun b => b.name == a.name) then .error .language else readStructures D (as ++ [a]) xs

/-- Models `uniformize_costs` (common.py:124-133, action.py:76-77). -/
def uniformCosts (D : PDecls) (as : List PAction) : Except Err (List PAction) :=
  if as.any (fun a => a.cost.isSome) && as.any (fun a => a.cost.isNone) then
    if D.numeric then
      .ok (as.map (fun a => match a.cost with
        | some _ => a
        | none => { a with cost := some (.const (.int 0) "Integer") }))
    else .error .undefinedVariable
  else .ok as

/-- A domain that was read. -/
structure PDomain where
  name : String
  lang : PDecls
  actions : List PAction

/-- Models the visit of `domain` (fstrips.g4:67-76) and `parse_domain` (io/fstrips.py:80-82), on a problem whose language
has the given declarations. The code first parses the whole text and then visits it; here a section is visited as soon as
it is parsed, which only matters for which error is raised first. -/
def readDomain (D0 : PDecls) : SX → Except Err PDomain
  | .list (.tok (.kw .kDefine) :: .list [.tok (.kw .kDomain), .tok (.name n)] :: xs) =>
    match readSec .requirements readRequire D0 xs with
    | .error e => .error e
    | .ok (D1, x1) => match readSec .types readTypes D1 x1 with
      | .error e => .error e
      | .ok (D2, x2) => match readSec .constants readObjects D2 x2 with
        | .error e => .error e
        | .ok (D3, x3) => match readSec .predicates readPredDecls D3 x3 with
          | .error e => .error e
          | .ok (D4, x4) => match readSec .functions readFunDecls D4 x4 with
            | .error e => .error e
            | .ok (D5, x5) => match readStructures D5 [] x5 with
              | .error e => .error e
              | .ok as => match uniformCosts D5 as with
                | .error e => .error e
                | .ok bs => .ok ⟨n, D5, bs⟩
  | _ => .error .syntactic

/-- `sort.encode(text)` of an interval (sorts.py:195-202). -/
def encodeText (real : Bool) (t : Text) : Except Err Int :=
  if t.contains '.' then
    if real then
      (if ((t.dropWhile (· != '.')).drop 1).all (· == '0') then .ok (intVal (t.takeWhile (· != '.'))) else .error .notImplemented)
    else .error .value
  else .ok (intVal t)

/-- `sort.set_bounds` (sorts.py:93-95). -/
def setBounds (n : String) (b : Int × Int) : List SDecl → List SDecl
  | [] => []
  | d :: ds => if d.name = n then { d with bounds := some b } :: ds else d :: setBounds n b ds

def isNumericTy : PTok → Bool
  | .kw .kInt => true
  | .kw .kFloat => true
  | .kw .kNumber => true
  | _ => false

/-- Models `visitTypeBoundsDefinition` (reader.py:161-170; fstrips.g4:379-381). The builtin sorts cannot be named, since
names are in lower case. -/
def readBound (D : PDecls) : SX → Except Err PDecls
  | .list [.tok (.name n), .tok .dash, .tok ty, .tok .lbrk, .tok (.num a), .tok .dots, .tok (.num b), .tok .rbrk] =>
    if isNumericTy ty then
      if D.hasSort (lowerS n) then
        match D.bounds (lowerS n) with
        | none => .error .syntactic
        | some _ => match encodeText (D.real (lowerS n)) a with
          | .error e => .error e
          | .ok l => match encodeText (D.real (lowerS n)) b with
            | .error e => .error e
            | .ok u => .ok { D with sorts := setBounds (lowerS n) (l, u) D.sorts }
      else .error .undefinedVariable
    else .error .syntactic
  | _ => .error .syntactic

def readBounds : PDecls → List SX → Except Err PDecls
  | D, [] => .ok D
  | D, x :: xs => match readBound D x with
    | .error e => .error e
    | .ok D' => readBounds D' xs

/-- `optimization` (fstrips.g4:425; fstrips.py:117-120). -/
def readOpt : PTok → Option Bool
  | .kw .kMinimize => some true
  | .kw .kMaximize => some false
  | _ => none

/-- Models `visitProblemMetric` with a functional expression (reader.py:419-425); the other metrics are not modelled. -/
def readMetric (D : PDecls) : List SX → Except Err (Bool × Term)
  | [.tok k, x] => match readOpt k with
    | none => .error .syntactic
    | some o => match readFunT D.rlang none x with
      | .error e => .error e
      | .ok (.term t) => .ok (o, t)
      | .ok (.num _) => .error .syntactic
  | _ => .error .notImplemented

/-- `problemMeta*` (fstrips.g4:356-360); constraints are not modelled. -/
def readMetas : PDecls → Option (Bool × Term) → List SX → Except Err (PDecls × Option (Bool × Term))
  | D, m, [] => .ok (D, m)
  | D, m, x :: xs => match secOf .bounds x with
    | some bs => if bs = [] then .error .syntactic else match readBounds D bs with
      | .error e => .error e
      | .ok D' => readMetas D' m xs
    | none => match secOf .metric x with
      | none => .error .notImplemented
      | some ys => match readMetric D ys with
        | .error e => .error e
        | .ok m' => readMetas D (some m') xs

/-- Models the visit of `problem` (fstrips.g4:345-354): objects, initial state, goal and the rest, in this order. -/
def readInstance (P : PDomain) : SX → Except Err PProblem
  | .list (.tok (.kw .kDefine) :: .list [.tok (.kw .kProblem), .tok (.name n)] ::
      .list [.tok (.ckw .domain), .tok (.name _)] :: xs) =>
    match readSec .requirements readRequire P.lang xs with
    | .error e => .error e
    | .ok (D1, x1) => match readSec .objects readObjects D1 x1 with
      | .error e => .error e
      | .ok (D2, x2) => match x2 with
        | xi :: xg :: metas => match secOf .init xi, secOf .goal xg with
          | some is, some [g] => match readInitGo D2.mlang D2.rlang D2.real .empty is with
            | .error e => .error e
            | .ok m => match readF D2.rlang none g with
              | .error e => .error e
              | .ok f => match readMetas D2 none metas with
                | .error e => .error e
                | .ok (D3, mt) => .ok ⟨n, P.name, D3, m, some f, P.actions, [], mt⟩
          | _, _ => .error .syntactic
        | _ => .error .syntactic
  | _ => .error .syntactic

/-- One tree. -/
def readOne (t : Text) : Except Err SX :=
  match readTrees t with
  | .error e => .error e
  | .ok [x] => .ok x
  | .ok _ => .error .syntactic

/-- A language with the given theories and no declarations (io/fstrips.py:62, fstrips.py:285-294). -/
def PDecls.bare (D : PDecls) : PDecls := { D with sorts := [], consts := [], preds := [], funs := [] }

/-- Models `parse_domain_string` (io/fstrips.py:80-86), for a reader created over the language `D0`. -/
def readDomainText (D0 : PDecls) (dom : Text) : Except Err PDomain :=
  match readOne dom with
  | .error e => .error e
  | .ok x => readDomain D0 x

/-- Models `read_problem` (io/fstrips.py:70-73) on the texts of the two files, for a reader created over the language `D0`. -/
def readProblem (D0 : PDecls) (dom inst : Text) : Except Err PProblem :=
  match readDomainText D0 dom with
  | .error e => .error e
  | .ok P => match readOne inst with
    | .error e => .error e
    | .ok y => readInstance P y

end Tarski

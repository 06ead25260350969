import Verif.LPGround
import Verif.RddlModel
/-! Model of the helpers that read and write atoms as texts: /repo/src/tarski/utils/helpers.py:6-23 and
/repo/src/tarski/utils/serialization.py:1-5. -/
namespace Tarski

/-- `s.strip()`; `sp` tells which characters are white space. -/
def pyStrip (sp : Char → Bool) (s : AStr) : AStr := ((s.dropWhile sp).reverse.dropWhile sp).reverse

/-- The parts of a text (helpers.py:9-10): `string.rstrip(")").replace("(", ",").split(",")`, each part stripped. -/
def atomParts (sp : Char → Bool) (s : AStr) : List AStr :=
  (pySplit ',' ((pyRstrip [')'] s).map fun c => if c = '(' then ',' else c)).map (pyStrip sp)

/-- Models `lang.get(name)` (fol.py:426-434). -/
def getElem1 (L : Lang) (name : String) : Except Err LObj :=
  match L.index name with
  | some o => .ok o
  | none => .error .undefinedTerm

/-- `[lang.get(o) for o in parts[1:]]` (helpers.py:12) -/
def getElems (L : Lang) : List String → Except Err (List LObj)
  | [] => .ok []
  | a :: as => match getElem1 L a with
    | .error e => .error e
    | .ok o => match getElems L as with
      | .error e => .error e
      | .ok os => .ok (o :: os)

/-- What `pred(*args)` returns (helpers.py:13): an atom, or a term when the first name is that of a function. -/
inductive Parsed where
  | atom (p : String) (pt : List Const)
  | term (f : String) (pt : List Const)
deriving DecidableEq

/-- The loop over the arguments of an atom (formulas.py:325-333): each must be a term of a subsort. The elements of a language
that are terms are its constants. -/
def callAtomArgs (sub : String → String → Bool) : List LObj → List String → Except Err (List Const)
  | .const c t :: os, s :: ss =>
    if sub t s then match callAtomArgs sub os ss with
      | .error e => .error e
      | .ok cs => .ok (⟨.str c, t⟩ :: cs)
    else .error .sortMismatch
  | _ :: _, _ :: _ => .error .language
  | _, _ => .ok []

/-- The loop over the arguments of a compound term (terms.py:172-184). For elements that are not constants the calls to `sort`
and `cast` raise; the kind of exception is not modelled. -/
def callTermArgs (sub : String → String → Bool) : List LObj → List String → Except Err (List Const)
  | .const c t :: os, s :: ss =>
    if t = s || sub t s then match callTermArgs sub os ss with
      | .error e => .error e
      | .ok cs => .ok (⟨.str c, t⟩ :: cs)
    else .error .sortMismatch
  | _ :: _, _ :: _ => .error .sortMismatch
  | _, _ => .ok []

/-- `pred(*args)` (predicate.py:54-57, formulas.py:313-333, function.py:55-58, terms.py:167-185); sorts and constants cannot be
called. -/
def callElem (sub : String → String → Bool) : LObj → List LObj → Except Err Parsed
  | .pred p ss, os => if os.length ≠ ss.length then .error .arity else match callAtomArgs sub os ss with
    | .error e => .error e
    | .ok pt => .ok (.atom p pt)
  | .func f ss, os => if os.length ≠ ss.length - 1 then .error .arity else match callTermArgs sub os ss.dropLast with
    | .error e => .error e
    | .ok pt => .ok (.term f pt)
  | _, _ => .error .typeError

/-- Models `parse_atom` (helpers.py:6-13); `n` bounds the subtype test (Language.lean). -/
def parseAtom (sp : Char → Bool) (n : Nat) (L : Lang) (s : AStr) : Except Err Parsed :=
  match (atomParts sp s).map String.ofList with
  | [] => .error .index
  | p :: args => match getElem1 L p with
    | .error e => .error e
    | .ok o => match getElems L args with
      | .error e => .error e
      | .ok os => callElem (L.subB n) o os

/-- The loop of `parse_model` (helpers.py:20-21). -/
def parseAtoms (sp : Char → Bool) (n : Nat) (enc : String → Name → Bool) (L : Lang) : MState → List AStr → MState × Option Err
  | m, [] => (m, none)
  | m, s :: ss => match parseAtom sp n L s with
    | .error e => (m, some e)
    | .ok (.term _ _) => (m, some .semantic)
    | .ok (.atom p pt) => match m.add (L.forModel n enc) (.user p) (pt.map .const) with
      | (m', none) => parseAtoms sp n enc L m' ss
      | r => r

/-- Models `utils.parse_model` (helpers.py:16-23). -/
def parseModelText (sp : Char → Bool) (n : Nat) (enc : String → Name → Bool) (L : Lang) (ss : List AStr) : Except Err MState :=
  match parseAtoms sp n enc L MState.empty ss with
  | (m, none) => .ok m
  | (_, some e) => .error e

/-- `','.join(…)` -/
def joinComma : List AStr → AStr
  | [] => []
  | [a] => a
  | a :: as => a ++ ',' :: joinComma as

/-- Models `serialize_atom` (serialization.py:1-5) on atoms whose arguments are constants with the given texts. -/
def serializeAtom (p : AStr) (args : List AStr) : AStr := if args.isEmpty then p else p ++ ',' :: joinComma args

/-- Models `str(atom)` (formulas.py:335-336). -/
def atomString (p : AStr) (args : List AStr) : AStr := p ++ '(' :: (joinComma args ++ [')'])

end Tarski

import Verif.PddlRead
import Verif.PddlWrite
import Verif.Model
/-! Model of the PDDL/FSTRIPS writer and reader on initial states: /repo/src/tarski/io/fstrips.py:135-161 and
/repo/src/tarski/io/_fstrips/reader.py:358-393 (grammar fstrips.g4:383-402). -/
namespace Tarski

/-- What models consult of a language (model.py), out of what the visitor consults; `contains` and `interval` are about
the domains of the sorts (sorts.py:35-52, 80-124). -/
def RLang.toM (L : RLang) (contains : String → Name → Bool) (interval : String → Bool) : MLang where
  psorts p := (L.preds p).getD []
  fsorts f := match L.funs f with
    | some (ss, c) => ss ++ [c]
    | none => []
  isSub := L.isSub
  contains := contains
  interval := interval

/-! ### Writer -/

/-- A point of an extension: `print_term_ref_list` (io/fstrips.py:418-419). -/
def printPoint (real : String → Bool) (pt : List Const) : Text :=
  joinWith [' '] (pt.map (fun c => printConst real c.name c.sort))

/-- `(= (f point) value)` (io/fstrips.py:152). -/
def printInitFun (real : String → Bool) (f : String) (pt : List Const) (v : Const) : Text :=
  ['(', '=', ' ', '('] ++ f.toList ++ ' ' :: printPoint real pt ++ [')', ' '] ++ printConst real v.name v.sort ++ [')']

/-- `(p point)` (io/fstrips.py:159). -/
def printInitPred (real : String → Bool) (p : String) (pt : List Const) : Text :=
  '(' :: p.toList ++ ' ' :: printPoint real pt ++ [')']

/-- The elements of `print_init` (io/fstrips.py:145-159): `signature[0]` is the name of the symbol. Intensionally
defined functions are not modelled. -/
def initTexts (real : String → Bool) (m : MState) : List Text :=
  (m.fns.map (fun kv => kv.2.map (fun pv => printInitFun real (kv.1.headD "") pv.1 pv.2))).flatten ++
  (m.preds.map (fun kv => kv.2.map (fun pt => printInitPred real (kv.1.headD "") pt))).flatten

/-- Models `linebreaks(elements, indentation=2, indent_first=False)` (io/fstrips.py:135-141). -/
def lines2 (ts : List Text) : Text := joinWith ('\n' :: List.replicate 8 ' ') ts

/-- Models `print_init` (io/fstrips.py:144-161). -/
def printInit (real : String → Bool) (m : MState) : Text := lines2 (initTexts real m)

/-! ### Reader -/

/-- What the visitor returns for a `constant_name` (reader.py:388-393): a constant, or the text of a number. -/
inductive RCon where
  | sym (c : Const)
  | num (t : Text)
deriving DecidableEq

/-- Models `visitSymbolic_constant` and `visitNumeric_constant` (reader.py:388-393; fstrips.g4:399-402). -/
def readCon (L : RLang) : SX → Except Err RCon
  | .tok (.name s) => match L.consts (lowerS s) with
    | none => .error .undefinedVariable
    | some srt => .ok (.sym ⟨.str (lowerS s), srt⟩)
  | .tok (.num t) => .ok (.num t)
  | _ => .error .syntactic

def readCons (L : RLang) : List SX → Except Err (List RCon)
  | [] => .ok []
  | x :: xs => match readCon L x with
    | .error e => .error e
    | .ok c => match readCons L xs with
      | .error e => .error e
      | .ok cs => .ok (c :: cs)

/-- `sort.cast(text)` for the text of a number (sorts.py:43-52, 105-116, 195-202): the text itself if it names an
element of a symbolic sort; `int(text)` or `float(text)` within the bounds of an interval. Proper fractions are not
modelled (python floats). -/
def castText (M : MLang) (L : RLang) (real : String → Bool) (s : String) (t : Text) : Except Err Name :=
  if M.interval s then
    if t.contains '.' then
      if real s then
        (if ((t.dropWhile (· != '.')).drop 1).all (· == '0') then L.castInt s (intVal (t.takeWhile (· != '.')))
         else .error .notImplemented)
      else .error .value
    else L.castInt s (intVal t)
  else if M.contains s (.str (String.ofList t)) then .ok (.str (String.ofList t))
  else .error .value

/-- An argument of a predicate, or the value of a function: the text of a number is cast to the expected sort by
`_check_assignment` (model.py:21-23). -/
def castElement (M : MLang) (L : RLang) (real : String → Bool) (c : RCon) (s : String) : Except Err Arg :=
  match c with
  | .sym c => .ok (.const c)
  | .num t => match castText M L real s t with
    | .error e => .error e
    | .ok n => .ok (.const ⟨n, s⟩)

def castElements (M : MLang) (L : RLang) (real : String → Bool) : List RCon → List String → Except Err (List Arg)
  | c :: cs, s :: ss => match castElement M L real c s with
    | .error e => .error e
    | .ok a => match castElements M L real cs ss with
      | .error e => .error e
      | .ok as => .ok (a :: as)
  | _, _ => .ok []

/-- Models `s.to_constant(x)` (sorts.py:54-62, 118-124) for an argument of a function (reader.py:375): a constant is only
accepted if its sort is the declared one; otherwise the membership test hashes the constant, resp. `int`/`float` is
applied to it, which is a TypeError (terms.py:127). -/
def toConstant (M : MLang) (L : RLang) (real : String → Bool) (c : RCon) (s : String) : Except Err Arg :=
  match c with
  | .sym c => if c.sort = s then .ok (.const c) else .error .typeError
  | .num t => match castText M L real s t with
    | .error e => .error e
    | .ok n => .ok (.const ⟨n, s⟩)

def toConstants (M : MLang) (L : RLang) (real : String → Bool) : List RCon → List String → Except Err (List Arg)
  | c :: cs, s :: ss => match toConstant M L real c s with
    | .error e => .error e
    | .ok a => match toConstants M L real cs ss with
      | .error e => .error e
      | .ok as => .ok (a :: as)
  | _, _ => .ok []

/-- The call of `init.add` for `(p c ... c)` (reader.py:363-365, 378-381). -/
def initAdd (M : MLang) (L : RLang) (real : String → Bool) (p : String) (xs : List SX) : Except Err MOp :=
  match L.preds (lowerS p) with
  | none => .error .undefinedVariable
  | some ss => match readCons L xs with
    | .error e => .error e
    | .ok cs =>
      if cs.length ≠ ss.length then .error .arity
      else match castElements M L real cs ss with
        | .error e => .error e
        | .ok as => .ok (.add (.user (lowerS p)) as)

/-- The call of `init.set` for `(= (f c ... c) v)` (reader.py:371-376, 383-386). -/
def initSet (M : MLang) (L : RLang) (real : String → Bool) (f : String) (xs : List SX) (v : SX) : Except Err MOp :=
  match L.funs (lowerS f) with
  | none => .error .undefinedVariable
  | some (ss, s) => match readCons L xs with
    | .error e => .error e
    | .ok cs =>
      if ss.length ≠ cs.length then .error .assertion
      else match readCon L v with
        | .error e => .error e
        | .ok w => match toConstants M L real cs ss with
          | .error e => .error e
          | .ok as => match castElement M L real w s with
            | .error e => .error e
            | .ok a => .ok (.set (lowerS f) false as a)

/-- The tokens of a `constant_name` (fstrips.g4:399-402). -/
def isConTok : SX → Bool
  | .tok (.name _) => true
  | .tok (.num _) => true
  | _ => false

/-- One `init_element` (fstrips.g4:387-397): the call it makes, if any; negative literals are not even looked up
(reader.py:367-369). -/
def initOp (M : MLang) (L : RLang) (real : String → Bool) : SX → Except Err (Option MOp)
  | .list (.tok (.name p) :: xs) => match initAdd M L real p xs with
    | .error e => .error e
    | .ok o => .ok (some o)
  | .list [.tok (.kw .kNot), .list (.tok (.name _) :: xs)] => if xs.all isConTok then .ok none else .error .syntactic
  | .list [.tok (.cmp .eq), .list (.tok (.name f) :: xs), v] => match initSet M L real f xs v with
    | .error e => .error e
    | .ok o => .ok (some o)
  | _ => .error .syntactic

/-- Models `visitInit` (reader.py:358-361): the elements one after the other, on the initial state read so far. -/
def readInitGo (M : MLang) (L : RLang) (real : String → Bool) : MState → List SX → Except Err MState
  | m, [] => .ok m
  | m, x :: xs => match initOp M L real x with
    | .error e => .error e
    | .ok none => readInitGo M L real m xs
    | .ok (some o) => match m.step M o with
      | (_, some e) => .error e
      | (m', none) => readInitGo M L real m' xs

/-- Reads the elements of an initial state from their text, into an empty initial state (problem.py:110). -/
def readInitText (M : MLang) (L : RLang) (real : String → Bool) (t : Text) : Except Err MState :=
  match readTrees t with
  | .error e => .error e
  | .ok xs => readInitGo M L real .empty xs

end Tarski

import Verif.AspNames
import Verif.LPGround
/-! Model of the text of logic programs (/repo/src/tarski/reachability/asp.py:311-325, 361-362, 395-424) and of the files that are given to
the solver and read from it (/repo/src/tarski/reachability/clingo_wrapper.py:32-72). -/
namespace Tarski

/-- `sep.join(l)` -/
def aspJoin (sep : AStr) : List AStr → AStr
  | [] => []
  | [a] => a
  | a :: b :: l => a ++ sep ++ aspJoin sep (b :: l)

/-- `LPAtom` (asp.py:311-316): symbol, arguments (as text) and whether it is written infix. The constructor asserts that an infix atom
has two arguments. -/
structure LPText where
  symbol : AStr
  args : List AStr
  isInfix : Bool
deriving DecidableEq

/-- Models `LPAtom.__init__` (asp.py:312-316). -/
def mkLPAtom (symbol : AStr) (args : List AStr) (isInfix : Bool) : Except Err LPText :=
  if !isInfix || args.length == 2 then .ok ⟨symbol, args, isInfix⟩ else .error .assertion

/-- Models `LPAtom.__str__` (asp.py:318-323). -/
def LPText.text (a : LPText) : AStr :=
  if a.isInfix then match a.args with
    | x :: y :: _ => x ++ [' '] ++ a.symbol ++ [' '] ++ y
    | _ => []
  else a.symbol ++ ['('] ++ aspJoin [',', ' '] a.args ++ [')']

/-- The head of a rule: an atom, or the text `cost(atom, value)` (asp.py:148-158). -/
inductive LPHead where
  | atom (a : LPText)
  | cost (a : LPText) (value : AStr)
deriving DecidableEq

/-- `str(head)` (asp.py:148, 152, 156). -/
def LPHead.text : LPHead → AStr
  | .atom a => a.text
  | .cost a v => ['c', 'o', 's', 't', '('] ++ a.text ++ [',', ' '] ++ v ++ [')']

/-- A call of `rule(head, body)` (asp.py:400-401). -/
structure LPRuleT where
  head : LPHead
  body : Option (List LPText)
deriving DecidableEq

/-- Models `_print_body` (asp.py:423-424). -/
def printBody (b : List LPText) : AStr := aspJoin [',', ' '] (b.map LPText.text)

/-- Models `_print_rule` (asp.py:418-420). -/
def printRule (r : LPRuleT) : AStr :=
  match r.body with
  | none => r.head.text ++ ['.']
  | some b => r.head.text ++ [' ', ':', '-', ' '] ++ printBody b ++ ['.']

/-- The theory file of `run_clingo` (clingo_wrapper.py:35-38): one `print` per rule, then one per directive. -/
def theoryFile (rules : List LPRuleT) (directives : List AStr) : AStr :=
  rules.flatMap (fun r => printRule r ++ ['\n']) ++ directives.flatMap (fun d => d ++ ['\n'])

/-- What `InFileLogicProgram` has written after the calls of `rule` (asp.py:410-415). -/
def inFileProgram : List LPRuleT → AStr → AStr
  | [], fd => fd
  | r :: rs, fd => inFileProgram rs (fd ++ (printRule r ++ ['\n']))

/-- `str.splitlines()`, with the line feed as the only line boundary (clingo_wrapper.py:70). -/
def splitLines : AStr → List AStr
  | [] => []
  | c :: cs => if c = '\n' then [] :: splitLines cs else match splitLines cs with
    | [] => [[c]]
    | l :: ls => if cs.head? = some '\n' then [c] :: ls else (c :: l) :: ls

/-- Models `parse_model` (clingo_wrapper.py:65-72): the files are given as a function from names to contents (in lines), and missing ones
raise FileNotFoundError (`Err.value`); `ArgumentError` is `Err.semantic`. -/
def parseModelArgs (files : AStr → Option (List AStr)) (filename content : Option AStr) (tr : Translator) : Except Err LPModel :=
  let f := filename.getD []
  let c := content.getD []
  if f ≠ [] ∧ c = [] then match files f with
    | none => .error .value
    | some ls => parseModel tr ls
  else if c ≠ [] ∧ f = [] then parseModel tr (splitLines c)
  else .error .semantic

end Tarski

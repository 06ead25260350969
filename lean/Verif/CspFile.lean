import Verif.CspSchema
import Verif.LPGround
import Verif.PddlWrite
/-! Model of the files with the constraint satisfaction problems of action schemas:
/repo/src/tarski/analysis/csp_schema.py:234-282. -/
namespace Tarski

/-- `" ".join(l)` -/
def spaced : List AStr → AStr
  | [] => []
  | [a] => a
  | a :: as => a ++ ' ' :: spaced as

/-- `str(b)` of a Boolean -/
def pyBoolText (b : Bool) : AStr := (if b then "True" else "False").toList

/-- `str` of a builtin predicate (builtins.py:7-17) -/
def relText : Cmp → AStr
  | .eq => "=".toList
  | .ne => "!=".toList
  | .lt => "<".toList
  | .le => "<=".toList
  | .gt => ">".toList
  | .ge => ">=".toList

/-- `str` of a name or of `None` -/
def optText : Option String → AStr
  | some s => s.toList
  | none => "None".toList

/-- The names of a table constraint; `join` raises TypeError on `None`. -/
def joinVars : List (Option String) → Except Err (List AStr)
  | [] => .ok []
  | none :: _ => .error .typeError
  | some s :: vs => match joinVars vs with
    | .error e => .error e
    | .ok ns => .ok (s.toList :: ns)

/-- What is printed so far, and the exception raised if any: an open file keeps what was printed before. -/
abbrev Printed := List AStr × Option Err

/-- One iteration of the loop over the constraints (csp_schema.py:268-281). `sv` is the index of a state variable. -/
def cspConLines (sv : PSym → List Term → Option Nat) : CspCon → Printed
  | .table p vs neg => match joinVars vs with
    | .error e => (["table-constraint".toList], some e)
    | .ok ns => (["table-constraint".toList, spaced [p.toList, "negative=".toList ++ pyBoolText neg, spaced ns]], none)
  | .tableFn f vs => match joinVars vs with
    | .error e => (["table-constraint".toList], some e)
    | .ok ns => (["table-constraint".toList, spaced [f.toList, "negative=".toList ++ pyBoolText false, spaced ns]], none)
  | .stateVar p ts v => match sv p ts with
    | none => ([], some .keyError)
    | some i => (["statevar=const".toList, spaced [intText i, pyBoolText v]], none)
  | .rel c l r => (["relational".toList, spaced [optText l, relText c, optText r]], none)
  | .relFn f l r => (["relational".toList, spaced [optText l, f.toList, optText r]], none)

/-- The loop over the constraints. -/
def cspConsLines (sv : PSym → List Term → Option Nat) : List CspCon → Printed
  | [] => ([], none)
  | c :: cs => match cspConLines sv c with
    | (ls, some e) => (ls, some e)
    | (ls, none) => (ls ++ (cspConsLines sv cs).1, (cspConsLines sv cs).2)

/-- A line for a variable (csp_schema.py:249-250); the type is always `int`. -/
def cspVarLine (v : CspVar) : AStr := spaced [v.name.toList, v.type.toList, "int".toList, intText v.lb, intText v.ub]

/-- `print(n, file=f)` -/
def countLine (n : Nat) : AStr := intText n

/-- The lines about the effect-relevant variables (csp_schema.py:253-261). -/
def relevantLines (relevant params : List String) : List AStr :=
  if relevant.length = params.length then [countLine 0] else countLine relevant.length :: relevant.map String.toList

/-- Models `serialize_schema_csp` (csp_schema.py:246-282): the lines in the file, and the exception raised if any. -/
def cspFile (sv : PSym → List Term → Option Nat) (relevant params : List String) (c : Csp) : Printed :=
  let head := ["variables".toList, countLine c.vars.length] ++ c.vars.map cspVarLine ++ ["end-variables".toList, "effect-relevant-variables".toList] ++
    relevantLines relevant params ++ ["end-effect-relevant-variables".toList, "parameter-index".toList, countLine params.length] ++ params.map String.toList ++
    ["end-parameter-index".toList, "constraints".toList, countLine c.cons.length]
  match cspConsLines sv c.cons with
  | (ls, some e) => (head ++ ls, some e)
  | (ls, none) => (head ++ ls ++ ["end-constraints".toList], none)

/-- The text of a file: each line ends with a line end. -/
def fileText (ls : List AStr) : AStr := (ls.map (· ++ ['\n'])).flatten

end Tarski

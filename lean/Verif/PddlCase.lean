import Verif.PddlDecl
/-! Model of the option `case_insensitive` of the PDDL/FSTRIPS reader: /repo/src/tarski/io/_fstrips/common.py:136-151
(`LowerCasingStreamWrapper`), /repo/src/tarski/io/_fstrips/reader.py:28-45 and /repo/src/tarski/io/fstrips.py:44-100.

With the option, the lexer *matches* the lowercased characters of a file (`LA`), but the text of a token is still cut out
of the original stream: the names, variables and external names keep the letters of the file. -/
namespace Tarski

/-- The token that ends, in a file read with `case_insensitive=True` (common.py:146-151): which token it is depends on the
lowercased characters, its text on the original ones. The other tokens have no letters. -/
def LexSt.flushLC : LexSt → Except Err (List PTok)
  | .word w => match reserved (lowerS (String.ofList w)) with
    | some k => .ok [.kw k]
    | none => .ok [.name (String.ofList w)]
  | .colon w => match colonTok (lowerS (String.ofList w)) with
    | .ok t => .ok [t]
    | .error e => .error e
  | st => st.flush

/-- One character. Whether a character may extend or start a token is the same question for a letter and its lower case
variant (fstrips.g4:521-527), which is why `extend` and `lexStart` are those of PddlText.lean: they look at the original
character and keep it. -/
def lexStepLC (st : LexSt) (c : Char) : Except Err (List PTok × LexSt) :=
  match st.extend c with
  | some r => .ok r
  | none => match st.flushLC with
    | .error e => .error e
    | .ok ts => match lexStart c with
      | .error e => .error e
      | .ok (us, st') => .ok (ts ++ us, st')

/-- The tokens of a text, from a given state. -/
def lexGoLC : LexSt → Text → Except Err (List PTok)
  | st, [] => st.flushLC
  | st, c :: cs => match lexStepLC st c with
    | .error e => .error e
    | .ok (ts, st') => match lexGoLC st' cs with
      | .error e => .error e
      | .ok us => .ok (ts ++ us)

/-- The tokens of a file: reader.py:39-44 wraps the stream if the option is set. -/
def lexFile (ci : Bool) (t : Text) : Except Err (List PTok) := if ci then lexGoLC .idle t else lexPddl t

/-- The tokens of a string: reader.py:35-37 does not look at the option. -/
def lexString (_ci : Bool) (t : Text) : Except Err (List PTok) := lexPddl t

/-- The single tree of a sequence of tokens. -/
def sxTree (ts : Except Err (List PTok)) : Except Err SX :=
  match ts with
  | .error e => .error e
  | .ok ts => match sxGo [] [] ts with
    | .error e => .error e
    | .ok [x] => .ok x
    | .ok _ => .error .syntactic

/-- Models `parse_domain` (io/fstrips.py:80-82) on a file with the given text, for a reader created over the language `D0`
with the given value of the option `case_insensitive`. -/
def parseDomain (ci : Bool) (D0 : PDecls) (dom : Text) : Except Err PDomain :=
  match sxTree (lexFile ci dom) with
  | .error e => .error e
  | .ok x => readDomain D0 x

/-- Models `read_problem` (io/fstrips.py:70-73) on files with the given texts. -/
def readProblemFiles (ci : Bool) (D0 : PDecls) (dom inst : Text) : Except Err PProblem :=
  match parseDomain ci D0 dom with
  | .error e => .error e
  | .ok P => match sxTree (lexFile ci inst) with
    | .error e => .error e
    | .ok y => readInstance P y

/-- Models `parse_domain_string` (io/fstrips.py:88-90). -/
def parseDomainString (ci : Bool) (D0 : PDecls) (dom : Text) : Except Err PDomain :=
  match sxTree (lexString ci dom) with
  | .error e => .error e
  | .ok x => readDomain D0 x

end Tarski

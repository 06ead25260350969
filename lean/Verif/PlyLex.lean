import Verif.PddlText
import Verif.Containers
/-! Model of the lexical analyser of the PLY-based PDDL reader: /repo/src/tarski/io/pddl/lexer.py.

PLY tries the rules given as functions in the order of the file, then the ones given as strings, longer patterns first, and
takes the first that matches (not the longest match). Blanks (`t_ignore`, 177) are skipped before. -/
namespace Tarski

/-- The value of a token: text, or a number. A real number is kept as its text. -/
inductive TVal where
  | text (s : Text)
  | nat (n : Nat)
  | real (s : Text)
deriving DecidableEq

/-- A token: its type, its value and the line it carries. -/
structure LexTok where
  type : String
  value : TVal
  line : Nat
deriving DecidableEq

/-- Models `reserved` (lexer.py:28-124, 136): the texts of LexSymbols with the names of the attributes. Two attributes have the
text `:timed-initial-literals`, of which the dictionary keeps the later one. -/
def reservedWords : List (Text × String) := [
  (":strips".toList, "rwSTRIPS"), (":typing".toList, "rwTYPING"),
  (":negative-preconditions".toList, "rwNEGATIVE_PRECONDITIONS"),
  (":disjunctive-preconditions".toList, "rwDISJUNCTIVE_PRECONDITIONS"), (":equality".toList, "rwEQUALITY"),
  (":existential-preconditions".toList, "rwEXISTENTIAL_PRECONDITIONS"),
  (":universal-preconditions".toList, "rwUNIVERSAL_PRECONDITIONS"),
  (":quantified-preconditions".toList, "rwQUANTIFIED_PRECONDITIONS"),
  (":conditional-effects".toList, "rwCONDITIONAL_EFFECTS"), (":object-fluents".toList, "rwOBJECT_FLUENTS"),
  (":numeric-fluents".toList, "rwNUMERIC_FLUENTS"), (":fluents".toList, "rwFLUENTS"), (":adl".toList, "rwADL"),
  (":durative-actions".toList, "rwDURATIVE_ACTIONS"), (":derived-predicates".toList, "rwDERIVED_PREDICATES"),
  (":timed-initial-literals".toList, "rwTIMED_INITIAL_LITERALS"), (":preferences".toList, "rwPREFERENCES"),
  (":action-costs".toList, "rwACTION_COSTS"), (":constraints".toList, "rwCONSTRAINTS"),
  (":continuous-effects".toList, "rwCONTINUOUS_EFFECTS"), (":duration-inequalities".toList, "rwDURATION_INEQUALITIES"),
  (":requirements".toList, "rwREQUIREMENTS"), (":init".toList, "rwINIT"), (":goal".toList, "rwGOAL"),
  (":action".toList, "rwACTION"), (":domain".toList, "rwDOMAIN_REF"), (":constants".toList, "rwCONSTANTS"),
  (":predicates".toList, "rwPREDICATES"), (":functions".toList, "rwFUNCTIONS"), (":derived".toList, "rwDERIVED"),
  (":objects".toList, "rwOBJECTS"), (":metric".toList, "rwMETRIC"), (":durative-action".toList, "rwDURATIVE_ACTION"),
  (":types".toList, "rwTYPES"), (":precondition".toList, "rwPRECONDITION"), (":effect".toList, "rwEFFECT"),
  (":parameters".toList, "rwPARAMETERS"), (":condition".toList, "rwCONDITION"), (":duration".toList, "rwDURATION"),
  ("and".toList, "rwAND"), ("not".toList, "rwNOT"), ("or".toList, "rwOR"), ("imply".toList, "rwIMPLY"),
  ("exists".toList, "rwEXISTS"), ("forall".toList, "rwFORALL"), ("when".toList, "rwWHEN"), ("domain".toList, "rwDOMAIN"),
  ("problem".toList, "rwPROBLEM"), ("at".toList, "rwAT"), ("over".toList, "rwOVER"), ("start".toList, "rwSTART"),
  ("end".toList, "rwEND"), ("overall".toList, "rwOVERALL"), ("assign".toList, "rwASSIGN"), ("define".toList, "rwDEFINE"),
  ("increase".toList, "rwINCREASE"), ("decrease".toList, "rwDECREASE"), ("scale-up".toList, "rwSCALE_UP"),
  ("scale-down".toList, "rwSCALE_DOWN"), ("int".toList, "rwINT"), ("float".toList, "rwFLOAT"),
  ("object".toList, "rwOBJECT"), ("number".toList, "rwNUMBER"), ("either".toList, "rwEITHER"),
  ("always".toList, "rwALWAYS"), ("sometime".toList, "rwSOMETIME"), ("within".toList, "rwWITHIN"),
  ("at-most-once".toList, "rwAT_MOST_ONCE"), ("sometime-after".toList, "rwSOMETIME_AFTER"),
  ("sometime-before".toList, "rwSOMETIME_BEFORE"), ("always-within".toList, "rwALWAYS_WITHIN"),
  ("hold-during".toList, "rwHOLD_DURING"), ("hold-after".toList, "rwHOLD_AFTER"), ("preference".toList, "rwPREFERENCE"),
  ("undefined".toList, "rwUNDEFINED"), ("minimize".toList, "rwMINIMIZE"), ("maximize".toList, "rwMAXIMIZE"),
  ("#t".toList, "rwDT"), ("total-time".toList, "rwTOTAL_TIME"), ("total-cost".toList, "rwTOTAL_COST"),
  ("is-violated".toList, "rwIS_VIOLATED"), ("all".toList, "rwALL")]

/-- Models `self.reserved.get(t.value, default)` (lexer.py:210, 216, 221). -/
def tokenType (w : Text) (default : String) : String := (dlookup reservedWords w).getD default

/-- Drops the end of a run of word characters that no identifier can end with. -/
def trimTail (w : Text) : Text := (w.reverse.dropWhile fun c => !(isLetter c || isDig c)).reverse

/-- Models a match of `identifier` (lexer.py:17) at the beginning of a text. -/
def identMatch : Text → Option Text
  | [] => none
  | c :: cs => if isLetter c then some (c :: trimTail (cs.takeWhile isWordChar)) else none

/-- Models a match of `real` (lexer.py:22). -/
def realMatch (cs : Text) : Option Text :=
  match cs.dropWhile isDig with
  | '.' :: r => if r.takeWhile isDig = [] then none else some (cs.takeWhile isDig ++ '.' :: r.takeWhile isDig)
  | _ => none

/-- Models a match of `nat` (lexer.py:21). -/
def natMatch (cs : Text) : Option Text := if cs.takeWhile isDig = [] then none else some (cs.takeWhile isDig)

/-- The number that some digits denote. -/
def plyDigits (w : Text) : Nat := w.foldl (fun n c => 10 * n + (c.toNat - 48)) 0

/-- The rules given as strings (lexer.py:179-199), longer patterns first: what is matched and the type of the token. -/
def punctMatch : Text → Option (Text × String)
  | '.' :: '.' :: _ => some (['.', '.'], "DOUBLEDOT")
  | '<' :: '=' :: _ => some (['<', '='], "LEQ")
  | '>' :: '=' :: _ => some (['>', '='], "GEQ")
  | '?' :: _ => some (['?'], "QUESTION")
  | '(' :: _ => some (['('], "LPAREN")
  | ')' :: _ => some ([')'], "RPAREN")
  | '+' :: _ => some (['+'], "PLUS")
  | '*' :: _ => some (['*'], "TIMES")
  | '=' :: _ => some (['='], "EQUA")
  | '<' :: _ => some (['<'], "LT")
  | '>' :: _ => some (['>'], "GT")
  | '-' :: _ => some (['-'], "MINUS")
  | '/' :: _ => some (['/'], "DIV")
  | _ => none

/-- The rules for numbers and punctuation, and `t_error` (lexer.py:228-240): an illegal character is reported and skipped. -/
def lexRest (c : Char) (cs : Text) : Text × Option (String × TVal) :=
  match realMatch (c :: cs) with
  | some w => (w, some ("REAL", .real w))
  | none => match natMatch (c :: cs) with
    | some w => (w, some ("NAT", .nat (plyDigits w)))
    | none => match punctMatch (c :: cs) with
      | some (w, t) => (w, some (t, .text w))
      | none => ([c], none)

/-- One step of the lexer: the text that is consumed, and the token if there is one (lexer.py:177-226). The rule for newlines
matches a run of them; the model takes them one by one, which gives the same tokens and lines. `t_SECTION` (224-226) returns
nothing. -/
def lexOne (c : Char) (cs : Text) : Text × Option (String × TVal) :=
  if c = ' ' ∨ c = '\t' ∨ c = '\n' then ([c], none)
  else if c = ';' then (c :: cs.takeWhile (· ≠ '\n'), none)
  else match identMatch (c :: cs) with
    | some w => (w, some (tokenType w "ID", .text (w.map Char.toLower)))
    | none => match c, cs with
      | '?', cs => match identMatch cs with
        | some w => ('?' :: w, some (tokenType ('?' :: w) "VAR", .text ('?' :: w)))
        | none => lexRest '?' cs
      | ':', '(' :: cs => match identMatch cs with
        | some w => (':' :: '(' :: w, none)
        | none => lexRest ':' ('(' :: cs)
      | ':', cs => match identMatch cs with
        | some w => (':' :: w, some (tokenType (':' :: w) "UNKNOWN_DIRECTIVE", .text (':' :: w)))
        | none => lexRest ':' cs
      | c, cs => lexRest c cs

/-- The tokens of a text, read from a line on; the second argument counts the characters already consumed (lexer.py:248-268). -/
def lexFrom : Nat → Nat → Text → List LexTok
  | _, _, [] => []
  | line, k + 1, _ :: cs => lexFrom line k cs
  | line, 0, c :: cs =>
    let r := lexOne c cs
    ((r.2.map fun t => LexTok.mk t.1 t.2 line).toList) ++ lexFrom (if c = '\n' then line + 1 else line) (r.1.length - 1) cs

/-- The line of the lexer after a text (lexer.py:201-203). -/
def lineAfter : Nat → Nat → Text → Nat
  | line, _, [] => line
  | line, k + 1, _ :: cs => lineAfter line k cs
  | line, 0, c :: cs => lineAfter (if c = '\n' then line + 1 else line) ((lexOne c cs).1.length - 1) cs

/-- Models `input` followed by `token` until the end (lexer.py:248-268). The lexer starts on line 1 and keeps its line from one
text to the next. -/
def plyLex (line : Nat) (text : Text) : List LexTok := lexFrom line 0 text

end Tarski

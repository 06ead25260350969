import Verif.Syntax
/-! Model of the text layer of the PDDL/FSTRIPS reader: the tokens of /repo/utils/parsers/grammars/fstrips.g4 (lines
465-544, compiled into /repo/src/tarski/io/_fstrips/parser/lexer.py) and the nesting of parentheses.

The lexer is the usual longest-match automaton; when a word matches several rules the earlier rule wins, so that a
reserved word is never a NAME. A text the lexer or the parser does not accept raises, i.e. the reader is created with
`raise_on_error=True` (io/fstrips.py:44-68); the error recovery of ANTLR, which otherwise patches up the token stream and
goes on, is not modelled. Neither are the tokens `#t` and `(total-time)`, which the writer never prints. -/
namespace Tarski

/-- Texts. -/
abbrev Text := List Char

/-- Reserved words (fstrips.g4: `K_AND` ... `NUMBER_T` in lines 493-515, and the words quoted in the parser rules).
`other` stands for the reserved words that no modelled rule mentions. -/
inductive Kw where
  | kAnd | kNot | kOr | kImply | kExists | kForall | kWhen | kDefine
  | kIncrease | kDecrease | kScaleUp | kScaleDown | kAssign
  | kInt | kFloat | kObject | kNumber
  | kDomain | kProblem | kEither | kMax | kMin | kMinimize | kMaximize
  | kUnary | kOther
deriving DecidableEq, Repr, Inhabited

/-- Words that start with a colon (the requirement keys are one token, REQUIRE_KEY; the two that have an effect,
common.py:33-38, are told apart here). -/
inductive CKw where
  | requirements | types | functions | constants | predicates | parameters | derived | domain | objects | bounds
  | goal | metric | init | precondition | effect | action | constraints
  | key | actionCosts | numericFluents | other
deriving DecidableEq, Repr, Inhabited

/-- Tokens. `ar` is one of `*`, `+`, `/`, `^`. The texts of names, variables and numbers are kept as they are; the
visitor lowercases them. -/
inductive PTok where
  | lpar | rpar | lbrk | rbrk | dash | dots
  | kw (k : Kw)
  | ckw (k : CKw)
  | cmp (c : Cmp)
  | ar (c : Char)
  | name (s : String)
  | ext (s : String)
  | var (s : String)
  | num (t : Text)
deriving DecidableEq, Repr, Inhabited

/-- `LETTER` (fstrips.g4:523). -/
def isLetter (c : Char) : Bool := ('a' ≤ c && c ≤ 'z') || ('A' ≤ c && c ≤ 'Z')
/-- `DIGIT` (fstrips.g4:521). -/
def isDig (c : Char) : Bool := '0' ≤ c && c ≤ '9'
/-- `ANY_CHAR` (fstrips.g4:525-527). -/
def isWordChar (c : Char) : Bool := isLetter c || isDig c || c == '_' || c == '-'
/-- `WHITESPACE` (fstrips.g4:538-544). -/
def isBlank (c : Char) : Bool := c == ' ' || c == '\t' || c == '\r' || c == '\n'

/-- `str.lower()` of an ASCII text. -/
def lowerC (c : Char) : Char := if 'A' ≤ c && c ≤ 'Z' then Char.ofNat (c.toNat + 32) else c
/-- `str.lower()` (reader.py, everywhere). -/
def lowerS (s : String) : String := String.ofList (s.toList.map lowerC)

/-- Reserved words in which the case of the letters does not matter (fstrips.g4:493-508). -/
def kwAnyCase : List (String × Kw) :=
  [("and", .kAnd), ("not", .kNot), ("or", .kOr), ("imply", .kImply), ("exists", .kExists), ("forall", .kForall),
   ("when", .kWhen), ("define", .kDefine), ("increase", .kIncrease), ("decrease", .kDecrease)]

/-- Reserved words to be written exactly (the words quoted in the parser rules, which come before NAME, and fstrips.g4:509-515). -/
def kwExact : List (String × Kw) :=
  [("scale-up", .kScaleUp), ("scale-down", .kScaleDown), ("int", .kInt), ("float", .kFloat), ("object", .kObject),
   ("number", .kNumber), ("domain", .kDomain), ("problem", .kProblem), ("either", .kEither), ("assign", .kAssign),
   ("max", .kMax), ("min", .kMin), ("minimize", .kMinimize), ("maximize", .kMaximize),
   ("sin", .kUnary), ("cos", .kUnary), ("sqrt", .kUnary), ("tan", .kUnary), ("acos", .kUnary), ("asin", .kUnary),
   ("atan", .kUnary), ("exp", .kUnary), ("abs", .kUnary),
   ("preference", .kOther), ("is-violated", .kOther), ("at-end", .kOther), ("always", .kOther), ("sometime", .kOther),
   ("within", .kOther), ("at-most-once", .kOther), ("sometime-after", .kOther), ("sometime-before", .kOther),
   ("always-within", .kOther), ("hold-during", .kOther), ("hold-after", .kOther)]

/-- The reserved word that a word is, if any. -/
def reserved (w : String) : Option Kw :=
  match kwAnyCase.lookup (lowerS w) with
  | some k => some k
  | none => kwExact.lookup w

/-- The token of a word (a maximal sequence of word characters starting with a letter). -/
def wordTok (w : String) : PTok :=
  match reserved w with
  | some k => .kw k
  | none => .name w

/-- Colon words in any case (fstrips.g4:501-505). -/
def ckwAnyCase : List (String × CKw) :=
  [("init", .init), ("precondition", .precondition), ("effect", .effect), ("action", .action)]

/-- Colon words to be written exactly (quoted in the parser rules, and REQUIRE_KEY, fstrips.g4:467-487). -/
def ckwExact : List (String × CKw) :=
  [("requirements", .requirements), ("types", .types), ("functions", .functions), ("constants", .constants),
   ("predicates", .predicates), ("parameters", .parameters), ("derived", .derived), ("domain", .domain),
   ("objects", .objects), ("bounds", .bounds), ("goal", .goal), ("metric", .metric), ("constraints", .constraints),
   ("constraint", .other), ("condition", .other), ("event", .other), ("terminal", .other), ("stage", .other),
   ("strips", .key), ("typing", .key), ("negative-preconditions", .key), ("disjunctive-preconditions", .key),
   ("equality", .key), ("existential-preconditions", .key), ("universal-preconditions", .key),
   ("quantified-preconditions", .key), ("conditional-effects", .key), ("object-fluents", .key),
   ("numeric-fluents", .numericFluents), ("fluents", .key), ("adl", .key), ("durative-actions", .key),
   ("derived-predicates", .key), ("timed-initial-literals", .key), ("preferences", .key), ("action-costs", .actionCosts)]

/-- The token of a colon word; an unknown one is an error. -/
def colonTok (w : String) : Except Err PTok :=
  match ckwAnyCase.lookup (lowerS w) with
  | some k => .ok (.ckw k)
  | none => match ckwExact.lookup w with
    | some k => .ok (.ckw k)
    | none => .error .syntactic

/-- What has been read of the current token. `frac` is a number with a decimal point, `numdot` a number followed by a
point that may still turn out to be the start of `..`. -/
inductive LexSt where
  | idle
  | word (w : Text)
  | qmark
  | var (w : Text)
  | at
  | ext (w : Text)
  | colon (w : Text)
  | minus
  | num (w : Text)
  | numdot (w : Text)
  | frac (w : Text)
  | dot
  | lt | gt
  | comment
deriving DecidableEq, Repr

/-- The token that ends when no further character can extend it. -/
def LexSt.flush : LexSt → Except Err (List PTok)
  | .idle => .ok []
  | .word w => .ok [wordTok (String.ofList w)]
  | .qmark => .error .syntactic
  | .var w => .ok [.var (String.ofList w)]
  | .at => .error .syntactic
  | .ext w => .ok [.ext (String.ofList w)]
  | .colon w => match colonTok (String.ofList w) with
    | .ok t => .ok [t]
    | .error e => .error e
  | .minus => .ok [.dash]
  | .num w => .ok [.num w]
  | .numdot _ => .error .syntactic
  | .frac w => .ok [.num w]
  | .dot => .error .syntactic
  | .lt => .ok [.cmp .lt]
  | .gt => .ok [.cmp .gt]
  | .comment => .error .syntactic

/-- The first character of a token (or a blank). -/
def lexStart (c : Char) : Except Err (List PTok × LexSt) :=
  if isBlank c then .ok ([], .idle)
  else if c = '(' then .ok ([.lpar], .idle)
  else if c = ')' then .ok ([.rpar], .idle)
  else if c = '[' then .ok ([.lbrk], .idle)
  else if c = ']' then .ok ([.rbrk], .idle)
  else if c = '=' then .ok ([.cmp .eq], .idle)
  else if c = '<' then .ok ([], .lt)
  else if c = '>' then .ok ([], .gt)
  else if c = '-' then .ok ([], .minus)
  else if c = '.' then .ok ([], .dot)
  else if c = '?' then .ok ([], .qmark)
  else if c = '@' then .ok ([], .at)
  else if c = ':' then .ok ([], .colon [])
  else if c = ';' then .ok ([], .comment)
  else if c = '*' ∨ c = '+' ∨ c = '/' ∨ c = '^' then .ok ([.ar c], .idle)
  else if isLetter c then .ok ([], .word [c])
  else if isDig c then .ok ([], .num [c])
  else .error .syntactic

/-- Whether, and how, a character extends the current token. -/
def LexSt.extend : LexSt → Char → Option (List PTok × LexSt)
  | .idle, _ => none
  | .word w, c => if isWordChar c then some ([], .word (w ++ [c])) else none
  | .qmark, c => if isLetter c then some ([], .var ['?', c]) else none
  | .var w, c => if isWordChar c then some ([], .var (w ++ [c])) else none
  | .at, c => if isLetter c then some ([], .ext ['@', c]) else none
  | .ext w, c => if isWordChar c then some ([], .ext (w ++ [c])) else none
  | .colon w, c => if isLetter c || c == '-' then some ([], .colon (w ++ [c])) else none
  | .minus, c => if isDig c then some ([], .num ['-', c]) else none
  | .num w, c => if isDig c then some ([], .num (w ++ [c])) else if c = '.' then some ([], .numdot w) else none
  | .numdot w, c =>
    if isDig c then some ([], .frac (w ++ ['.', c])) else if c = '.' then some ([.num w, .dots], .idle) else none
  | .frac w, c => if isDig c then some ([], .frac (w ++ [c])) else none
  | .dot, c => if c = '.' then some ([.dots], .idle) else none
  | .lt, c => if c = '=' then some ([.cmp .le], .idle) else none
  | .gt, c => if c = '=' then some ([.cmp .ge], .idle) else none
  | .comment, c => if c = '\n' then some ([], .idle) else some ([], .comment)

/-- One character: it extends the current token, or ends it and starts another one. -/
def lexStep (st : LexSt) (c : Char) : Except Err (List PTok × LexSt) :=
  match st.extend c with
  | some r => .ok r
  | none => match st.flush with
    | .error e => .error e
    | .ok ts => match lexStart c with
      | .error e => .error e
      | .ok (us, st') => .ok (ts ++ us, st')

/-- The tokens of a text, from a given state. -/
def lexGo : LexSt → Text → Except Err (List PTok)
  | st, [] => st.flush
  | st, c :: cs => match lexStep st c with
    | .error e => .error e
    | .ok (ts, st') => match lexGo st' cs with
      | .error e => .error e
      | .ok us => .ok (ts ++ us)

/-- The tokens of a text (`fstripsLexer`, reader.py:47). -/
def lexPddl (t : Text) : Except Err (List PTok) := lexGo .idle t

/-- Parse trees: every modelled rule of the grammar is a token, or a parenthesised sequence. -/
inductive SX where
  | tok (t : PTok)
  | list (xs : List SX)

instance : Inhabited SX := ⟨.list []⟩

/-- Groups a sequence of tokens by its parentheses. `cur` is the current (innermost open) group, `stack` the
enclosing ones. -/
def sxGo : List (List SX) → List SX → List PTok → Except Err (List SX)
  | stack, cur, [] => match stack with
    | [] => .ok cur
    | _ :: _ => .error .syntactic
  | stack, cur, t :: ts =>
    match t with
    | .lpar => sxGo (cur :: stack) [] ts
    | .rpar => match stack with
      | [] => .error .syntactic
      | up :: rest => sxGo rest (up ++ [.list cur]) ts
    | t => sxGo stack (cur ++ [.tok t]) ts

/-- The parse trees of a text. -/
def readTrees (t : Text) : Except Err (List SX) :=
  match lexPddl t with
  | .error e => .error e
  | .ok ts => sxGo [] [] ts

end Tarski

import Verif.Equality
/-! Model of the writer of RDDL expressions: /repo/src/tarski/io/rddl.py:371-413, 597-679. -/
namespace Tarski

/-- The expressions that the writer takes, by their Python classes. A function symbol is a name with the flag `builtin`; a
built-in symbol has the value of the enumeration (`+`, `max`, ...) as its name. The predicate of an atom is built-in if it is a
comparison. -/
inductive WX where
  | none
  | var (sym : String)
  | const (n : Name)
  | app (builtin : Bool) (f : String) (args : List WX)
  | ite (c a b : WX)
  | agg (op : String) (vs : List Var) (body : WX)
  | top
  | bot
  | atom (p : PSym) (args : List WX)
  | comp (c : Conn) (fs : List WX)
  | quant (q : Quant) (vs : List Var) (f : WX)
  /-- a compound formula with a temporal connective -/
  | temporal (fs : List WX)

/-- `symbol_map` on function symbols (rddl.py:383-388). -/
def rddlSymbol : String → Option String
  | "+" => some "+"
  | "-" => some "-"
  | "*" => some "*"
  | "/" => some "/"
  | "**" => some "**"
  | "%" => some "%"
  | _ => none

/-- `symbol_map` on built-in predicates (rddl.py:372-377). -/
def rddlCmp : Cmp → String
  | .eq => "=="
  | .ne => "~="
  | .lt => "<"
  | .le => "<="
  | .gt => ">"
  | .ge => ">="

/-- `symbol_map` on connectives (rddl.py:378-380). -/
def rddlConn : Conn → String
  | .and => "^"
  | .or => "|"
  | .not => "~"

/-- `symbol_map` on quantifiers (rddl.py:381-382). -/
def rddlQuant : Quant → String
  | .exists => "exists"
  | .forall => "forall"

/-- `function_map` (rddl.py:391-413) on the symbols of the theories; the symbols of the enumeration that no theory declares
are left out. -/
def rddlFunction (f : String) : Option String :=
  if f ∈ ["min", "max", "abs", "sin", "cos", "tan", "atan", "asin", "exp", "log", "erf", "erfc", "sgn", "sqrt"] then some f
  else if f = "normal" then some "Normal"
  else if f = "gamma" then some "Gamma"
  else none

/-- `",".join(l)` -/
def commaJoin : List String → String
  | [] => ""
  | [s] => s
  | s :: ss => s ++ "," ++ commaJoin ss

/-- `symbol.replace("?", "")` -/
def dropMarks (s : String) : String := String.ofList (s.toList.filter (· ≠ '?'))

/-- The text of a list of one string, as Python prints it. Escapes are not modelled. -/
def listText (s : String) : String :=
  if '\'' ∈ s.toList ∧ '"' ∉ s.toList then "[\"" ++ s ++ "\"]" else "['" ++ s ++ "']"

/-- `f"?{x.symbol} : {x.sort.name}"` (rddl.py:647, 652) -/
def binderText (v : Var) : String := "?" ++ v.sym ++ " : " ++ v.sort

/-- `head` and, if there are any, the arguments in parentheses. -/
def callText (head : String) (args : List String) : String :=
  if args.isEmpty then head else head ++ "(" ++ commaJoin args ++ ")"

/-- `f"({re_st[0]} {op} {re_st[1]})"` -/
def infixText (op : String) : List String → Except Err String
  | a :: b :: _ => .ok ("(" ++ a ++ " " ++ op ++ " " ++ b ++ ")")
  | _ => .error .index

/-- The text of a compound term (rddl.py:600-616). -/
def appText (builtin : Bool) (f : String) (args : List String) : Except Err String :=
  if builtin then
    match rddlSymbol f with
    | some op => infixText op args
    | .none => match rddlFunction f with
      | some g =>
        .ok (if args.isEmpty then g
          else if f = "normal" ∨ f = "gamma" then g ++ "(" ++ commaJoin args ++ ")" else g ++ "[" ++ commaJoin args ++ "]")
      | .none => .ok (callText f args)
  else .ok (callText f args)

/-- The text of an atom (rddl.py:617-624). -/
def atomText (p : PSym) (args : List String) : Except Err String :=
  match p with
  | .cmp c => infixText (rddlCmp c) args
  | .user f => .ok (callText f args)

/-- The text of a compound formula (rddl.py:639-644). -/
def compText (c : Conn) : List String → Except Err String
  | [s] => .ok (rddlConn c ++ listText s)
  | fs => infixText (rddlConn c) fs

mutual
/-- Models `rewrite` (rddl.py:597-658). -/
def rewriteX : WX → Except Err String
  | .none => .ok "0.0"
  | .var s => .ok ("?" ++ dropMarks s)
  | .const n => .ok n.render
  | .app b f args => match rewriteXs args with
    | .error e => .error e
    | .ok ss => appText b f ss
  | .ite c a b => match rewriteX c, rewriteX a, rewriteX b with
    | .ok c, .ok a, .ok b => .ok ("if (" ++ c ++ ") then (" ++ a ++ ") else (" ++ b ++ ")")
    | .error e, _, _ => .error e
    | _, .error e, _ => .error e
    | _, _, .error e => .error e
  | .agg op vs body => match rewriteX body with
    | .error e => .error e
    | .ok s => if op = "+" then .ok ("sum_{" ++ commaJoin (vs.map binderText) ++ "} (" ++ s ++ ")")
      else if op = "*" then .ok ("prod_{" ++ commaJoin (vs.map binderText) ++ "} (" ++ s ++ ")")
      else .error .runtime
  | .top => .ok "true"
  | .bot => .ok "false"
  | .atom p args => match rewriteXs args with
    | .error e => .error e
    | .ok ss => atomText p ss
  | .comp c fs => match rewriteXs fs with
    | .error e => .error e
    | .ok ss => compText c ss
  | .quant q vs f => match rewriteX f with
    | .error e => .error e
    | .ok s => .ok (rddlQuant q ++ "_{" ++ commaJoin (vs.map binderText) ++ "} (" ++ s ++ ")")
  | .temporal fs => match rewriteXs fs with
    | .error e => .error e
    | .ok _ => .error .keyError
def rewriteXs : List WX → Except Err (List String)
  | [] => .ok []
  | x :: xs => match rewriteX x with
    | .error e => .error e
    | .ok s => match rewriteXs xs with
      | .error e => .error e
      | .ok ss => .ok (s :: ss)
end

/-- The text of an argument of a fluent (rddl.py:669-674); `str` of a compound term is not modelled. -/
def fluentArg : WX → Except Err String
  | .var s => .ok ("?" ++ dropMarks s)
  | .const n => .ok n.render
  | _ => .error .notImplemented

/-- Models `get_fluent` (rddl.py:660-679) for the fluent `f(args)`. -/
def getFluent (f : String) (args : List WX) (next : Bool) : Except Err String :=
  match args.mapM fluentArg with
  | .error e => .error e
  | .ok ss => .ok (callText (f ++ (if next then "'" else "")) ss)

end Tarski

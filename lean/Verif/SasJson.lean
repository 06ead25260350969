import Verif.Sas
import Verif.SasWriter
import Verif.Containers
import Verif.Equality
/-! Model of the JSON writer of SAS+ tasks: /repo/src/tarski/io/sas/json.py. -/
namespace Tarski

/-- What the document has in the place of a value: a JSON number or a JSON string. Indices and integers are both numbers. -/
inductive JVal where
  | num (n : Int)
  | text (s : String)
deriving DecidableEq, Repr

/-- The values of the pairs of the initial state and the goal: terms, or Python integers (json.py:101, 108). -/
inductive SasValue where
  | term (t : Term)
  | int (n : Int)

/-- The document (json.py:114-122); the entry `types` has one type, `object`, of which `objects` is the domain. -/
structure JsonDoc where
  domain : String
  inst : String
  objects : List String
  vars : List (String × String)
  actions : List String
  trans : List (Nat × Nat × JVal × JVal)
  init : List (Nat × JVal)
  goal : List (Nat × JVal)

/-- The loops `if symref(x) in X: continue; X.add(symref(x))` (json.py:35-49). Terms are compared syntactically. -/
def indexNew (xs : List Term) (X : SymIndex Term) : SymIndex Term :=
  xs.foldl (fun X x => if (dlookup X.data x).isSome then X else (X.add x).1) X

/-- `x.symbol.codomain` for a term: only compound terms have it. `cod` gives the name of the codomain of the functions. -/
def termCodomain (cod : String → String) : Term → Except Err String
  | .app f _ => .ok (cod f)
  | _ => .error .attribute

/-- The first list of the variables (json.py:71-76); it is thrown away (line 78), but may raise. `domains` is the table of
the domains of the numeric variables. -/
def checkVars (cod : String → String) (domains : Term → Except Err (List Int)) : List Term → Except Err Unit
  | [] => .ok ()
  | x :: xs =>
    match termCodomain cod x with
    | .error e => .error e
    | .ok s =>
      if s = "object" then checkVars cod domains xs
      else if s = "Integer" then
        match domains x with
        | .error e => .error e
        | .ok [] => .error .index
        | .ok (_ :: _) => checkVars cod domains xs
      else checkVars cod domains xs

/-- `v.symbol` as a JSON value (json.py:95): the name of a constant or of a variable; the symbol of a compound term cannot be
written. -/
def symbolValue : Term → Except Err JVal
  | .const (.int n) _ => .ok (.num n)
  | .const (.str s) _ => .ok (.text s)
  | .var v => .ok (.text v.sym)
  | _ => .error .typeError

/-- One transition of the `k`-th action (json.py:89-95); a variable with another codomain is skipped. -/
def transEntry (cod : String → String) (X D : SymIndex Term) (k : Nat) (t : Term × Term × Term) :
    Except Err (List (Nat × Nat × JVal × JVal)) :=
  match termCodomain cod t.1 with
  | .error e => .error e
  | .ok s =>
    if s = "object" then
      match X.getIndex t.1, D.getIndex t.2.1, D.getIndex t.2.2 with
      | .ok x, .ok v, .ok w => .ok [(k, x, .num v, .num w)]
      | .error e, _, _ => .error e
      | _, .error e, _ => .error e
      | _, _, .error e => .error e
    else if s = "Integer" then
      match X.getIndex t.1, symbolValue t.2.1, symbolValue t.2.2 with
      | .ok x, .ok v, .ok w => .ok [(k, x, v, w)]
      | .error e, _, _ => .error e
      | _, .error e, _ => .error e
      | _, _, .error e => .error e
    else .ok []

/-- The results of `f` on the elements of a list, one after the other. -/
def jsonConcat {α β} (f : α → Except Err (List β)) : List α → Except Err (List β)
  | [] => .ok []
  | a :: as => match f a with
    | .error e => .error e
    | .ok bs => match jsonConcat f as with
      | .error e => .error e
      | .ok cs => .ok (bs ++ cs)

/-- One pair of the initial state or the goal (json.py:100-111). -/
def pairEntry (X D : SymIndex Term) (p : Term × SasValue) : Except Err (List (Nat × JVal)) :=
  match X.getIndex p.1, p.2 with
  | .error e, _ => .error e
  | .ok x, .int n => .ok [(x, .num n)]
  | .ok x, .term v => match D.getIndex v with
    | .error e => .error e
    | .ok i => .ok [(x, .num i)]

/-- The name of a ground action (json.py:81). -/
def jsonActionName (a : SasAction) : String := a.name ++ "(" ++ strJoin "," (a.args.map fun c => c.name.render) ++ ")"

/-- The terms that become variables, in the order in which they are found (json.py:35-49). -/
def jsonTerms (actions : List SasAction) (init goal : List (Term × SasValue)) : List Term :=
  actions.flatMap (fun a => a.trans.map (·.1)) ++ init.map (·.1) ++ goal.map (·.1)

/-- The objects that are indexed (json.py:52-58). -/
def jsonObjects (objects : List Const) : List Term :=
  (objects.filter (fun o => o.sort ≠ "Integer")).map fun o => .const o.name o.sort

/-- Models `dump` (json.py:15-124) up to the text of the document. `str` prints a term. -/
def dumpJson (str : Term → String) (cod : String → String) (domains : Term → Except Err (List Int)) (langName instName : String)
    (actions : List SasAction) (init goal : List (Term × SasValue)) (objects : List Const) : Except Err JsonDoc :=
  let X := indexNew (jsonTerms actions init goal) SymIndex.empty
  let D := indexNew (jsonObjects objects) SymIndex.empty
  match checkVars cod domains X.objects with
  | .error e => .error e
  | .ok _ =>
    match jsonConcat (fun ka => jsonConcat (transEntry cod X D ka.1) ka.2.trans) (enumFrom 0 actions) with
    | .error e => .error e
    | .ok trans => match jsonConcat (pairEntry X D) init with
      | .error e => .error e
      | .ok i => match jsonConcat (pairEntry X D) goal with
        | .error e => .error e
        | .ok g => .ok ⟨langName, instName, objects.map fun o => o.name.render, X.objects.map fun x => (str x, "object"),
            actions.map jsonActionName, trans, i, g⟩

end Tarski

import Verif.PddlRead
import Verif.PddlWrite
/-! Model of the PDDL/FSTRIPS writer and reader on effects and actions:
/repo/src/tarski/io/fstrips.py:105-111, 299-307, 352-388 and /repo/src/tarski/io/_fstrips/reader.py:184-206, 315-356,
442-448, common.py:98-121. -/
namespace Tarski

/-- An action (fstrips/action.py:4-13). The cost is the addend of an `AdditiveActionCost` (action.py:66-68). -/
structure PAction where
  name : String
  params : List Var
  pre : Formula
  effs : List Effect
  cost : Option Term

/-! ### Writer -/

/-- `indent` (io/fstrips.py:426-427): four blanks per level. -/
def indentBy (n : Nat) (t : Text) : Text := List.replicate (4 * n) ' ' ++ t

/-- The text of an effect, given its condition and its text without the condition (`print_effect`,
io/fstrips.py:382-388), before indentation. -/
def printWhen (real : String → Bool) (c : Formula) (u : Text) : Except Err Text :=
  match c with
  | .top => .ok u
  | c => match printF real c with
    | .error e => .error e
    | .ok s => .ok (['(', 'w', 'h', 'e', 'n', ' '] ++ s ++ ' ' :: u ++ [')'])

/-- `"(and\n{})".format("\n".join(effects))` (io/fstrips.py:360). -/
def andLines (ts : List Text) : Text := ['(', 'a', 'n', 'd', '\n'] ++ joinWith ['\n'] ts ++ [')']

/-- The text of the effects of a universal effect (io/fstrips.py:376), given the texts of the effects before
indentation: one effect is printed as it is, several by `print_effects` without cost (io/fstrips.py:352-360). -/
def printSub (ts : List Text) : Text :=
  match ts with
  | [t] => t
  | [] => ['(', 'a', 'n', 'd', ' ', ')']
  | ts => andLines (ts.map (indentBy 1))

mutual
/-- Models `print_unconditional_effect` (io/fstrips.py:363-379), before indentation. An increase effect only arises from
an action cost here (see `printCost`). -/
def printU (real : String → Bool) : Effect → Except Err Text
  | .add _ p ts => printAtom real p ts
  | .del _ p ts => match printAtom real p ts with
    | .error e => .error e
    | .ok s => .ok (['(', 'n', 'o', 't', ' '] ++ s ++ [')'])
  | .lit _ _ => .error .runtime
  | .assign _ f ts r => match printT real (.app f ts) with
    | .error e => .error e
    | .ok s => match printT real r with
      | .error e => .error e
      | .ok u => .ok (['(', 'a', 's', 's', 'i', 'g', 'n', ' '] ++ s ++ ' ' :: u ++ [')'])
  | .univ _ vs es => match printEs real es with
    | .error e => .error e
    | .ok ss =>
      .ok (['(', 'f', 'o', 'r', 'a', 'l', 'l', ' ', '('] ++ printVarList vs ++ [')', ' '] ++ printSub ss ++ [')'])
/-- `print_effect` (io/fstrips.py:382-388) on each effect, before indentation. -/
def printEs (real : String → Bool) : List Effect → Except Err (List Text)
  | [] => .ok []
  | e :: es => match printU real e with
    | .error e => .error e
    | .ok u => match printWhen real e.cond u with
      | .error e => .error e
      | .ok s => match printEs real es with
        | .error e => .error e
        | .ok ss => .ok (s :: ss)
end

/-- The increase effect of an action cost (io/fstrips.py:356-359, 367-368), before indentation; `hasCost` tells whether
the language has the nullary function `total-cost`. -/
def printCost (real : String → Bool) (hasCost : Bool) : Option Term → Except Err (List Text)
  | none => .ok []
  | some t =>
    if hasCost then match printT real t with
      | .error e => .error e
      | .ok s => .ok ["(increase (total-cost ) ".toList ++ s ++ [')']]
    else .error .undefinedVariable

/-- Models `print_effects` (io/fstrips.py:352-360) as called for an action (`indentation` is 1). -/
def printEffects (real : String → Bool) (hasCost : Bool) (es : List Effect) (cost : Option Term) : Except Err Text :=
  if es.isEmpty && cost.isNone then .ok ['(', 'a', 'n', 'd', ' ', ')']
  else match printEs real es with
    | .error e => .error e
    | .ok ss => match printCost real hasCost cost with
      | .error e => .error e
      | .ok cs => .ok (andLines ((ss ++ cs).map (indentBy 2)))

/-- Models `get_action` (io/fstrips.py:300-307) with the template of lines 105-111. -/
def printAction (real : String → Bool) (hasCost : Bool) (a : PAction) : Except Err Text :=
  match printF real a.pre with
  | .error e => .error e
  | .ok pre => match printEffects real hasCost a.effs a.cost with
    | .error e => .error e
    | .ok eff => .ok ("\n    (:action ".toList ++ a.name.toList ++ "\n     :parameters (".toList ++ printVarList a.params ++
        ")\n     :precondition ".toList ++ pre ++ "\n     :effect ".toList ++ eff ++ "\n    )\n".toList)

/-! ### Reader -/

/-- `FunctionalEffect(lhs, rhs)` (fstrips.py:64-84): the left-hand side is a compound term, an integer on the right-hand
side is cast to its sort; the sort of a term on the right-hand side is not checked. -/
def mkAssign (L : RLang) (lhs rhs : RVal) : Except Err Effect :=
  match lhs with
  | .term (.app f ts) => match rhs with
    | .term t => .ok (.assign .top f ts t)
    | .num n => match L.constOf (L.sortOf (.app f ts)) n with
      | .error _ => .error .representation
      | .ok c => .ok (.assign .top f ts c)
  | _ => .error .representation

/-- The operator of an assignment (reader.py:446). -/
def assignOp : Kw → Option String
  | .kScaleUp => some "*"
  | .kScaleDown => some "/"
  | .kIncrease => some "+"
  | .kDecrease => some "-"
  | _ => none

/-- `atomicTermFormula` (reader.py:208-212, fstrips.g4:238-240). -/
def readAtomF (L : RLang) (b : Option VBinding) : SX → Except Err (PSym × List Term)
  | .list (.tok (.name p) :: xs) => match readTs L b xs with
    | .error e => .error e
    | .ok vs => match mkUserAtom L p vs with
      | .ok (.atom q ts) => .ok (q, ts)
      | .ok _ => .error .syntactic
      | .error e => .error e
  | _ => .error .syntactic

/-- `functionTerm` (fstrips.g4:250-254). -/
def readFunT (L : RLang) (b : Option VBinding) : SX → Except Err RVal
  | .list xs => readT L b (.list xs)
  | .tok _ => .error .syntactic

/-- `visitAssignConstant` (reader.py:338-339) on the parse trees of the two terms. -/
def readAssign (L : RLang) (b : Option VBinding) (x y : SX) : Except Err Effect :=
  match readFunT L b x with
  | .error e => .error e
  | .ok l => match readT L b y with
    | .error e => .error e
    | .ok r => mkAssign L l r

/-- `visitAssignEffect` (reader.py:442-448) on the parse trees of the two terms. -/
def readUpdate (L : RLang) (b : Option VBinding) (op : String) (x y : SX) : Except Err Effect :=
  match readFunT L b x with
  | .error e => .error e
  | .ok l => match readT L b y with
    | .error e => .error e
    | .ok r => match mkArith L L.arithmetic op l r with
      | .error e => .error e
      | .ok t => mkAssign L l (.term t)

/-- `atomic_effect` (reader.py:329-339, 442-448; fstrips.g4:322-328). -/
def readAtomic (L : RLang) (b : Option VBinding) : SX → Except Err Effect
  | .list [.tok (.kw .kNot), x] => match readAtomF L b x with
    | .error e => .error e
    | .ok (p, ts) => .ok (.del .top p ts)
  | .list [.tok (.kw .kAssign), x, y] => readAssign L b x y
  | .list [.tok (.kw k), x, y] => match assignOp k with
    | none => .error .syntactic
    | some op => readUpdate L b op x y
  | x => match readAtomF L b x with
    | .error e => .error e
    | .ok (p, ts) => .ok (.add .top p ts)

/-- `effect.condition = ...` (reader.py:347, 354). -/
def Effect.withCond (c : Formula) : Effect → Effect
  | .add _ p ts => .add c p ts
  | .del _ p ts => .del c p ts
  | .lit _ l => .lit c l
  | .assign _ f ts r => .assign c f ts r
  | .univ _ vs es => .univ c vs es

/-- A list of `atomic_effect`s. -/
def readAtomics (L : RLang) (b : Option VBinding) : List SX → Except Err (List Effect)
  | [] => .ok []
  | x :: xs => match readAtomic L b x with
    | .error e => .error e
    | .ok e => match readAtomics L b xs with
      | .error e => .error e
      | .ok es => .ok (e :: es)

/-- The effects below a condition: one atomic effect or a conjunction of them (reader.py:345-356, fstrips.g4:317-318). -/
def readWhen (L : RLang) (b : Option VBinding) (c x : SX) : Except Err (List Effect) :=
  match readF L b c with
  | .error e => .error e
  | .ok f => match x with
    | .list (.tok (.kw .kAnd) :: xs) => match readAtomics L b xs with
      | .error e => .error e
      | .ok es => .ok (es.map (Effect.withCond f))
    | x => match readAtomic L b x with
      | .error e => .error e
      | .ok e => .ok [e.withCond f]

mutual
/-- `effect` and `single_effect` (reader.py:315-356; fstrips.g4:310-320). `top` tells whether a conjunction is allowed
here. A quantified effect gives a universal effect with the variables and effects read (reader.py:285-293, 341-343). -/
def readEff (L : RLang) (b : Option VBinding) (top : Bool) : SX → Except Err (List Effect)
  | .list (.tok (.kw .kAnd) :: xs) => if top then readEffs L b xs else .error .syntactic
  | .list [.tok (.kw .kForall), .list vs, x] => match readVarsList L vs with
    | .error e => .error e
    | .ok vs => match pushVars b vs with
      | .error e => .error e
      | .ok b' => match readEff L (some b') true x with
        | .error e => .error e
        | .ok es => .ok [.univ .top vs es]
  | .list [.tok (.kw .kWhen), c, x] => readWhen L b c x
  | x => match readAtomic L b x with
    | .error e => .error e
    | .ok e => .ok [e]
def readEffs (L : RLang) (b : Option VBinding) : List SX → Except Err (List Effect)
  | [] => .ok []
  | x :: xs => match readEff L b false x with
    | .error e => .error e
    | .ok es => match readEffs L b xs with
      | .error e => .error e
      | .ok fs => .ok (es ++ fs)
end

/-- Models `process_cost_effect` (common.py:111-121): the addend of the cost, if the effect assigns the total cost. -/
def costOf : Effect → Except Err (Option Term)
  | .assign c f _ r =>
    if f = "total-cost" then
      match c, r with
      | .top, .app "+" [_, t] => .ok (some t)
      | _, _ => .error .representation
    else .ok none
  | _ => .ok none

/-- Models `process_cost_effects` (common.py:98-108). -/
def splitCosts : List Effect → Except Err (List Effect × List Term)
  | [] => .ok ([], [])
  | e :: es => match costOf e with
    | .error x => .error x
    | .ok c => match splitCosts es with
      | .error x => .error x
      | .ok (simple, costs) => match c with
        | none => .ok (e :: simple, costs)
        | some t => .ok (simple, t :: costs)

/-- `precondition` (reader.py:202-206, fstrips.g4:221-224). -/
def readPre (L : RLang) (b : Option VBinding) : SX → Except Err Formula
  | .list [] => .ok .top
  | x => readF L b x

/-- The name of an action (fstrips.g4:208), not lowercased (reader.py:185). -/
def actionName : PTok → Option String
  | .name s => some s
  | .ext s => some s
  | _ => none

/-- Models `visitActionDef` (reader.py:184-195) up to the call of `problem.action`. -/
def readAction (L : RLang) : SX → Except Err PAction
  | .list [.tok (.ckw .action), .tok nm, .tok (.ckw .parameters), .list vs, .tok (.ckw .precondition), p,
      .tok (.ckw .effect), e] =>
    match actionName nm with
    | none => .error .syntactic
    | some nm => match readVarsList L vs with
      | .error x => .error x
      | .ok vs => match readPre L (some (VBinding.ofList vs)) p with
        | .error x => .error x
        | .ok pre => match readEff L (some (VBinding.ofList vs)) true e with
          | .error x => .error x
          | .ok es => match splitCosts es with
            | .error x => .error x
            | .ok (simple, costs) => match costs with
              | [] => .ok ⟨nm, (VBinding.ofList vs).vars, pre, simple, none⟩
              | [t] => .ok ⟨nm, (VBinding.ofList vs).vars, pre, simple, some t⟩
              | _ => .error .syntactic
  | _ => .error .syntactic

/-- Reads the text of an action. -/
def readActionText (L : RLang) (t : Text) : Except Err PAction :=
  match readTrees t with
  | .error e => .error e
  | .ok [x] => readAction L x
  | .ok _ => .error .syntactic

end Tarski

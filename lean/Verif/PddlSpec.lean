import Verif.PddlRead
import Verif.PddlWrite
/-! Specification side of the round trip through PDDL text: which names and formulas of a language PDDL can express. -/
namespace Tarski

/-- A name that PDDL text can carry unchanged: a lower-case identifier that is not a reserved word. -/
def PName (s : String) : Prop :=
  reserved s = none ∧ (∀ d ∈ s.toList, lowerC d = d) ∧
    ∃ c cs, s.toList = c :: cs ∧ isLetter c = true ∧ ∀ d ∈ cs, isWordChar d = true

/-- A variable name that PDDL text can carry: an identifier (in any case, reserved or not), with or without the
question mark. -/
def VName (s : String) : Prop :=
  ∃ c cs, printVarName s = '?' :: c :: cs ∧ isLetter c = true ∧ ∀ d ∈ cs, isWordChar d = true

/-- A sort name that PDDL text can carry. -/
def SName (s : String) : Prop := PName s ∨ s = "object" ∨ s = "int" ∨ s = "float" ∨ s = "number"

/-- The variable that stands for `v` in PDDL text: its name in lower case, with a question mark. -/
def pvar (v : Var) : Var := ⟨lowerS (String.ofList (printVarName v.sym)), v.sort⟩

/-- `t` is an integer constant of the sort `s`: a value of the sort, which does not consist of floats. -/
def NumIn (L : RLang) (real : String → Bool) (s : String) (t : Term) : Prop :=
  ∃ n, t = .const (.int n) s ∧ L.castInt s n = .ok (.int n) ∧ real s = false

mutual
/-- The term is written over the language, within the scope of the variables `sc`, with names that PDDL can carry.
Integers are only allowed as arguments: of a function, with the sort declared for the argument; of an arithmetic
operation, with the sort of the other operand (`Integer` if both are integers). -/
def OkT (L : RLang) (real : String → Bool) (sc : List Var) : Term → Prop
  | .var v => v ∈ sc
  | .const n srt => match n with
    | .str s => PName s ∧ L.consts s = some srt
    | _ => False
  | .app f ts =>
    (f ∈ ["+", "-", "*", "/"] ∧ L.arithmetic = true ∧ OkTwo L real sc "Real" ts) ∨
    (f ∈ ["min", "max"] ∧ L.special = true ∧ OkTwo L real sc "Real" ts) ∨
    (PName f ∧ ∃ ss c, L.funs f = some (ss, c) ∧ OkArgs L real sc ts ss)
  | .ite _ _ _ => False
/-- The arguments of a function with the given declared sorts. -/
def OkArgs (L : RLang) (real : String → Bool) (sc : List Var) : List Term → List String → Prop
  | [], [] => True
  | t :: ts, s :: ss =>
    ((OkT L real sc t ∧ L.isSub (L.sortOf t) s = true) ∨ NumIn L real s t) ∧ OkArgs L real sc ts ss
  | _, _ => False
/-- Two operands, of subsorts of the given sort. -/
def OkTwo (L : RLang) (real : String → Bool) (sc : List Var) (top : String) : List Term → Prop
  | [a, b] =>
    ((OkT L real sc a ∧ OkT L real sc b) ∨ (OkT L real sc a ∧ NumIn L real (L.sortOf a) b) ∨
     (NumIn L real (L.sortOf b) a ∧ OkT L real sc b) ∨
     (NumIn L real "Integer" a ∧ NumIn L real "Integer" b ∧ L.hasSort "Integer" = true)) ∧
    L.isSub (L.sortOf a) top = true ∧ L.isSub (L.sortOf b) top = true
  | _ => False
end

/-- The arguments of a predicate with the given declared sorts; no integers. -/
def OkAtom (L : RLang) (real : String → Bool) (sc : List Var) : List Term → List String → Prop
  | [], [] => True
  | t :: ts, s :: ss => OkT L real sc t ∧ L.isSub (L.sortOf t) s = true ∧ OkAtom L real sc ts ss
  | _, _ => False

/-- Variables that may be declared inside the scope of `sc`: PDDL-expressible, and with PDDL names that differ from each
other and from those already in scope. -/
def OkDecl (L : RLang) (sc vs : List Var) : Prop :=
  (∀ v ∈ vs, VName v.sym ∧ SName v.sort ∧ L.hasSort v.sort = true) ∧
  ((sc ++ vs).map (fun v => (pvar v).sym)).Nodup

mutual
/-- The formula is written over the language, within the scope of the variables `sc`, in a way that PDDL can express. -/
def OkF (L : RLang) (real : String → Bool) (sc : List Var) : Formula → Prop
  | .top => True
  | .bot => L.equality = true ∧ L.hasSort "Integer" = true ∧ L.isSub "Integer" "object" = true ∧
      L.castInt "Integer" 0 = .ok (.int 0) ∧ L.castInt "Integer" 1 = .ok (.int 1)
  | .atom p ts => match p with
    | .user p => PName p ∧ ∃ ss, L.preds p = some ss ∧ OkAtom L real sc ts ss
    | .cmp c => match c with
      | .eq => L.equality = true ∧ OkTwo L real sc "object" ts
      | .ne => L.equality = true ∧ OkTwo L real sc "object" ts
      | _ => L.arithmetic = true ∧ OkTwo L real sc "Real" ts
  | .comp _ c fs => match c with
    | .not => fs.length = 1 ∧ OkFs L real sc fs
    | _ => 2 ≤ fs.length ∧ OkFs L real sc fs
  | .quant _ vs f => ∃ us, vs = us.map Term.var ∧ us ≠ [] ∧ OkDecl L sc us ∧ OkF L real (sc ++ us) f
def OkFs (L : RLang) (real : String → Bool) (sc : List Var) : List Formula → Prop
  | [] => True
  | f :: fs => OkF L real sc f ∧ OkFs L real sc fs
end

end Tarski

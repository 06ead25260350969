import Verif.Relaxation
import Verif.Builtins
import Verif.FreeVars
/-! Model of the compilation of a planning problem into a reachability logic program,
/repo/src/tarski/reachability/asp.py:29-338, 345-358.

Symbols of the program are given with the prefix that the code puts in front of them ("type", "atom", "action", none)
as a tag: the prefixes `type_`, `atom_`, `action_`, `__f` and the name `goal` cannot be confused. The translation of
hyphens (asp.py:365-392) is modelled separately (`AspNames.lean`) and left out here. Arguments are the strings that are
printed. Action costs (include_action_costs), which `create_reachability_lp` never asks for, are in `AspCosts.lean`. -/
namespace Tarski

/-- Predicate symbols of the logic program. -/
inductive LPSym where
  | type (s : String)
  | atom (p : String)
  | action (a : String)
  | aux (n : Nat)
  | goal
deriving DecidableEq, Repr

/-- `LPAtom` (asp.py:311-325): `pred` without infix, `cmp` with infix; `taut` is `1 = 1` (asp.py:341-342). -/
inductive LPLit where
  | pred (s : LPSym) (args : List String)
  | cmp (c : Cmp) (a b : String)
  | taut
deriving DecidableEq, Repr

/-- A rule `head :- body.` (asp.py:418-420). -/
structure LPRule where
  head : LPLit
  body : List LPLit
deriving DecidableEq, Repr

/-- `self.aux_atom_count` and the rules added so far (asp.py:54, 396). -/
structure LPSt where
  count : Nat
  rules : List LPRule

/-- `lp.rule(head, body)` (asp.py:400-401). -/
def LPSt.add (st : LPSt) (r : LPRule) : LPSt := ⟨st.count, st.rules ++ [r]⟩

/-- `name.capitalize()` (asp.py:351-353): first letter in upper case, all others in lower case (ASCII only). -/
def pyCapitalize (s : String) : String :=
  match s.toList with
  | [] => ""
  | c :: cs => String.ofList (c.toUpper :: cs.map Char.toLower)

/-- Models `make_variable_name` (asp.py:345-348). -/
def makeVarName (s : String) : Except Err String :=
  match s.toList with
  | [] => .error .index
  | c :: cs => if c.isAlpha then .ok (pyCapitalize s) else .ok (pyCapitalize (String.ofList cs))

/-- Models `_uncapitalize` (asp.py:356-358). -/
def uncapitalize (s : String) : Except Err String :=
  match s.toList with
  | [] => .error .index
  | c :: cs => .ok (String.ofList (c.toLower :: cs))

/-- `str(t.symbol)` of a constant (asp.py:237). -/
def nameText : Name → String
  | .str s => s
  | .int n => toString n
  | .pyNone => "None"

/-- Models `process_term` (asp.py:229-239). -/
def lpTerm : Term → Except Err String
  | .var v => makeVarName v.sym
  | .const n _ => .ok (nameText n)
  | _ => .error .runtime

/-- The list comprehensions over subterms (asp.py:191, 263). -/
def lpTerms : List Term → Except Err (List String)
  | [] => .ok []
  | t :: ts => match lpTerm t with
    | .error e => .error e
    | .ok x => match lpTerms ts with
      | .error e => .error e
      | .ok xs => .ok (x :: xs)

/-- Models `tarski_atom_to_lp_atom` and `lp_atom` (asp.py:262-263, 279-286). A comparison has two arguments
(assertion in line 316). -/
def lpAtom (p : PSym) (ts : List Term) : Except Err LPLit :=
  match lpTerms ts with
  | .error e => .error e
  | .ok xs => match p with
    | .user n => .ok (.pred (.atom n) xs)
    | .cmp c => match xs with
      | [a, b] => .ok (.cmp c a b)
      | _ => .error .assertion

/-- Models `lp_type_atom_from_term` (asp.py:271-277). Indexing the name of a constant that is not a string raises
TypeError. -/
def lpType : Term → Except Err LPLit
  | .var v => match makeVarName v.sym with
    | .error e => .error e
    | .ok x => .ok (.pred (.type v.sort) [x])
  | .const (.str n) s => match uncapitalize n with
    | .error e => .error e
    | .ok x => .ok (.pred (.type s) [x])
  | .const _ _ => .error .typeError
  | _ => .error .runtime

/-- The list comprehensions over typed terms (asp.py:73, 125, 192, 219). -/
def lpTypes : List Term → Except Err (List LPLit)
  | [] => .ok []
  | t :: ts => match lpType t with
    | .error e => .error e
    | .ok x => match lpTypes ts with
      | .error e => .error e
      | .ok xs => .ok (x :: xs)

/-- Models `negate_lp_atom` (asp.py:328-338). -/
def negateLP : LPLit → LPLit
  | .cmp c a b => .cmp c.complement a b
  | .pred _ _ => .taut
  | .taut => .taut

mutual
/-- Models `process_formula` (asp.py:171-227): the body, and the auxiliary rules added. `incl` is
`include_variable_inequalities`; `ord` is the order in which the set of free variables is iterated (line 190). -/
def lpFormula (ord : List Var → List Var) (incl : Bool) : LPSt → Formula → Except Err (List LPLit × LPSt)
  | st, .top => .ok ([], st)
  | _, .bot => .error .runtime
  | st, .atom p ts => match lpAtom p ts with
    | .error e => .error e
    | .ok l => .ok ([l], st)
  | st, .comp _ .and fs => lpConj ord incl st fs
  | st, .comp k .or fs => match freeVariables (.comp k .or fs) with
    | .error e => .error e
    | .ok vs => match lpTerms ((ord vs).map .var) with
      | .error e => .error e
      | .ok xs => match lpTypes ((ord vs).map .var) with
        | .error e => .error e
        | .ok tys => match lpDisj ord incl ⟨st.count + 1, st.rules⟩ fs with
          | .error e => .error e
          | .ok (bodies, st') =>
            .ok ([.pred (.aux (st.count + 1)) xs],
              ⟨st'.count, st'.rules ++ bodies.map (fun b => ⟨.pred (.aux (st.count + 1)) xs, b ++ tys⟩)⟩)
  | st, .comp _ .not fs =>
    if incl then match fs with
      | [.atom p ts] => match lpAtom p ts with
        | .error e => .error e
        | .ok l => .ok ([negateLP l], st)
      | [_] => .error .runtime
      | _ => .error .assertion
    else .ok ([.taut], st)
  | st, .quant .exists vs f => match lpTypes vs with
    | .error e => .error e
    | .ok tys => match lpFormula ord incl ⟨st.count + 1, st.rules⟩ f with
      | .error e => .error e
      | .ok (b, st') => .ok ([.pred (.aux (st.count + 1)) []], st'.add ⟨.pred (.aux (st.count + 1)) [], b ++ tys⟩)
  | _, .quant .forall _ _ => .error .runtime
/-- The bodies of the conjuncts, concatenated (asp.py:183). -/
def lpConj (ord : List Var → List Var) (incl : Bool) : LPSt → List Formula → Except Err (List LPLit × LPSt)
  | st, [] => .ok ([], st)
  | st, f :: fs => match lpFormula ord incl st f with
    | .error e => .error e
    | .ok (b, st1) => match lpConj ord incl st1 fs with
      | .error e => .error e
      | .ok (bs, st2) => .ok (b ++ bs, st2)
/-- The bodies of the disjuncts (asp.py:193). -/
def lpDisj (ord : List Var → List Var) (incl : Bool) : LPSt → List Formula → Except Err (List (List LPLit) × LPSt)
  | st, [] => .ok ([], st)
  | st, f :: fs => match lpFormula ord incl st f with
    | .error e => .error e
    | .ok (b, st1) => match lpDisj ord incl st1 fs with
      | .error e => .error e
      | .ok (bs, st2) => .ok (b :: bs, st2)
end

/-- Models `remove_quantifiers(lang, f, Forall)` followed by `process_formula` (asp.py:117-118, 132-133, 250-251). -/
def lpCondition (dom : Domains) (ord : List Var → List Var) (incl : Bool) (st : LPSt) (f : Formula) :
    Except Err (List LPLit × LPSt) :=
  match removeQuantifiers dom .forall f with
  | .error e => .error e
  | .ok g => lpFormula ord incl st g

/-- Models `process_effect` (asp.py:241-260) and the rule made of its result, given the literals of the body that come
first (asp.py:138-140, 306-308). -/
def lpEffect (dom : Domains) (ord : List Var → List Var) (incl : Bool) (pre : List LPLit) (st : LPSt) :
    Effect → Except Err LPSt
  | .add c p ts => match lpAtom p ts with
    | .error e => .error e
    | .ok h => match lpCondition dom ord incl st c with
      | .error e => .error e
      | .ok (b, st') => .ok (st'.add ⟨h, pre ++ b⟩)
  | .del _ _ _ => .ok st
  | .assign _ _ _ _ => .error .runtime
  | .lit _ _ => .error .runtime
  | .univ _ _ _ => .error .assertion

/-- The loop over single effects. -/
def lpEffects (dom : Domains) (ord : List Var → List Var) (incl : Bool) (pre : List LPLit) : LPSt → List Effect →
    Except Err LPSt
  | st, [] => .ok st
  | st, e :: es => match lpEffect dom ord incl pre st e with
    | .error er => .error er
    | .ok st' => lpEffects dom ord incl pre st' es

/-- The loop of lines 136-140 of asp.py: each effect is expanded when its turn comes. -/
def lpExpanded (dom : Domains) (ord : List Var → List Var) (incl : Bool) (pre : List LPLit) : LPSt → List Effect →
    Except Err LPSt
  | st, [] => .ok st
  | st, e :: es => match expandUniversal dom e with
    | .error er => .error er
    | .ok xs => match lpEffects dom ord incl pre st xs with
      | .error er => .error er
      | .ok st' => lpExpanded dom ord incl pre st' es

/-- Models `process_action` (asp.py:121-141). -/
def lpAction (dom : Domains) (ord : List Var → List Var) (incl : Bool) (st : LPSt) (n : String) (a : Schema) :
    Except Err LPSt :=
  match lpTerms (a.params.map .var) with
  | .error e => .error e
  | .ok xs => match lpTypes (a.params.map .var) with
    | .error e => .error e
    | .ok tys => match lpCondition dom ord incl st a.pre with
      | .error e => .error e
      | .ok (b, st1) =>
        lpExpanded dom ord incl [.pred (.action n) xs] (st1.add ⟨.pred (.action n) xs, tys ++ b⟩) a.effs

/-- Models `VariableOnlyReachabilityLPCompiler.process_action` (asp.py:297-308). -/
def lpActionVO (dom : Domains) (ord : List Var → List Var) (incl : Bool) (st : LPSt) (a : Schema) : Except Err LPSt :=
  match lpTypes (a.params.map .var) with
  | .error e => .error e
  | .ok tys => match lpCondition dom ord incl st a.pre with
    | .error e => .error e
    | .ok (b, st1) => lpEffects dom ord incl (tys ++ b) st1 a.effs

/-- The test of line 103 of asp.py. -/
def allInhabited (dom : Domains) : List Var → Except Err Bool
  | [] => .ok true
  | v :: vs => match dom v.sort with
    | .error e => .error e
    | .ok [] => .ok false
    | .ok (_ :: _) => allInhabited dom vs

/-- What the compiler reads of the problem: `lang.constants()`, `lang.sorts` with their parents, kinds and domains, the
atoms of the initial state, the function symbols of its functional atoms, the cost-related functions, the actions and
the goal. -/
structure LPInput where
  consts : List (Name × String)
  sorts : List String
  interval : String → Bool
  parent : String → Option String
  dom : Domains
  initAtoms : List (String × List Term)
  initFns : List String
  costFns : List String
  actions : List (String × Schema)
  goal : Formula

/-- Facts for the constants (asp.py:71-73). -/
def lpConsts (st : LPSt) : List (Name × String) → Except Err LPSt
  | [] => .ok st
  | (n, s) :: cs => match lpType (.const n s) with
    | .error e => .error e
    | .ok l => lpConsts (st.add ⟨l, []⟩) cs

/-- The type hierarchy (asp.py:75-83). -/
def lpSorts (X : LPInput) (st : LPSt) : List String → Except Err LPSt
  | [] => .ok st
  | s :: ss =>
    if X.interval s then lpSorts X st ss
    else match X.parent s with
      | none => lpSorts X st ss
      | some p => match X.dom s with
        | .error e => .error e
        | .ok [] => lpSorts X st ss
        | .ok (_ :: _) => lpSorts X (st.add ⟨.pred (.type p) ["X"], [.pred (.type s) ["X"]]⟩) ss

/-- The atoms of the initial state (asp.py:85-99). -/
def lpInitAtoms (st : LPSt) : List (String × List Term) → Except Err LPSt
  | [] => .ok st
  | (p, ts) :: as => match lpAtom (.user p) ts with
    | .error e => .error e
    | .ok l => lpInitAtoms (st.add ⟨l, []⟩) as

/-- The loop over the actions (asp.py:101-105), for either compiler. -/
def lpActions (dom : Domains) (act : LPSt → String → Schema → Except Err LPSt) : LPSt → List (String × Schema) →
    Except Err LPSt
  | st, [] => .ok st
  | st, (n, a) :: as => match allInhabited dom a.params with
    | .error e => .error e
    | .ok false => lpActions dom act st as
    | .ok true => match act st n a with
      | .error e => .error e
      | .ok st' => lpActions dom act st' as

/-- Models `process_goal` (asp.py:115-119). -/
def lpGoal (X : LPInput) (ord : List Var → List Var) (incl : Bool) (st : LPSt) : Except Err LPSt :=
  match lpCondition X.dom ord incl st X.goal with
  | .error e => .error e
  | .ok (b, st') => .ok (st'.add ⟨.pred .goal [], b⟩)

/-- Models `create_reachability_lp` (asp.py:32-38, 64-113); `ground` is `ground_actions`. -/
def createLP (X : LPInput) (ord : List Var → List Var) (ground incl : Bool) : Except Err LPSt :=
  match lpConsts ⟨0, []⟩ X.consts with
  | .error e => .error e
  | .ok st1 => match lpSorts X st1 X.sorts with
    | .error e => .error e
    | .ok st2 => match lpInitAtoms st2 X.initAtoms with
      | .error e => .error e
      | .ok st3 =>
        if X.initFns.any (fun f => f != "total-cost" && !X.costFns.contains f) then .error .runtime
        else match lpActions X.dom (fun st n a => if ground then lpAction X.dom ord incl st n a
                                                  else lpActionVO X.dom ord incl st a) st3 X.actions with
          | .error e => .error e
          | .ok st4 => lpGoal X ord incl st4

end Tarski

import Verif.PddlDecl
/-! Model of the sections after the goal of an instance file with constraints on trajectories (`:constraints`): /repo/src/tarski/io/_fstrips/reader.py:401-414, the
generated visitor (parser/visitor.py:463-610, `visitChildren` of ANTLR), /repo/utils/parsers/grammars/fstrips.g4:356-360, 410-419, 445-461. Simplified: the
constraints are given as the parse tree of the grammar (ANTLR takes the first alternative that matches); the formulas in it as trees of tokens. -/
namespace Tarski

/-- `conGD` (fstrips.g4:445-461). `timed` stands for the nine alternatives with a keyword (`always`, `sometime`, `at-end`, …), with their formulas. -/
inductive ConGD where
  | conj (cs : List ConGD)
  | all (vs : List SX) (c : ConGD)
  | timed (goals : List SX)
  | goal (g : SX)

/-- `prefConGD` (fstrips.g4:414-419). -/
inductive PrefCon where
  | conj (cs : List PrefCon)
  | all (vs : List SX) (c : PrefCon)
  | pref (c : ConGD)
  | plain (cs : List ConGD)

mutual
/-- The visit of a `conGD`: `visitAlternativeAlwaysConstraint` (reader.py:401-402) returns a list with the formula; the other alternatives have no method of their
own: `visitChildren` visits the children in order, without the scope of the variables, and returns the result for the last one, a parenthesis: `None`. -/
def visitCon (L : RLang) : ConGD → Except Err (Option (List Formula))
  | .goal g => match readF L none g with
    | .error e => .error e
    | .ok f => .ok (some [f])
  | .timed gs => match readFs L none gs with
    | .error e => .error e
    | .ok _ => .ok none
  | .conj cs => match visitCons L cs with
    | .error e => .error e
    | .ok _ => .ok none
  | .all vs c => match readVarsList L vs with
    | .error e => .error e
    | .ok _ => match visitCon L c with
      | .error e => .error e
      | .ok _ => .ok none
def visitCons (L : RLang) : List ConGD → Except Err (List (Option (List Formula)))
  | [] => .ok []
  | c :: cs => match visitCon L c with
    | .error e => .error e
    | .ok r => match visitCons L cs with
      | .error e => .error e
      | .ok rs => .ok (r :: rs)
end

/-- Models `visitPlainConstraintList` (reader.py:410-414): `constraints += None` raises TypeError. -/
def extendCons (L : RLang) : List ConGD → Except Err (List Formula)
  | [] => .ok []
  | c :: cs => match visitCon L c with
    | .error e => .error e
    | .ok none => .error .typeError
    | .ok (some fs) => match extendCons L cs with
      | .error e => .error e
      | .ok gs => .ok (fs ++ gs)

mutual
/-- The visit of a `prefConGD` (reader.py:404-414; `visitChildren` for the quantifier and for preferences). -/
def visitPref (L : RLang) : PrefCon → Except Err (Option (List Formula))
  | .plain cs => match extendCons L cs with
    | .error e => .error e
    | .ok fs => .ok (some fs)
  | .conj cs => match extendPrefs L cs with
    | .error e => .error e
    | .ok fs => .ok (some fs)
  | .pref c => match visitCon L c with
    | .error e => .error e
    | .ok _ => .ok none
  | .all vs c => match readVarsList L vs with
    | .error e => .error e
    | .ok _ => match visitPref L c with
      | .error e => .error e
      | .ok _ => .ok none
/-- The loop of `visitConjunctionOfConstraints` (reader.py:404-408). -/
def extendPrefs (L : RLang) : List PrefCon → Except Err (List Formula)
  | [] => .ok []
  | c :: cs => match visitPref L c with
    | .error e => .error e
    | .ok none => .error .typeError
    | .ok (some fs) => match extendPrefs L cs with
      | .error e => .error e
      | .ok gs => .ok (fs ++ gs)
end

/-- A section after the goal: constraints, or one of those that `readMetas` reads. -/
inductive MetaSec where
  | constraints (c : PrefCon)
  | other (x : SX)

/-- `problemMeta*` (fstrips.g4:356-360) with constraints: `visitChildren` of the sections forgets what `visitPref` returns. -/
def readSections : PDecls → Option (Bool × Term) → List MetaSec → Except Err (PDecls × Option (Bool × Term))
  | D, m, [] => .ok (D, m)
  | D, m, .constraints c :: xs => match visitPref D.rlang c with
    | .error e => .error e
    | .ok _ => readSections D m xs
  | D, m, .other x :: xs => match readMetas D m [x] with
    | .error e => .error e
    | .ok (D', m') => readSections D' m' xs

/-- An instance file: what `readInstance` reads up to the goal, and then the sections. -/
def readInstanceWith (P : PDomain) (head : SX) (secs : List MetaSec) : Except Err PProblem :=
  match readInstance P head with
  | .error e => .error e
  | .ok p => match readSections p.lang p.metric secs with
    | .error e => .error e
    | .ok (D, m) => .ok { p with lang := D, metric := m }

end Tarski

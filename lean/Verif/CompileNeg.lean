import Verif.Effects
import Verif.Flatten
/-! Model of `compile_negated_preconditions_away`
(/repo/src/tarski/fstrips/representation.py:433-548). -/
namespace Tarski

/-- The name of the complementary predicate (representation.py:537). -/
def negName (p : String) : String := "_not_" ++ p

/-- The dictionary `negpreds`, given by its keys in insertion order (the value of `p` is the predicate `negName p` with
the sorts of `p`), and the names declared in the language. -/
structure NegSt where
  negs : List String
  used : List String
deriving Inhabited

/-- Models `is_literal` (representation.py:158-168). -/
def isLiteral : Formula → Bool
  | .atom _ _ => true
  | .comp _ .not (.atom _ _ :: _) => true
  | _ => false

/-- Registers a negated predicate (representation.py:534-537): declaring a name that exists raises (fol.py:278-289). -/
def registerNeg (st : NegSt) (p : String) : Except Err NegSt :=
  if p ∈ st.negs then .ok st
  else if negName p ∈ st.used then .error .language
  else .ok ⟨st.negs ++ [p], negName p :: st.used⟩

/-- Models `_compile_possibly_negated_literal` (representation.py:523-539). On the negation of a formula that is not an
atom, reading `.predicate` raises AttributeError. -/
def compileLit (st : NegSt) : Formula → Except Err (Formula × NegSt)
  | .comp k .not (.atom (.user p) ts :: fs) =>
    match registerNeg st p with
    | .error e => .error e
    | .ok st' => .ok (.atom (.user (negName p)) ts, st')
  | .comp k .not (.atom (.cmp c) ts :: fs) => .ok (.comp k .not (.atom (.cmp c) ts :: fs), st)
  | .comp _ .not _ => .error .attribute
  | f => .ok (f, st)

/-- The loop over the subformulas (representation.py:513-518). -/
def compileLits (st : NegSt) : List Formula → Except Err (List Formula × NegSt)
  | [] => .ok ([], st)
  | f :: fs =>
    if isLiteral f then
      match compileLit st f with
      | .error e => .error e
      | .ok (g, st1) => match compileLits st1 fs with
        | .error e => .error e
        | .ok (gs, st2) => .ok (g :: gs, st2)
    else .error .representation

/-- Models `compile_away_formula_negated_literals` (representation.py:498-520). -/
def compileFormula (st : NegSt) (f : Formula) : Except Err (Formula × NegSt) :=
  match flatten f with
  | .atom p ts => .ok (.atom p ts, st)
  | .comp k .not fs => compileLit st (.comp k .not fs)
  | .comp _ _ fs => match compileLits st fs with
    | .error e => .error e
    | .ok (gs, st') => .ok (land gs true, st')
  | _ => .error .representation

/-- Replaces the condition of an effect. -/
def Effect.setCond (c : Formula) : Effect → Effect
  | .add _ p ts => .add c p ts
  | .del _ p ts => .del c p ts
  | .lit _ l => .lit c l
  | .assign _ f ts r => .assign c f ts r
  | .univ _ vs es => .univ c vs es

/-- `isinstance(phi, Tautology)` -/
def isTop : Formula → Bool | .top => true | _ => false

/-- The loop over the effects (representation.py:488-493). -/
def compileConds (st : NegSt) : List Effect → Except Err (List Effect × NegSt)
  | [] => .ok ([], st)
  | .univ _ _ _ :: _ => .error .representation
  | e :: es =>
    if isTop e.cond then
      match compileConds st es with
      | .error er => .error er
      | .ok (es', st') => .ok (e :: es', st')
    else match compileFormula st e.cond with
      | .error er => .error er
      | .ok (c, st1) => match compileConds st1 es with
        | .error er => .error er
        | .ok (es', st') => .ok (e.setCond c :: es', st')

/-- Models `compile_action_negated_preconditions_away` (representation.py:483-495). -/
def compileAction (st : NegSt) (a : Schema) : Except Err (Schema × NegSt) :=
  match compileFormula st a.pre with
  | .error e => .error e
  | .ok (pre, st1) => match compileConds st1 a.effs with
    | .error e => .error e
    | .ok (effs, st2) => .ok (⟨a.params, pre, effs⟩, st2)

/-- The loop over the actions (representation.py:441-442). -/
def compileActions (st : NegSt) : List Schema → Except Err (List Schema × NegSt)
  | [] => .ok ([], st)
  | a :: as => match compileAction st a with
    | .error e => .error e
    | .ok (a', st1) => match compileActions st1 as with
      | .error e => .error e
      | .ok (as', st2) => .ok (a' :: as', st2)

/-- The converse effects (representation.py:464-477). -/
def converseEffs (negs : List String) : List Effect → Except Err (List Effect)
  | [] => .ok []
  | .add c (.user p) ts :: es =>
    match converseEffs negs es with
    | .error e => .error e
    | .ok es' => if p ∈ negs then .ok (.del c (.user (negName p)) ts :: es') else .ok es'
  | .del c (.user p) ts :: es =>
    match converseEffs negs es with
    | .error e => .error e
    | .ok es' => if p ∈ negs then .ok (.add c (.user (negName p)) ts :: es') else .ok es'
  | .add _ (.cmp _) _ :: es => converseEffs negs es
  | .del _ (.cmp _) _ :: es => converseEffs negs es
  | _ :: _ => .error .representation

/-- Models `update_action_effects_with_negated_counterparts` (representation.py:462-480). -/
def updateAction (negs : List String) (a : Schema) : Except Err Schema :=
  match converseEffs negs a.effs with
  | .error e => .error e
  | .ok new => .ok ⟨a.params, a.pre, a.effs ++ new⟩

/-- The loop over the actions (representation.py:449-450). -/
def updateActions (negs : List String) : List Schema → Except Err (List Schema)
  | [] => .ok []
  | a :: as => match updateAction negs a with
    | .error e => .error e
    | .ok a' => match updateActions negs as with
      | .error e => .error e
      | .ok as' => .ok (a' :: as')

/-- Domains of a list of sorts (sorts.py:243). -/
def sigDomains (dom : Domains) : List String → Except Err (List (List Term))
  | [] => .ok []
  | s :: ss => match dom s with
    | .error e => .error e
    | .ok d => match sigDomains dom ss with
      | .error e => .error e
      | .ok ds => .ok (d :: ds)

/-- Models `compute_signature_bindings` (sorts.py:240-244). -/
def sigBindings (dom : Domains) (sorts : List String) : Except Err (List (List Term)) :=
  match sigDomains dom sorts with
  | .error e => .error e
  | .ok ds => .ok (cart ds)

/-- `refd not in extension` (representation.py:546-547): whether a binding is in the extension of `p`. -/
def inExtension (L : MLang) (m : MState) (p : String) (b : List Term) : Bool :=
  match wrapTuple (b.map termArg) with
  | .ok (some pt) => m.holds L p pt
  | _ => false

/-- The initial state for one complementary predicate (representation.py:455-457, 542-548). The bindings are generated
lazily while atoms of `negName p` are added, which does not change the extension of `p`. -/
def addComplement (L : MLang) (dom : Domains) (m : MState) (p : String) : Except Err MState :=
  match sigBindings dom (L.psorts p) with
  | .error e => .error e
  | .ok bs => seqApply (fun m b => raising (m.add L (.user (negName p)) (b.map termArg))) m
      (bs.filter (fun b => !inExtension L m p b))

/-- The language after declaring the complementary predicates. -/
def declareNegs (L : MLang) (negs : List String) : MLang :=
  { L with psorts := fun n => match negs.find? (fun p => negName p == n) with
                              | some p => L.psorts p
                              | none => L.psorts n }

/-- The compiled problem. -/
structure NegProblem where
  negs : List String
  acts : List Schema
  goal : Formula
  init : MState

/-- Models `compile_negated_preconditions_away` (representation.py:433-459) on a problem over the language `L` with
declared names `used`, given by its actions, goal and initial state. -/
def compileNegated (L : MLang) (dom : Domains) (used : List String) (acts : List Schema) (goal : Formula) (init : MState) :
    Except Err NegProblem :=
  match compileActions ⟨[], used⟩ acts with
  | .error e => .error e
  | .ok (acts1, st1) => match compileFormula st1 goal with
    | .error e => .error e
    | .ok (goal', st2) => match updateActions st2.negs acts1 with
      | .error e => .error e
      | .ok acts2 => match seqApply (addComplement (declareNegs L st2.negs) dom) init st2.negs with
        | .error e => .error e
        | .ok init' => .ok ⟨st2.negs, acts2, goal', init'⟩

end Tarski

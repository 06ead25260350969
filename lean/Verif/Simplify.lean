import Verif.Effects
import Verif.EffectsSpec
/-! Model of the static simplification of expressions, effects, actions and problems:
/repo/src/tarski/fstrips/manipulation/simplify.py:31-209. The code edits expressions in place; the model returns the
edited expression (expressions that share nodes with other expressions are not modelled). -/
namespace Tarski

/-- What `simplify_expression` returns on a formula: a python bool or a formula object. -/
inductive Simp where
  | bool (b : Bool)
  | form (f : Formula)

instance : Inhabited Simp := ⟨.bool true⟩

/-- The attributes of a `Simplify` object (simplify.py:53-58): the model (or None), and the static symbols (None when
no problem is given). -/
structure Simplifier where
  L : MLang
  model : Option MState
  statics : Option (List Sym)

/-- Models the set of static symbols computed by `approximate_symbol_fluency` (grounding/ops.py:22-25) for a language
whose non-builtin symbols other than `total-cost` are `syms` and for the effects of all actions. -/
def staticSymbols (syms : List Sym) (es : List Effect) : Except Err (List Sym) :=
  match affectedEs es with
  | .error e => .error e
  | .ok (ps, fs) => .ok (syms.filter (fun x => match x with
      | .pred p => !ps.contains (.user p)
      | .fn f => !fs.contains f))

/-- Models `symbol_can_be_statically_evaluated` (simplify.py:200-201) for a non-builtin symbol. -/
def Simplifier.isStatic (C : Simplifier) (x : Sym) : Bool :=
  match C.statics with
  | none => false
  | some l => l.contains x

/-- `symbol_can_be_statically_evaluated` (simplify.py:200-201) for predicate symbols. -/
def Simplifier.evaluableP (C : Simplifier) : PSym → Bool
  | .cmp _ => true
  | .user p => C.isStatic (.pred p)

/-- `symbol_can_be_statically_evaluated` (simplify.py:200-201) for function symbols. -/
def Simplifier.evaluableF (C : Simplifier) (f : String) : Bool :=
  builtinFunctionNames.contains f || C.isStatic (.fn f)

/-- `isinstance(st, Constant)` -/
def Term.isConst : Term → Bool
  | .const _ _ => true
  | _ => false

/-- The constant as a term. -/
def constTerm (c : Const) : Term := .const c.name c.sort

/-- Lines 129-131 of simplify.py on a compound term with simplified subterms. The values of builtin functions other
than `+ - * %` are not modelled. -/
def Simplifier.finishT (C : Simplifier) (f : String) (ts : List Term) : Except Err Term :=
  match C.model with
  | none => .ok (.app f ts)
  | some m =>
    if C.evaluableF f && ts.all Term.isConst then
      if builtinFunctionNames.contains f && !isArith f then .error .notImplemented
      else match evTerm C.L m noSigma .eval (.app f ts) with
        | .error e => .error e
        | .ok c => .ok (constTerm c)
    else .ok (.app f ts)

/-- Lines 129-131 of simplify.py on an atom with simplified subterms. -/
def Simplifier.finishA (C : Simplifier) (p : PSym) (ts : List Term) : Except Err Simp :=
  match C.model with
  | none => .ok (.form (.atom p ts))
  | some m =>
    if C.evaluableP p && ts.all Term.isConst then
      match evFormula C.L m noSigma (.atom p ts) with
      | .error e => .error e
      | .ok b => .ok (.bool b)
    else .ok (.form (.atom p ts))

/-- Lines 134-140 of simplify.py, after the subformula has been simplified. -/
def negSimp : Simp → Except Err Simp
  | .bool b => .ok (.bool (!b))
  | .form (.comp _ .not (g :: _)) => .ok (.form g)
  | .form (.comp _ .not []) => .error .index
  | .form f => .ok (.form (.comp .list .not [f]))

/-- Lines 157-163 of simplify.py: the loop has returned early (`none`) or collected the remaining subformulas. -/
def finishC (c : Conn) (isand : Bool) : Option (List Formula) → Simp
  | none => .bool (!isand)
  | some [] => .bool isand
  | some [g] => .form g
  | some gs => .form (.comp .list c gs)

mutual
/-- Models `simplify_expression` on terms (simplify.py:114-131, 171). -/
def Simplifier.term (C : Simplifier) : Term → Except Err Term
  | .var v => .ok (.var v)
  | .const n s => .ok (.const n s)
  | .app f ts => match C.terms ts with
    | .error e => .error e
    | .ok ts' => C.finishT f ts'
  | .ite _ _ _ => .error .runtime
/-- The list comprehension of simplify.py:128. -/
def Simplifier.terms (C : Simplifier) : List Term → Except Err (List Term)
  | [] => .ok []
  | t :: ts => match C.term t with
    | .error e => .error e
    | .ok t' => match C.terms ts with
      | .error e => .error e
      | .ok ts' => .ok (t' :: ts')
end

mutual
/-- Models `simplify_expression` on formulas (simplify.py:114-171). -/
def Simplifier.formula (C : Simplifier) : Formula → Except Err Simp
  | .top => .ok (.bool true)
  | .bot => .ok (.bool false)
  | .atom p ts => match C.terms ts with
    | .error e => .error e
    | .ok ts' => C.finishA p ts'
  | .comp _ .not [] => .error .index
  | .comp _ .not (f :: _) => match C.formula f with
    | .error e => .error e
    | .ok r => negSimp r
  | .comp _ .and fs => match C.loop true fs with
    | .error e => .error e
    | .ok r => .ok (finishC .and true r)
  | .comp _ .or fs => match C.loop false fs with
    | .error e => .error e
    | .ok r => .ok (finishC .or false r)
  | .quant q vs f => match C.formula f with
    | .error e => .error e
    | .ok (.bool b) => .ok (.bool b)
    | .ok (.form g) => .ok (.form (.quant q vs g))
/-- The loop of simplify.py:147-155; `none` when it returns early. -/
def Simplifier.loop (C : Simplifier) (isand : Bool) : List Formula → Except Err (Option (List Formula))
  | [] => .ok (some [])
  | f :: fs => match C.formula f with
    | .error e => .error e
    | .ok (.bool b) => if b = isand then C.loop isand fs else .ok none
    | .ok (.form g) => match C.loop isand fs with
      | .error e => .error e
      | .ok none => .ok none
      | .ok (some gs) => .ok (some (g :: gs))
end

/-- Models `bool_to_expr` (simplify.py:31-34). -/
def boolToExpr : Simp → Formula
  | .bool true => .top
  | .bool false => .bot
  | .form f => f

/-- `isinstance(effect.condition, Contradiction)` (simplify.py:178, 185). -/
def isBot : Formula → Bool
  | .bot => true
  | _ => false

mutual
/-- Models `simplify_effect` (simplify.py:173-198). When the atom of an add or delete effect simplifies to a python
bool, or the left-hand side of a functional effect to a constant, the code stores it in the effect, which can then not
be applied (AttributeError); here that is an error. -/
def Simplifier.effect (C : Simplifier) : Effect → Except Err (Option Effect)
  | .add c p ts => match C.formula c with
    | .error e => .error e
    | .ok r =>
      if isBot (boolToExpr r) then .ok none
      else match C.formula (.atom p ts) with
        | .error e => .error e
        | .ok (.form (.atom p' ts')) => .ok (some (.add (boolToExpr r) p' ts'))
        | .ok _ => .error .attribute
  | .del c p ts => match C.formula c with
    | .error e => .error e
    | .ok r =>
      if isBot (boolToExpr r) then .ok none
      else match C.formula (.atom p ts) with
        | .error e => .error e
        | .ok (.form (.atom p' ts')) => .ok (some (.del (boolToExpr r) p' ts'))
        | .ok _ => .error .attribute
  | .assign c f ts rhs => match C.formula c with
    | .error e => .error e
    | .ok r =>
      if isBot (boolToExpr r) then .ok none
      else match C.term (.app f ts) with
        | .error e => .error e
        | .ok (.app f' ts') => match C.term rhs with
          | .error e => .error e
          | .ok rhs' => .ok (some (.assign (boolToExpr r) f' ts' rhs'))
        | .ok _ => .error .attribute
  | .univ c vs es => match C.effects es with
    | .error e => .error e
    | .ok es' => .ok (some (.univ c vs es'))
  | .lit _ _ => .error .runtime
/-- The comprehensions of simplify.py:105-107 and 193-195. -/
def Simplifier.effects (C : Simplifier) : List Effect → Except Err (List Effect)
  | [] => .ok []
  | e :: es => match C.effect e with
    | .error er => .error er
    | .ok o => match C.effects es with
      | .error er => .error er
      | .ok es' => .ok (o.toList ++ es')
end

/-- An action after simplification: its precondition may be a python bool. -/
structure SSchema where
  params : List Var
  pre : Simp
  effs : List Effect

/-- Models `simplify_action` (simplify.py:98-112). -/
def Simplifier.action (C : Simplifier) (a : Schema) : Except Err (Option SSchema) :=
  match C.formula a.pre with
  | .error e => .error e
  | .ok (.bool false) => .ok none
  | .ok r => match C.effects a.effs with
    | .error e => .error e
    | .ok [] => .ok none
    | .ok es => .ok (some ⟨a.params, r, es⟩)

/-- `ground_schema_into_plain_operator` (action_grounding.py:6-24) on a simplified action: on a python bool
`substitute_expression` raises RepresentationError (representation.py:568-572). -/
def groundSSchema (a : SSchema) (s : Subst) : Except Err Operator :=
  match a.pre with
  | .form f => groundSchema ⟨a.params, f, a.effs⟩ s
  | .bool _ => match checkBinding s a.params with
    | .error e => .error e
    | .ok _ => match checkNames s a.params with
      | .error e => .error e
      | .ok _ => .error .representation

/-- `evaluate` (simple.py:27-54) on a simplified formula: on a python bool it raises UnexpectedElementType. -/
def evSimp (L : MLang) (m : MState) : Simp → Except Err Bool
  | .bool _ => .error .typeError
  | .form f => evFormula L m noSigma f

/-- Models `compute_number_potential_groundings` (fstrips/ops.py:105-107). -/
def numGroundings (dom : Domains) (vs : List Var) : Except Err Nat :=
  match domainsOf dom vs with
  | .error e => .error e
  | .ok ds => .ok ((ds.map List.length).foldl (· * ·) 1)

/-- The loop over the actions of a problem (simplify.py:76-83). -/
def Simplifier.actions (C : Simplifier) (dom : Domains) : List (String × Schema) → Except Err (List (String × SSchema))
  | [] => .ok []
  | (n, a) :: as => match numGroundings dom a.params with
    | .error e => .error e
    | .ok 0 => C.actions dom as
    | .ok _ => match C.action a with
      | .error e => .error e
      | .ok none => C.actions dom as
      | .ok (some a') => match C.actions dom as with
        | .error e => .error e
        | .ok as' => .ok ((n, a') :: as')

/-- The goal and actions after lines 72-83 of `Simplify.simplify` (simplify.py:60-96). -/
def Simplifier.problem (C : Simplifier) (dom : Domains) (goal : Formula) (acts : List (String × Schema)) :
    Except Err (Simp × List (String × SSchema)) :=
  match C.formula goal with
  | .error e => .error e
  | .ok g => match C.actions dom acts with
    | .error e => .error e
    | .ok as => .ok (g, as)

mutual
/-- The symbols `AllSymbolWalker` collects in a term (fstrips/ops.py:41-60, walker.py:125-158). -/
def symsT : Term → List Sym
  | .var _ => []
  | .const _ _ => []
  | .app f ts => .fn f :: symsTs ts
  | .ite c t e => symsF c ++ symsT t ++ symsT e
def symsTs : List Term → List Sym
  | [] => []
  | t :: ts => symsT t ++ symsTs ts
/-- The non-builtin predicates and the functions `AllSymbolWalker` collects in a formula. -/
def symsF : Formula → List Sym
  | .top => []
  | .bot => []
  | .atom (.cmp _) ts => symsTs ts
  | .atom (.user p) ts => .pred p :: symsTs ts
  | .comp _ _ fs => symsFs fs
  | .quant _ vs f => symsF f ++ symsTs vs
def symsFs : List Formula → List Sym
  | [] => []
  | f :: fs => symsF f ++ symsFs fs
end

mutual
/-- The symbols `AllSymbolWalker` collects in an effect (walker.py:103-123): the condition of a universal effect is not
visited; literal effects raise RuntimeError. -/
def symsE : Effect → Except Err (List Sym)
  | .add c p ts => .ok (symsF c ++ symsF (.atom p ts))
  | .del c p ts => .ok (symsF c ++ symsF (.atom p ts))
  | .assign c f ts r => .ok (symsF c ++ symsT (.app f ts) ++ symsT r)
  | .univ _ _ es => symsEs es
  | .lit _ _ => .error .runtime
def symsEs : List Effect → Except Err (List Sym)
  | [] => .ok []
  | e :: es => match symsE e with
    | .error er => .error er
    | .ok xs => match symsEs es with
      | .error er => .error er
      | .ok ys => .ok (xs ++ ys)
end

/-- The symbols collected in a simplified formula: a python bool raises RuntimeError (walker.py:155-156). -/
def symsSimp : Simp → Except Err (List Sym)
  | .bool _ => .error .runtime
  | .form f => .ok (symsF f)

/-- `visit_action` for all actions (walker.py:83-97). -/
def symsActs : List (String × SSchema) → Except Err (List Sym)
  | [] => .ok []
  | (_, a) :: as => match symsSimp a.pre with
    | .error e => .error e
    | .ok xs => match symsEs a.effs with
      | .error e => .error e
      | .ok ys => match symsActs as with
        | .error e => .error e
        | .ok zs => .ok (xs ++ ys ++ zs)

/-- Models `collect_all_symbols` (fstrips/ops.py:16-28) on a simplified problem. -/
def collectAllSymbols (goal : Simp) (acts : List (String × SSchema)) : Except Err (List Sym) :=
  match symsSimp goal with
  | .error e => .error e
  | .ok xs => match symsActs acts with
    | .error e => .error e
    | .ok ys => .ok (xs ++ ys)

/-- The signature of a symbol (predicate.py, function.py: name followed by the sorts). -/
def Sym.sig (L : MLang) : Sym → List String
  | .pred p => L.psig p
  | .fn f => L.fsig f

/-- A simplified problem: goal, actions, the remaining non-builtin symbols (other than total-cost) of the language, the
initial state. -/
structure SProblem where
  goal : Simp
  acts : List (String × SSchema)
  syms : List Sym
  init : MState

/-- Models `Simplify.simplify` (simplify.py:60-96) with `remove_unused_symbols=False`, on a problem with the given
non-builtin symbols, initial state, goal and actions. The symbols are removed from the language also when
`inplace=False`, since a deep copy of a problem shares its language (fol.py:39-42). -/
def Simplifier.simplify (C : Simplifier) (dom : Domains) (syms : List Sym) (init : MState) (goal : Formula)
    (acts : List (String × Schema)) : Except Err SProblem :=
  match C.problem dom goal acts with
  | .error e => .error e
  | .ok (g, as) => match collectAllSymbols g as with
    | .error e => .error e
    | .ok used => .ok {
        goal := g
        acts := as
        syms := syms.filter (fun x => used.contains x)
        init := (syms.filter (fun x => !used.contains x)).foldl (fun m x => m.removeSymbol (x.sig C.L)) init }

end Tarski

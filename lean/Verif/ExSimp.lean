import Verif.Flatten
import Verif.Subst
import Verif.FreeVars
/-! Model of `simplify_existential_quantification`
(/repo/src/tarski/fstrips/manipulation/simplify.py:212-281). -/
namespace Tarski

/-- Models the loop of `_attempt_single_ex_var_substitution` (simplify.py:247-270): the indices of the `z = z` atoms met
(`toremove`), and the index, key and value of the substitution on which the loop breaks, if any. `xs` is the set `exvars`.
Equality atoms always have two subterms (they are built by an arity-checking constructor); others are skipped here. -/
def exScan (xs : List Term) : Nat → List Formula → List Nat × Option (Nat × Term × Term)
  | _, [] => ([], none)
  | i, .atom (.cmp .eq) [t1, t2] :: cs =>
    if t1 ∉ xs ∧ t2 ∉ xs then exScan xs (i + 1) cs
    else if t1 = t2 then (i :: (exScan xs (i + 1) cs).1, (exScan xs (i + 1) cs).2)
    else if t1 ∈ xs ∧ t2 ∈ xs then ([], some (i, t2, t1))
    else if t1 ∈ xs then ([], some (i, t1, t2))
    else ([], some (i, t2, t1))
  | i, _ :: cs => exScan xs (i + 1) cs

/-- `[c for i, c in enumerate(cs) if p(i)]`, counting from `i`. -/
def enumFilter (p : Nat → Bool) : Nat → List Formula → List Formula
  | _, [] => []
  | i, c :: cs => if p i then c :: enumFilter p (i + 1) cs else enumFilter p (i + 1) cs

/-- Models `_attempt_single_ex_var_substitution` (simplify.py:242-281): the new set of variables and the new conjuncts,
and whether to go on. The substitution is applied in place (line 280), which is observable only through terms shared by
several conjuncts; sharing is not modelled. -/
def exAttempt (xs : List Term) (cs : List Formula) : Bool × List Term × List Formula :=
  let cs1 := enumFilter (fun i => !(exScan xs 0 cs).1.contains i) 0 cs
  match (exScan xs 0 cs).2 with
  | none => (false, xs, cs1)
  | some (r, x, t) => (true, xs.filter (fun y => decide (y ≠ x)), (enumFilter (fun i => decide (i ≠ r)) 0 cs1).map (subF [(x, t)]))

/-- Models the `while go_on` loop (simplify.py:232-234). Each round that goes on removes a variable from the set, so
`xs.length + 1` rounds suffice (`exLoop_stops`). -/
def exLoop : Nat → List Term → List Formula → List Term × List Formula
  | 0, xs, cs => (xs, cs)
  | n + 1, xs, cs =>
    if (exAttempt xs cs).1 then exLoop n (exAttempt xs cs).2.1 (exAttempt xs cs).2.2 else (exAttempt xs cs).2

/-- Models `ExistentialQuantificationSimplifier.visit` on an existential formula with variables `vs` and body `f`
(simplify.py:225-239). `ord` is the iteration order of the python set `exvars` (line 238). -/
def exNode (ord : List Term → List Term) (vs : List Term) (f : Formula) : Except Err Formula :=
  let xs := addAll [] vs
  let r := exLoop (xs.length + 1) xs (unwrapConjunctionOrAtom (flatten f))
  if r.1.isEmpty then .ok (land r.2 true) else quantified .exists (ord r.1) (land r.2 true)

mutual
/-- Models `FOLWalker.visit_expression` (walker.py:60-86) of the existential simplifier on terms. -/
def exSimpT (ord : List Term → List Term) : Term → Except Err Term
  | .var v => .ok (.var v)
  | .const n so => .ok (.const n so)
  | .app f ts =>
    match exSimpTs ord ts with
    | .error e => .error e
    | .ok ts' => .ok (.app f ts')
  | .ite c t e =>
    match exSimpF ord c with
    | .error er => .error er
    | .ok c' =>
      match exSimpT ord t with
      | .error er => .error er
      | .ok t' =>
        match exSimpT ord e with
        | .error er => .error er
        | .ok e' => .ok (.ite c' t' e')
def exSimpTs (ord : List Term → List Term) : List Term → Except Err (List Term)
  | [] => .ok []
  | t :: ts =>
    match exSimpT ord t with
    | .error e => .error e
    | .ok t' =>
      match exSimpTs ord ts with
      | .error e => .error e
      | .ok ts' => .ok (t' :: ts')
/-- Models `simplify_existential_quantification` (simplify.py:212-239): the walker visits subexpressions first
(walker.py:60-86), universal formulas are returned as they are, existential ones are rewritten. -/
def exSimpF (ord : List Term → List Term) : Formula → Except Err Formula
  | .top => .ok .top
  | .bot => .ok .bot
  | .atom p ts =>
    match exSimpTs ord ts with
    | .error e => .error e
    | .ok ts' => .ok (.atom p ts')
  | .comp _ c fs =>
    match exSimpFs ord fs with
    | .error e => .error e
    | .ok fs' => .ok (.comp .list c fs')
  | .quant q vs f =>
    match exSimpF ord f with
    | .error e => .error e
    | .ok f' =>
      match exSimpTs ord vs with
      | .error e => .error e
      | .ok vs' =>
        match q with
        | .forall => .ok (.quant .forall vs' f')
        | .exists => exNode ord vs' f'
def exSimpFs (ord : List Term → List Term) : List Formula → Except Err (List Formula)
  | [] => .ok []
  | f :: fs =>
    match exSimpF ord f with
    | .error e => .error e
    | .ok f' =>
      match exSimpFs ord fs with
      | .error e => .error e
      | .ok fs' => .ok (f' :: fs')
end

end Tarski

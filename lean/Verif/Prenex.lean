import Verif.NNF
import Verif.Subst
import Verif.FreeVars
import Verif.Shapes
/-! Model of /repo/src/tarski/syntax/transform/prenex.py. -/
namespace Tarski

/-- The dictionary built in prenex.py:23: first occurrences, in order. The keys `(symbol, sort name)`
are in one-to-one correspondence with variables; quantifier lists with other entries (which only
substitution can produce) are not modelled. -/
def dictKeys (vs : List Term) : List Term :=
  vs.foldl (fun acc v => if v ∈ acc then acc else acc ++ [v]) []

/-- The loop of prenex.py:25-33. Line 32 uses the `Variable` object itself as a dictionary key; terms are
not hashable (terms.py:127), so any clash raises `TypeError`. -/
def mergeVars (acc : List Term) : List Term → Except Err (List Term)
  | [] => .ok acc
  | y :: ys => if y ∈ acc then .error .typeError else mergeVars (acc ++ [y]) ys

/-- Models `_merge_quantified_subformulas` (prenex.py:20-37), always called with `renaming=True`. The
connective of the parent is not passed: line 36 always builds a disjunction. -/
def mergeQuantified (q : Quant) (lvs : List Term) (lf : Formula) (rvs : List Term) (rf : Formula) :
    Except Err Formula :=
  match mergeVars (dictKeys lvs) rvs with
  | .error e => .error e
  | .ok vs => .ok (.quant q vs (lor [lf, rf]))

/-- The variable `y'` of prenex.py:52. -/
def primed : Term → Term
  | .var v => .var ⟨v.sym ++ "'", v.sort⟩
  | t => t

/-- Models the renaming loop of `_nest_quantifiers` (prenex.py:44-54): new outer variables and the
substitution. -/
def nestVars (outVs innerVs : List Term) : List Term × Subst :=
  (outVs.map (fun y => if y ∈ innerVs then primed y else y),
   outVs.filterMap (fun y => if y ∈ innerVs then some (y, primed y) else none))

/-- In-place substitution, done only if there is something to rename (prenex.py:55-56). Formula objects are
assumed not to be shared between the two sides. -/
def nestSub (s : Subst) (f : Formula) : Formula := if s.isEmpty then f else subF s f

/-- The combination step of `convert_and_or` (prenex.py:87-135) for converted sides `lhs`, `rhs` of `phi`. -/
def combine (phi : Formula) (c : Conn) (lhs rhs : Formula) : Except Err Formula :=
  match lhs, rhs with
  | .quant ql lvs lf, .quant qr rvs rf =>
    if ql = qr then mergeQuantified ql lvs lf rvs rf
    else if qr = .exists ∧ ql = .forall then
      let (outVs, s) := nestVars rvs lvs
      .ok (.quant .exists outVs (.quant .forall lvs (.comp .tuple c [lf, nestSub s rf])))
    else
      let (outVs, s) := nestVars lvs rvs
      .ok (.quant .exists outVs (.quant .forall rvs (.comp .tuple c [nestSub s lf, rf])))
  | lhs, .quant qr rvs rf => .ok (.quant qr rvs (.comp .tuple c [lhs, rf]))
  | .quant ql lvs lf, rhs => .ok (.quant ql lvs (.comp .tuple c [lf, rhs]))
  | _, _ => .ok phi

/-- The end of `convert_quantified` (prenex.py:140-155), with the converted body `g`; `rec` is the
recursive call of line 150. -/
def absorbQ (rec : Formula → Except Err Formula) (q : Quant) (vs : List Term) (g : Formula) : Except Err Formula :=
  match g with
  | .quant q' ws h =>
    if q' = q then .ok (.quant q (vs ++ ws) h)
    else if q' = .exists then
      match rec (.quant q vs h) with
      | .error e => .error e
      | .ok g' => .ok (.quant .exists ws g')
    else .ok (.quant q vs g)
  | _ => .ok (.quant q vs g)

/-- Models `_convert`, `convert_compound`, `convert_and_or`, `convert_quantified` (prenex.py:61-155), with a
bound on the recursion depth (see `pxFuel_enough`: the size of the formula is enough). -/
def pxFuel : Nat → Formula → Except Err Formula
  | 0, _ => .error .runtime
  | n + 1, f =>
    match f with
    | .comp _ .not fs =>
      match fs with
      | .quant .. :: _ => .error .transformation
      | .comp .. :: _ => .error .transformation
      | [] => .error .index
      | _ => .ok f
    | .comp _ c fs =>
      match fs with
      | a :: b :: _ =>
        match pxFuel n a with
        | .error e => .error e
        | .ok lhs =>
          match pxFuel n b with
          | .error e => .error e
          | .ok rhs => combine f c lhs rhs
      | _ => .error .index
    | .quant q vs body =>
      match pxFuel n body with
      | .error e => .error e
      | .ok g => absorbQ (pxFuel n) q vs g
    | f => .ok f

mutual
/-- Number of nodes of the skeleton. -/
def psize : Formula → Nat
  | .top => 1
  | .bot => 1
  | .atom _ _ => 1
  | .comp _ _ fs => 1 + psizes fs
  | .quant _ _ f => 1 + psize f
def psizes : List Formula → Nat
  | [] => 0
  | f :: fs => psize f + psizes fs
end

/-- Models `to_prenex_negation_normal_form` (prenex.py:15-18, 173-175). -/
def toPrenex (f : Formula) : Except Err Formula :=
  match toNNF f with
  | .error e => .error e
  | .ok g => pxFuel (psize g) g

/-! ### Specification side -/

/-- Every sort is inhabited. -/
def NonemptySorts {D} (I : Interp D) : Prop := ∀ s, ∃ d, I.sort s d

/-- Quantifier prefix followed by a quantifier-free matrix. -/
inductive IsPrenex : Formula → Prop where
  | matrix f : QFree f → IsPrenex f
  | quant q vs f : IsPrenex f → IsPrenex (.quant q vs f)

/-- The outermost quantifier after pulling quantifiers out of a formula, existential ones first. -/
def prefixOf : Formula → Option Quant
  | .quant q _ _ => some q
  | .comp _ .and [a, b] => mergePrefix (prefixOf a) (prefixOf b)
  | .comp _ .or [a, b] => mergePrefix (prefixOf a) (prefixOf b)
  | _ => none
where
  mergePrefix : Option Quant → Option Quant → Option Quant
    | none, q => q
    | q, none => q
    | some .forall, some .forall => some .forall
    | _, _ => some .exists

/-- NNF formulas on which the transformation is right: connectives are binary, no variable is bound twice
or both bound and free, no conjunction joins two sides with the same leading quantifier, and no universal
quantifier has a scope with a leading existential. -/
inductive PrenexSafe : Formula → Prop where
  | top : PrenexSafe .top
  | bot : PrenexSafe .bot
  | atom p ts : PrenexSafe (.atom p ts)
  | negAtom k p ts : PrenexSafe (.comp k .not [.atom p ts])
  | binary k c a b : c ≠ .not → PrenexSafe a → PrenexSafe b →
      (∀ v, BoundF v a → ¬ FreeF v b ∧ ¬ BoundF v b) → (∀ v, BoundF v b → ¬ FreeF v a) →
      (c = .and → prefixOf a = prefixOf b → prefixOf a = none) → PrenexSafe (.comp k c [a, b])
  | quant q vs f : PrenexSafe f → vs.Nodup → (∀ t ∈ vs, ∃ v, t = Term.var v) →
      (∀ v, Term.var v ∈ vs → ¬ BoundF v f) → (q = .forall → prefixOf f ≠ some .exists) →
      PrenexSafe (.quant q vs f)

/-- All quantifiers of the skeleton are of kind `q`, connectives are binary and negation is on atoms. -/
inductive OneKind (q : Quant) : Formula → Prop where
  | top : OneKind q .top
  | bot : OneKind q .bot
  | atom p ts : OneKind q (.atom p ts)
  | negAtom k p ts : OneKind q (.comp k .not [.atom p ts])
  | binary k c a b : c ≠ .not → OneKind q a → OneKind q b → OneKind q (.comp k c [a, b])
  | quant vs f : OneKind q f → OneKind q (.quant q vs f)

end Tarski

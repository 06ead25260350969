import Verif.QELemmas
import Verif.TermFluency
/-! Model of temporal formulas: /repo/src/tarski/syntax/temporal/ltl.py, and of what quantifier elimination
(/repo/src/tarski/syntax/transform/quantifier_elimination.py), the negation normal form (transform/nnf.py) and the evaluator
(/repo/src/tarski/evaluators/simple.py) do with them. -/
namespace Tarski

/-- Formulas with the connectives `X F G U R` besides `not and or` (ltl.py:7-29, formulas.py:95-112). Whether the subformulas are kept in a tuple
or in a list is not modelled, nor are temporal formulas in the condition of an if-then-else term. -/
inductive TF where
  | top
  | bot
  | atom (p : PSym) (ts : List Term)
  | comp (c : LConn) (fs : List TF)
  | quant (q : Quant) (vs : List Term) (f : TF)

/-- The connectives with exactly one subformula (ltl.py:23-27). -/
def LConn.unary : LConn → Bool
  | .bool .not => true
  | .next => true
  | .eventually => true
  | .always => true
  | _ => false

/-- The arguments, if all of them are formulas (`none` stands for anything else). -/
def allForms : List (Option TF) → Option (List TF)
  | [] => some []
  | none :: _ => none
  | some f :: l => (allForms l).map (f :: ·)

/-- Models `TemporalCompoundFormula(connective, args)` (ltl.py:14-31). -/
def mkTemporal (c : LConn) (args : List (Option TF)) : Except Err TF :=
  match allForms args with
  | none => .error .language
  | some fs =>
    if c.unary then (if fs.length ≠ 1 then .error .language else .ok (.comp c fs))
    else if fs.length < 2 then .error .language else .ok (.comp c fs)

/-- Models `X` (ltl.py:46-47). -/
def ltlX (a : Option TF) : Except Err TF := mkTemporal .next [a]
/-- Models `F` (ltl.py:50-51). -/
def ltlF (a : Option TF) : Except Err TF := mkTemporal .eventually [a]
/-- Models `G` (ltl.py:54-55). -/
def ltlG (a : Option TF) : Except Err TF := mkTemporal .always [a]
/-- Models `U` (ltl.py:58-59). -/
def ltlU (args : List (Option TF)) : Except Err TF := mkTemporal .til args
/-- Models `R` (ltl.py:62-63). -/
def ltlR (args : List (Option TF)) : Except Err TF := mkTemporal .release args

/-- Models `_to_binary_tree`, `_create_compound`, `land` and `lor` (formulas.py:174-205) on formulas that may be temporal. -/
def treeT (c : Conn) : List TF → TF
  | [] => match c with | .or => .bot | _ => .top
  | [a] => a
  | a :: rest => .comp (.bool c) [a, treeT c rest]

/-- Models `W` (ltl.py:66-67): `U(args)` gets one argument, a tuple, which is no formula. -/
def ltlW (args : List (Option TF)) : Except Err TF :=
  match ltlU [none] with
  | .error e => .error e
  | .ok u => match args with
    | [] => .error .index
    | a :: _ => match ltlG a with
      | .error e => .error e
      | .ok g => .ok (treeT .or [u, g])

mutual
/-- Substitution (walker.py:60-89, substitutions.py:14-31) on formulas that may be temporal. -/
def subL (s : Subst) : TF → TF
  | .top => .top
  | .bot => .bot
  | .atom p ts => .atom p (subTs s ts)
  | .comp c fs => .comp c (subLs s fs)
  | .quant q vs f => .quant q (subTs s vs) (subL s f)
/-- The list of the subformulas (walker.py:88-89). -/
def subLs (s : Subst) : List TF → List TF
  | [] => []
  | f :: fs => subL s f :: subLs s fs
end

/-- `land` for universal and `lor` for existential quantifiers (quantifier_elimination.py:50-54). -/
def creatorT : Quant → List TF → TF
  | .forall => treeT .and
  | .exists => treeT .or

/-- Models `_expand` (quantifier_elimination.py:62-73). -/
def expandT (dom : Domains) (vs : List Term) (f : TF) (q : Quant) : Except Err TF :=
  match enumerateGroundings dom vs with
  | .error e => .error e
  | .ok (card, syms, substs) =>
    if card = 0 then .error .transformation
    else .ok (creatorT q ((cart substs).map (fun values => subL (createSubst syms values) f)))

mutual
/-- Models `_convert` and `_recurse` (quantifier_elimination.py:41-60); the recursive call on the expanded formula is the parameter `rec`. -/
def qeT (rec : TF → Except Err TF) (dom : Domains) (mode : QEMode) : TF → Except Err TF
  | .top => .ok .top
  | .bot => .ok .bot
  | .atom p ts => .ok (.atom p ts)
  | .comp c fs => match qeTs rec dom mode fs with
    | .error e => .error e
    | .ok gs => .ok (.comp c gs)
  | .quant q vs f =>
    if mode.elim q then
      match expandT dom vs f q with
      | .error e => .error e
      | .ok g => rec g
    else match qeT rec dom mode f with
      | .error e => .error e
      | .ok g => .ok (.quant q vs g)
/-- Line 46 of quantifier_elimination.py. -/
def qeTs (rec : TF → Except Err TF) (dom : Domains) (mode : QEMode) : List TF → Except Err (List TF)
  | [] => .ok []
  | f :: fs => match qeT rec dom mode f with
    | .error e => .error e
    | .ok g => match qeTs rec dom mode fs with
      | .error e => .error e
      | .ok gs => .ok (g :: gs)
end

/-- The recursion, unrolled `n` times. -/
def qeTFuel (dom : Domains) (mode : QEMode) : Nat → TF → Except Err TF
  | 0 => qeT (fun _ => .error .runtime) dom mode
  | n + 1 => qeT (qeTFuel dom mode n) dom mode

mutual
/-- Maximal nesting of quantifiers -/
def tdepth : TF → Nat
  | .top => 0
  | .bot => 0
  | .atom _ _ => 0
  | .comp _ fs => tdepths fs
  | .quant _ _ f => tdepth f + 1
def tdepths : List TF → Nat
  | [] => 0
  | f :: fs => max (tdepth f) (tdepths fs)
end

/-- Models `remove_quantifiers` (quantifier_elimination.py:86-88) on formulas that may be temporal; the bound on the recursion is never met
(`removeQuantifiersT_eq`). -/
def removeQuantifiersT (dom : Domains) (mode : QEMode) (f : TF) : Except Err TF := qeTFuel dom mode (tdepth f) f

/-- What `NNFTransformation._convert` may raise: UnexpectedElementType, or AssertionError. -/
inductive NnfErr where
  | unexpected
  | assertion
deriving DecidableEq

/-- Models `negate_connective` (nnf.py:66-67). -/
def dualConn : Conn → Conn
  | .and => .or
  | .or => .and
  | .not => .not

mutual
/-- Models `NNFTransformation._convert` (nnf.py:28-53) on formulas that may be temporal; `none` is a result that is, or contains, a class in the place of
a formula (lines 29-33). -/
def nnfT (negated : Bool) : TF → Except NnfErr (Option TF)
  | .top => .ok (if negated then none else some .top)
  | .bot => .ok (if negated then none else some .bot)
  | .atom p ts => .ok (some (if negated then .comp (.bool .not) [.atom p ts] else .atom p ts))
  | .quant q vs f => match nnfT negated f with
    | .error e => .error e
    | .ok r => .ok (r.map (.quant (if negated then negateQuantifier q else q) vs))
  | .comp (.bool .not) [f] => nnfT (!negated) f
  | .comp (.bool .not) _ => .error .assertion
  | .comp (.bool .and) fs => match nnfTs negated fs with
    | .error e => .error e
    | .ok r => .ok (r.map (.comp (.bool (if negated then dualConn .and else .and))))
  | .comp (.bool .or) fs => match nnfTs negated fs with
    | .error e => .error e
    | .ok r => .ok (r.map (.comp (.bool (if negated then dualConn .or else .or))))
  | .comp _ _ => .error .unexpected
/-- Line 45 of nnf.py. -/
def nnfTs (negated : Bool) : List TF → Except NnfErr (Option (List TF))
  | [] => .ok (some [])
  | f :: fs => match nnfT negated f with
    | .error e => .error e
    | .ok r => match nnfTs negated fs with
      | .error e => .error e
      | .ok rs => .ok (match r, rs with | some g, some gs => some (g :: gs) | _, _ => none)
end

mutual
/-- Models `evaluate` (simple.py:27-45, 57-61, 73-74) on formulas that may be temporal; `ev` evaluates atoms. The temporal connectives are not in the
table `_compound_evaluators`. -/
def evT (ev : PSym → List Term → Except Err Bool) : TF → Except Err Bool
  | .top => .ok true
  | .bot => .ok false
  | .atom p ts => ev p ts
  | .comp (.bool .and) fs => evAllT ev fs
  | .comp (.bool .or) fs => evAnyT ev fs
  | .comp (.bool .not) [] => .error .index
  | .comp (.bool .not) (f :: _) => match evT ev f with
    | .ok b => .ok (!b)
    | .error e => .error e
  | .comp _ _ => .error .keyError
  | .quant _ _ _ => .error .notImplemented
/-- simple.py:59 -/
def evAllT (ev : PSym → List Term → Except Err Bool) : List TF → Except Err Bool
  | [] => .ok true
  | f :: fs => match evT ev f with
    | .ok true => evAllT ev fs
    | .ok false => .ok false
    | .error e => .error e
/-- simple.py:60 -/
def evAnyT (ev : PSym → List Term → Except Err Bool) : List TF → Except Err Bool
  | [] => .ok false
  | f :: fs => match evT ev f with
    | .ok true => .ok true
    | .ok false => evAnyT ev fs
    | .error e => .error e
end

/-! ### Specification: linear temporal logic over infinite sequences of interpretations -/

/-- `a U b`: at some time from now on `b`, and `a` until then. -/
def untilAt (a b : Nat → Prop) (t : Nat) : Prop := ∃ u, t ≤ u ∧ b u ∧ ∀ i, t ≤ i → i < u → a i
/-- `a R b`: at all times from now on `b`, unless `a` has been true before. -/
def releaseAt (a b : Nat → Prop) (t : Nat) : Prop := ∀ u, t ≤ u → b u ∨ ∃ i, t ≤ i ∧ i < u ∧ a i

/-- More than two arguments are read from the right, `a U (b U c)`. -/
def nested (op : (Nat → Prop) → (Nat → Prop) → Nat → Prop) : List (Nat → Prop) → Nat → Prop
  | [] => fun _ => True
  | [a] => a
  | a :: l => op a (nested op l)

/-- The meaning of the connectives. -/
def connMeaning : LConn → List (Nat → Prop) → Nat → Prop
  | .bool .and, l, t => ∀ a ∈ l, a t
  | .bool .or, l, t => ∃ a ∈ l, a t
  | .bool .not, l, t => ¬ ∀ a ∈ l, a t
  | .next, l, t => ∀ a ∈ l, a (t + 1)
  | .eventually, l, t => ∃ u, t ≤ u ∧ ∀ a ∈ l, a u
  | .always, l, t => ∀ u, t ≤ u → ∀ a ∈ l, a u
  | .til, l, t => nested untilAt l t
  | .release, l, t => nested releaseAt l t

mutual
/-- Truth of a formula in a sequence of interpretations under an assignment at a time. -/
noncomputable def SatL {D} (M : Nat → Interp D) : TF → Asg D → Nat → Prop
  | .top, _, _ => True
  | .bot, _, _ => False
  | .atom p ts, σ, t => (M t).pred p (evalTs (M t) ts σ)
  | .comp c fs, σ, t => connMeaning c (SatLs M fs σ) t
  | .quant q vs f, σ, t => quantBlock (M t) q vs (fun τ => SatL M f τ t) σ
noncomputable def SatLs {D} (M : Nat → Interp D) : List TF → Asg D → List (Nat → Prop)
  | [], _ => []
  | f :: fs, σ => SatL M f σ :: SatLs M fs σ
end

/-- The names and the sorts mean the same at all times. -/
def Rigid {D} (M : Nat → Interp D) : Prop := ∀ t u, (M t).const = (M u).const ∧ (M t).sort = (M u).sort

mutual
/-- Some quantifier inside the formula binds `v`. -/
def BoundL (v : Var) : TF → Prop
  | .top => False
  | .bot => False
  | .atom _ ts => BoundTs v ts
  | .comp _ fs => BoundLs v fs
  | .quant _ vs f => Term.var v ∈ vs ∨ BoundL v f
def BoundLs (v : Var) : List TF → Prop
  | [] => False
  | f :: fs => BoundL v f ∨ BoundLs v fs
end

mutual
/-- Quantifiers bind variables only. -/
def VarBindersL : TF → Prop
  | .top => True
  | .bot => True
  | .atom _ ts => VarBindersTs ts
  | .comp _ fs => VarBindersLs fs
  | .quant _ vs f => (∀ t ∈ vs, ∃ v, t = Term.var v) ∧ VarBindersL f
def VarBindersLs : List TF → Prop
  | [] => True
  | f :: fs => VarBindersL f ∧ VarBindersLs fs
end

mutual
/-- No quantifier binds a variable again that is bound around it. -/
def NoRebindL : TF → Prop
  | .top => True
  | .bot => True
  | .atom _ _ => True
  | .comp _ fs => NoRebindLs fs
  | .quant _ vs f => vs.Nodup ∧ (∀ v, Term.var v ∈ vs → ¬ BoundL v f) ∧ NoRebindL f
def NoRebindLs : List TF → Prop
  | [] => True
  | f :: fs => NoRebindL f ∧ NoRebindLs fs
end

/-- No quantifier of the given kinds occurs outside of terms. -/
inductive NoQuantL (elim : Quant → Bool) : TF → Prop where
  | top : NoQuantL elim .top
  | bot : NoQuantL elim .bot
  | atom p ts : NoQuantL elim (.atom p ts)
  | comp c fs : (∀ f ∈ fs, NoQuantL elim f) → NoQuantL elim (.comp c fs)
  | quant q vs f : elim q = false → NoQuantL elim f → NoQuantL elim (.quant q vs f)

/-- A temporal connective occurs in the formula. -/
inductive HasTemporal : TF → Prop where
  | here c fs : (∀ b, c ≠ .bool b) → HasTemporal (.comp c fs)
  | sub c fs f : f ∈ fs → HasTemporal f → HasTemporal (.comp c fs)
  | under q vs f : HasTemporal f → HasTemporal (.quant q vs f)

/-- Negations have one subformula (this is checked whenever one is built). -/
inductive NotUnary : TF → Prop where
  | top : NotUnary .top
  | bot : NotUnary .bot
  | atom p ts : NotUnary (.atom p ts)
  | comp c fs : (c = .bool .not → fs.length = 1) → (∀ f ∈ fs, NotUnary f) → NotUnary (.comp c fs)
  | quant q vs f : NotUnary f → NotUnary (.quant q vs f)

/-- A first-order formula, read as a formula that may be temporal. -/
inductive FirstOrder : TF → Formula → Prop where
  | top : FirstOrder .top .top
  | bot : FirstOrder .bot .bot
  | atom p ts : FirstOrder (.atom p ts) (.atom p ts)
  | comp k c fs gs : List.Forall₂ FirstOrder fs gs → FirstOrder (.comp (.bool c) fs) (.comp k c gs)
  | quant q vs f g : FirstOrder f g → FirstOrder (.quant q vs f) (.quant q vs g)

end Tarski

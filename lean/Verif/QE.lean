import Verif.FreeVars
/-! Model of quantifier elimination:
/repo/src/tarski/syntax/transform/quantifier_elimination.py and
/repo/src/tarski/grounding/naive/instantiation.py. -/
namespace Tarski

/-- The part of the language the transformation reads: the list of constants of each sort
(`list(st.sort.domain())`, sorts.py:76-77, 159-164), or the exception raised for builtin sorts
(instantiation.py:14-16) and for intervals that cannot be enumerated (sorts.py:160-161). -/
abbrev Domains := String → Except Err (List Term)

/-- `itertools.product` -/
def cart {α} : List (List α) → List (List α)
  | [] => [[]]
  | l :: ls => l.flatMap (fun x => (cart ls).map (x :: ·))

/-- The loop of `enumerate_groundings` (instantiation.py:7-21): cardinality and instantiation lists.
Constants are skipped, anything that is neither a constant nor a variable raises. -/
def enumLoop (dom : Domains) : List Term → Except Err (Nat × List (List Term))
  | [] => .ok (1, [])
  | .const _ _ :: ts => enumLoop dom ts
  | .var v :: ts =>
    match dom v.sort with
    | .error e => .error e
    | .ok cs =>
      match enumLoop dom ts with
      | .error e => .error e
      | .ok (n, ls) => .ok (cs.length * n, cs :: ls)
  | _ :: _ => .error .unableToGround

/-- Models `enumerate_groundings` (instantiation.py:5-23): note that the *given* list of symbols is
returned (line 23), not the list of variables that were enumerated. -/
def enumerateGroundings (dom : Domains) (symbols : List Term) :
    Except Err (Nat × List Term × List (List Term)) :=
  match enumLoop dom symbols with
  | .error e => .error e
  | .ok (n, ls) => .ok (n, symbols, ls)

/-- Models `QuantifierElimination._expand` (quantifier_elimination.py:62-73). -/
def expand (dom : Domains) (vs : List Term) (f : Formula) (creator : List Formula → Formula) :
    Except Err Formula :=
  match enumerateGroundings dom vs with
  | .error e => .error e
  | .ok (card, syms, substs) =>
    if card = 0 then .error .transformation
    else .ok (creator ((cart substs).map (fun values => subF (createSubst syms values) f)))

/-- Models `QuantifierEliminationMode` (quantifier_elimination.py:15-19). -/
inductive QEMode where
  | exists | forall | all
deriving DecidableEq

/-- Models `_eliminate_forall` / `_eliminate_exists` (quantifier_elimination.py:35-39). -/
def QEMode.elim : QEMode → Quant → Bool
  | .all, _ => true
  | .forall, .forall => true
  | .exists, .exists => true
  | _, _ => false

/-- `land` for universal and `lor` for existential quantifiers (quantifier_elimination.py:50-54). -/
def creatorOf : Quant → List Formula → Formula
  | .forall => fun fs => land fs
  | .exists => fun fs => lor fs

mutual
/-- Models `QuantifierElimination._convert` and `_recurse` (quantifier_elimination.py:41-60), where the
recursive call on the expanded formula (lines 51, 54) is the parameter `rec`. -/
def qeWith (rec : Formula → Except Err Formula) (dom : Domains) (mode : QEMode) : Formula → Except Err Formula
  | .top => .ok .top
  | .bot => .ok .bot
  | .atom p ts => .ok (.atom p ts)
  | .comp _ c fs =>
    match qesWith rec dom mode fs with
    | .error e => .error e
    | .ok gs => .ok (.comp .tuple c gs)
  | .quant q vs f =>
    if mode.elim q then
      match expand dom vs f (creatorOf q) with
      | .error e => .error e
      | .ok g => rec g
    else
      match qeWith rec dom mode f with
      | .error e => .error e
      | .ok g => .ok (.quant q vs g)
def qesWith (rec : Formula → Except Err Formula) (dom : Domains) (mode : QEMode) :
    List Formula → Except Err (List Formula)
  | [] => .ok []
  | f :: fs =>
    match qeWith rec dom mode f with
    | .error e => .error e
    | .ok g =>
      match qesWith rec dom mode fs with
      | .error e => .error e
      | .ok gs => .ok (g :: gs)
end

/-- Recursion depth of nested expansions, unrolled `n` times. -/
def qeFuel (dom : Domains) (mode : QEMode) : Nat → Formula → Except Err Formula
  | 0 => qeWith (fun _ => .error .runtime) dom mode
  | n + 1 => qeWith (qeFuel dom mode n) dom mode

mutual
/-- Maximal nesting of quantifiers. -/
def qdepth : Formula → Nat
  | .top => 0
  | .bot => 0
  | .atom _ _ => 0
  | .comp _ _ fs => qdepths fs
  | .quant _ _ f => qdepth f + 1
def qdepths : List Formula → Nat
  | [] => 0
  | f :: fs => max (qdepth f) (qdepths fs)
end

/-- Models `remove_quantifiers` (quantifier_elimination.py:86-88). Each expansion removes one level
of nesting, so unrolling the recursion `qdepth f` times is enough (`qeFuel_enough`). -/
def removeQuantifiers (dom : Domains) (mode : QEMode) (f : Formula) : Except Err Formula :=
  qeFuel dom mode (qdepth f) f

/-! ### Specification side -/

/-- The interpretation has exactly the named objects in each sort whose domain can be listed. -/
def DomOK {D} (I : Interp D) (dom : Domains) : Prop :=
  ∀ s cs, dom s = .ok cs →
    (∀ c ∈ cs, ∃ n so, c = Term.const n so) ∧ ∀ d, I.sort s d ↔ ∃ n so, Term.const n so ∈ cs ∧ I.const n so = d

/-- No quantifier of the given kinds occurs in the skeleton. -/
inductive NoQuant (elim : Quant → Bool) : Formula → Prop where
  | top : NoQuant elim .top
  | bot : NoQuant elim .bot
  | atom p ts : NoQuant elim (.atom p ts)
  | comp k c fs : (∀ f ∈ fs, NoQuant elim f) → NoQuant elim (.comp k c fs)
  | quant q vs f : elim q = false → NoQuant elim f → NoQuant elim (.quant q vs f)

/-- Some quantifier to be eliminated binds a variable whose sort is empty or cannot be enumerated. -/
inductive BadQuant (dom : Domains) (elim : Quant → Bool) : Formula → Prop where
  | here q vs f v : elim q = true → Term.var v ∈ vs → (∀ cs, dom v.sort = .ok cs → cs = []) →
      BadQuant dom elim (.quant q vs f)
  | under q vs f : BadQuant dom elim f → BadQuant dom elim (.quant q vs f)
  | comp k c fs f : f ∈ fs → BadQuant dom elim f → BadQuant dom elim (.comp k c fs)

/-- Domain lists contain constants only. -/
def ConstDoms (dom : Domains) : Prop := ∀ s cs, dom s = .ok cs → ∀ c ∈ cs, ∃ n so, c = Term.const n so

end Tarski

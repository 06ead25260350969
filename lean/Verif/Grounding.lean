import Verif.QE
import Verif.Containers
import Verif.Language
import Verif.Effects
/-! Model of naive grounding: /repo/src/tarski/grounding/naive_grounding.py (NaiveGroundingStrategy and the functions below
it), /repo/src/tarski/grounding/common.py, and `compute_signature_bindings` (/repo/src/tarski/syntax/sorts.py:240-244). -/
namespace Tarski

/-- `[s.domain() for s in sorts]` (naive_grounding.py:136, 153; sorts.py:243): the enumeration of a sort or the exception raised
by `Interval.domain` (sorts.py:160-161). -/
def sortDomains {α} (dom : String → Except Err (List α)) : List String → Except Err (List (List α))
  | [] => .ok []
  | s :: ss => match dom s with
    | .error e => .error e
    | .ok d => match sortDomains dom ss with
      | .error e => .error e
      | .ok ds => .ok (d :: ds)

/-- Models `compute_signature_bindings` (sorts.py:240-244). -/
def signatureBindings {α} (dom : String → Except Err (List α)) (sorts : List String) : Except Err (List (List α)) :=
  match sortDomains dom sorts with
  | .error e => .error e
  | .ok ds => .ok (cart ds)

/-- Models `NaiveGroundingStrategy.ground_actions` (naive_grounding.py:131-138): `actions` is the ordered dictionary of action
names with the sorts of their parameters. -/
def groundActions {α} (dom : String → Except Err (List α)) :
    List (String × List String) → Except Err (List (String × List (List α)))
  | [] => .ok []
  | (a, ps) :: rest => match signatureBindings dom ps with
    | .error e => .error e
    | .ok bs => match groundActions dom rest with
      | .error e => .error e
      | .ok gs => .ok ((a, bs) :: gs)

/-- `variables.add(x)` in a loop (naive_grounding.py:155-156, 175-176): a duplicate raises `DuplicateDefinition`. -/
def addVarsRaising {β} [DecidableEq β] : SymIndex β → List β → Except Err (SymIndex β)
  | s, [] => .ok s
  | s, x :: xs => match s.add x with
    | (_, some e) => .error e
    | (s', none) => addVarsRaising s' xs

/-- The loop of `ground_symbols_exhaustively` (naive_grounding.py:146-158). A symbol comes with the sorts of its arguments
(`symbol.domain`); a state variable is a symbol with a tuple of constants (common.py:5-27). -/
def groundSymbolsLoop {α γ} [DecidableEq α] [DecidableEq γ] (dom : String → Except Err (List α)) (sig : γ → List String) :
    SymIndex (γ × List α) → List γ → Except Err (SymIndex (γ × List α))
  | s, [] => .ok s
  | s, g :: gs => match signatureBindings dom (sig g) with
    | .error e => .error e
    | .ok bs => match addVarsRaising s (bs.map (fun b => (g, b))) with
      | .error e => .error e
      | .ok s' => groundSymbolsLoop dom sig s' gs

/-- Models `ground_symbols_exhaustively` (naive_grounding.py:146-158), the body of `ground_state_variables` (123-129). -/
def groundSymbols {α γ} [DecidableEq α] [DecidableEq γ] (dom : String → Except Err (List α)) (sig : γ → List String)
    (symbols : List γ) : Except Err (SymIndex (γ × List α)) :=
  groundSymbolsLoop dom sig SymIndex.empty symbols

/-- An argument of a partially grounded term: a constant, or something else (a variable, a nested term). -/
inductive PArg (α : Type) where
  | fixed (c : α)
  | open_
deriving DecidableEq

/-- The domains of a partially grounded term (naive_grounding.py:171-174): the domains of all sorts are taken first (an
interval that cannot be enumerated raises even at a fixed position), then fixed positions are replaced; indexing
`term.subterms[i]` cannot fail as terms have the arity of their symbol. -/
def partialDomains {α} : List (List α) → List (PArg α) → List (List α)
  | _ :: ds, .fixed c :: as => [c] :: partialDomains ds as
  | d :: ds, .open_ :: as => d :: partialDomains ds as
  | ds, [] => ds
  | [], _ => []

/-- Models `ground_partially_grounded_terms_exhaustively` (naive_grounding.py:161-178). A term is its symbol and its
arguments. -/
def groundPartialLoop {α γ} [DecidableEq α] [DecidableEq γ] (dom : String → Except Err (List α)) (sig : γ → List String) :
    SymIndex (γ × List α) → List (γ × List (PArg α)) → Except Err (SymIndex (γ × List α))
  | s, [] => .ok s
  | s, (g, as) :: ts => match sortDomains dom (sig g) with
    | .error e => .error e
    | .ok ds => match addVarsRaising s ((cart (partialDomains ds as)).map (fun b => (g, b))) with
      | .error e => .error e
      | .ok s' => groundPartialLoop dom sig s' ts

/-- Models the call `ground_partially_grounded_terms_exhaustively(terms)`. -/
def groundPartial {α γ} [DecidableEq α] [DecidableEq γ] (dom : String → Except Err (List α)) (sig : γ → List String)
    (terms : List (γ × List (PArg α))) : Except Err (SymIndex (γ × List α)) :=
  groundPartialLoop dom sig SymIndex.empty terms

/-- Models `Sort.domain` (sorts.py:76-77) in a language, `get_constant` included (fol.py:261-264: the constant object stored under
that name, with its declared sort). The enumeration of interval sorts (sorts.py:159-164) is a parameter, as
bounds are not part of the language model. -/
def Lang.domainOf (L : Lang) (iv : String → Except Err (List Const)) (s : String) : Except Err (List Const) :=
  if L.isIntervalB s then iv s
  else (L.dom s).mapM fun c => match L.consts c with
    | some so => .ok ⟨.str c, so⟩
    | none => .error .undefinedVariable

end Tarski

import Verif.DLEq
import Verif.Containers
/-! Model of the vocabulary of description logics of a language and of its primitive concepts, roles and atoms:
/repo/src/tarski/dl/factory.py:33-94, with the constructors /repo/src/tarski/dl/concepts.py:9-16, 122-126, 151-163, 417-426, 602-604. -/
namespace Tarski

/-- A predicate or function of a language (predicate.py, function.py), with the names of its sorts. The symbol of a built-in one is
not a string, but an enumeration element (builtins.py:56-57, 79-80). -/
inductive DPredFun where
  | pred (name : String) (builtin : Bool) (sorts : List String)
  | func (name : String) (builtin : Bool) (dom : List String) (cod : String)
deriving DecidableEq

namespace DPredFun
/-- `symbol` -/
def name : DPredFun → String
  | pred n _ _ => n
  | func n _ _ _ => n
/-- `is_builtin_predicate(p) or is_builtin_function(p)` (builtins.py:56-57, 79-80). -/
def builtin : DPredFun → Bool
  | pred _ b _ => b
  | func _ b _ _ => b
/-- `arity` (predicate.py:29-31, function.py:30-32). -/
def arity : DPredFun → Nat
  | pred _ _ s => s.length
  | func _ _ d _ => d.length
/-- `uniform_arity` (predicate.py:33-34, function.py:34-35). -/
def uniformArity : DPredFun → Nat
  | pred _ _ s => s.length
  | func _ _ d _ => d.length + 1
/-- `sort` (predicate.py, function.py:37-39). -/
def sort : DPredFun → List String
  | pred _ _ s => s
  | func _ _ d c => d ++ [c]
end DPredFun

/-- A sort of a language: its name and whether it is built-in. -/
structure DSortObj where
  name : String
  builtin : Bool
deriving DecidableEq

/-- What is looked up in the language, in the order of its registries. -/
structure DLangData where
  preds : List DPredFun
  funs : List DPredFun
  sorts : List DSortObj

/-- The elements of a DL vocabulary. -/
inductive DVocElem where
  | sym (p : DPredFun)
  | sort (s : DSortObj)
deriving DecidableEq

/-- Models `compute_dl_vocabulary` (factory.py:33-46). -/
def dlVocabulary (L : DLangData) : List (String × DVocElem) :=
  dictOf ((L.preds.filter fun p => !p.builtin && decide (p.arity ∈ [0, 1, 2])).map (fun p => (p.name, DVocElem.sym p))
    ++ (L.funs.filter fun f => !f.builtin && decide (f.arity ∈ [0, 1]) && decide (f.name ≠ "total-cost")).map (fun f => (f.name, DVocElem.sym f))
    ++ (L.sorts.filter fun s => !s.builtin && decide (s.name ≠ "number")).map (fun s => (s.name, DVocElem.sort s)))

/-- A primitive element: its class (DLEq.lean), name and sort or sorts. -/
structure DPrim where
  cls : DNamedCls
  name : String
  sort : List String
deriving DecidableEq

/-- Models `NullaryAtom(predfun)` and `GoalNullaryAtom(predfun)` (concepts.py:12-17): a predicate of arity 0 is required. -/
def mkNullary (k : DNamedCls) : DPredFun → Except Err DPrim
  | .pred n _ s => if s.length ≠ 0 then .error .arity else .ok ⟨k, n, []⟩
  | .func _ _ _ _ => .error .assertion

/-- Models `PrimitiveConcept(predfun)` and `GoalConcept(predfun)` for predicates and functions (concepts.py:152-158). -/
def mkConcept (k : DNamedCls) (p : DPredFun) : Except Err DPrim :=
  if 1 ≠ p.uniformArity then .error .arity else match p.sort with
  | s :: _ => .ok ⟨k, p.name, [s]⟩
  | [] => .error .index

/-- Models `PrimitiveRole(predfun)` and `GoalRole(predfun)` (concepts.py:418-423). -/
def mkRole (k : DNamedCls) (p : DPredFun) : Except Err DPrim :=
  if 2 ≠ p.uniformArity then .error .arity else if p.sort.length ≠ 2 then .error .assertion else .ok ⟨k, p.name, p.sort⟩

/-- `xs.append(C(predfun)); if predfun.symbol in goal_predicates: xs.append(G(predfun))` (factory.py:67-79). -/
def appendPrim (mk : DNamedCls → DPredFun → Except Err DPrim) (k g : DNamedCls) (goals : List String) (p : DPredFun) (xs : List DPrim) :
    Except Err (List DPrim) :=
  match mk k p with
  | .error e => .error e
  | .ok c => if p.name ∈ goals then match mk g p with
      | .error e => .error e
      | .ok c' => .ok (xs ++ [c, c'])
    else .ok (xs ++ [c])

/-- The concepts, roles and atoms generated so far. -/
structure DPrims where
  concepts : List DPrim := []
  roles : List DPrim := []
  atoms : List DPrim := []

/-- The loop over the predicates and functions (factory.py:60-82). -/
def primLoop (goals : List String) : List DPredFun → DPrims → Except Err DPrims
  | [], a => .ok a
  | p :: ps, a =>
    if p.builtin then primLoop goals ps a
    else if p.uniformArity = 0 then match appendPrim mkNullary .nullary .goalNullary goals p a.atoms with
      | .error e => .error e
      | .ok x => primLoop goals ps { a with atoms := x }
    else if p.uniformArity = 1 then match appendPrim mkConcept .concept .goalConcept goals p a.concepts with
      | .error e => .error e
      | .ok x => primLoop goals ps { a with concepts := x }
    else if p.uniformArity = 2 then match appendPrim mkRole .role .goalRole goals p a.roles with
      | .error e => .error e
      | .ok x => primLoop goals ps { a with roles := x }
    else primLoop goals ps a

/-- Models `generate_primitives_from_language` (factory.py:56-94): `nominals` are constants (symbol and name of the sort), `types` sorts
(concepts.py:123-126, 160-162). -/
def generatePrims (L : DLangData) (nominals : List (String × String)) (types : List DSortObj) (goals : List String) : Except Err DPrims :=
  match primLoop goals (L.preds ++ L.funs) {} with
  | .error e => .error e
  | .ok a => .ok { a with concepts := a.concepts ++ nominals.map (fun c => ⟨.nominal, c.1, [c.2]⟩) ++ types.map (fun t => ⟨.concept, t.name, [t.name]⟩) }

end Tarski

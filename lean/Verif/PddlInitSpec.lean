import Mathlib.Data.List.Forall2
import Verif.PddlInit
import Verif.PddlSpec
/-! Specification side of the round trip of initial states through PDDL text. -/
namespace Tarski

/-- The constant can be written in PDDL at a position of sort `s`: it is an object of the language with a name that PDDL can
carry, or a (whole) number of the sort `s` itself, within its bounds. -/
def ConOk (M : MLang) (L : RLang) (s : String) (c : Const) : Prop :=
  (∃ n, c.name = .str n ∧ PName n ∧ L.consts n = some c.sort) ∨
  (∃ n, c.name = .int n ∧ c.sort = s ∧ M.interval s = true ∧ L.castInt s n = .ok (.int n))

/-- The ground atom `p(pt)` can be written in PDDL. -/
def AtomExpressible (M : MLang) (L : RLang) (p : String) (pt : List Const) : Prop :=
  PName p ∧ ∃ ss, L.preds p = some ss ∧ List.Forall₂ (fun c s => ConOk M L s c ∧ L.isSub c.sort s = true) pt ss

/-- The assignment `f(pt) = v` can be written in PDDL; the sorts of the arguments must be exactly the declared ones. -/
def ValueExpressible (M : MLang) (L : RLang) (f : String) (pt : List Const) (v : Const) : Prop :=
  PName f ∧ ∃ ss s, L.funs f = some (ss, s) ∧ List.Forall₂ (fun c s => ConOk M L s c ∧ c.sort = s) pt ss ∧
    ConOk M L s v ∧ L.isSub v.sort s = true

/-- A state as the API builds it: python dictionaries have distinct keys, extensions are stored under the signatures of
their symbols. -/
structure StateWF (M : MLang) (m : MState) : Prop where
  pkeys : (m.preds.map (·.1)).Nodup
  fkeys : (m.fns.map (·.1)).Nodup
  points : ∀ kv ∈ m.fns, (kv.2.map (·.1)).Nodup
  psigs : ∀ kv ∈ m.preds, ∃ p, kv.1 = M.psig p
  fsigs : ∀ kv ∈ m.fns, ∃ f, kv.1 = M.fsig f

end Tarski

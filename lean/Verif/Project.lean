import Verif.FreeVars
import Verif.PddlEff
/-! Model of the projection of parameters that no effect mentions: /repo/src/tarski/fstrips/representation.py:287-362. -/
namespace Tarski

/-- `set.update` -/
def setUnion {α} [DecidableEq α] (l : List α) : List α → List α
  | [] => l
  | x :: xs => setUnion (setAdd l x) xs

mutual
/-- Models `_collect_effect_free_variables` (representation.py:342-362): the variables in the condition of the effect are
not looked at. Sets of references to variables are lists of variables. -/
def effVars : Effect → List Var → Except Err (List Var)
  | .add _ _ ts, fr => .ok (setUnion fr (fvTs ts ⟨[], []⟩).free)
  | .del _ _ ts, fr => .ok (setUnion fr (fvTs ts ⟨[], []⟩).free)
  | .lit _ l, fr => match freeVariables l with
    | .error e => .error e
    | .ok vs => .ok (setUnion fr vs)
  | .assign _ _ ts r, fr => .ok (setUnion (setUnion fr (fvTs ts ⟨[], []⟩).free) (fvT r ⟨[], []⟩).free)
  | .univ _ vs es, fr => match effVarsAll es [] with
    | .error e => .error e
    | .ok sub => .ok (setUnion fr (sub.filter (fun v => decide (v ∉ vs))))
/-- The loops over effects (representation.py:291-293, 357-358). -/
def effVarsAll : List Effect → List Var → Except Err (List Var)
  | [], fr => .ok fr
  | e :: es, fr => match effVars e fr with
    | .error er => .error er
    | .ok fr' => effVarsAll es fr'
end

/-- Models `collect_effect_free_parameters` (representation.py:287-295). -/
def effectFreeParams (a : PAction) : Except Err (List Var) :=
  match effVarsAll a.effs [] with
  | .error e => .error e
  | .ok fr => .ok (a.params.filter (fun v => decide (v ∉ fr)))

/-- Models `project_away_effect_free_variables` (representation.py:298-321). The code iterates over a set: `order` is the
order in which the elements of that set are enumerated. -/
def projectAway (order : List Var → List Var) (a : PAction) : Except Err PAction :=
  match effectFreeParams a with
  | .error e => .error e
  | .ok free => match quantified .exists ((order free).map Term.var) a.pre with
    | .error e => .error e
    | .ok pre => .ok { a with params := a.params.filter (fun v => decide (v ∉ free)), pre := pre }

/-- Models `project_away_effect_free_variables_from_problem` (representation.py:324-332). -/
def projectAwayAll (order : List Var → List Var) : List PAction → Except Err (List PAction)
  | [] => .ok []
  | a :: as => match projectAway order a with
    | .error e => .error e
    | .ok a' => match projectAwayAll order as with
      | .error e => .error e
      | .ok as' => .ok (a' :: as')

end Tarski

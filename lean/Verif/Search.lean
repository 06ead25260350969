import Verif.Effects
/-! Model of /repo/src/tarski/search/blind.py and of /repo/src/tarski/search/model.py. -/
namespace Tarski

/-- A search model (search/model.py:21-45): `successors` and `isGoal` may raise. `key` stands for the value by which
states are hashed and compared (`Model.__eq__` and `__hash__`, model.py:51-57, go through `str`). -/
structure SearchModel (σ ω κ ε : Type) where
  init : σ
  successors : σ → Except ε (List (ω × σ))
  isGoal : σ → Except ε Bool
  key : σ → κ

/-- The variables of `BreadthFirstSearch.search` (search/blind.py:20-34). A `SearchNode` (lines 52-56) is the state
and the length of its chain of parents. `expanded` is the list of nodes expanded so far, kept here to state what the
search did; the code only counts them in `nexpansions`. -/
structure BState (σ κ : Type) where
  openl : List (σ × Nat)
  closed : List κ
  iterations : Nat
  numGoals : Nat
  nexpansions : Nat
  expanded : List (σ × Nat)

/-- Models lines 41-44: queue the successors not seen before. -/
def addSuccessors {σ ω κ} [DecidableEq κ] (key : σ → κ) (depth : Nat) :
    List (ω × σ) → List (σ × Nat) → List κ → List (σ × Nat) × List κ
  | [], op, cl => (op, cl)
  | (_, s) :: l, op, cl =>
    if key s ∈ cl then addSuccessors key depth l op cl
    else addSuccessors key depth l (op ++ [(s, depth + 1)]) (cl ++ [key s])

/-- Models the `while` loop (search/blind.py:28-49). The Boolean of the result is `space.complete`; `none` means that
the given number of iterations was not enough. -/
def bfsLoop {σ ω κ ε} [DecidableEq κ] (M : SearchModel σ ω κ ε) (max : Int) :
    Nat → BState σ κ → Option (Except ε (Bool × BState σ κ))
  | 0, st => match st.openl with
    | [] => some (.ok (true, st))
    | _ :: _ => none
  | fuel + 1, st =>
    match st.openl with
    | [] => some (.ok (true, st))
    | node :: rest =>
      match M.isGoal node.1 with
      | .error e => some (.error e)
      | .ok g =>
        let goals := if g then st.numGoals + 1 else st.numGoals
        if 0 ≤ max ∧ max ≤ (st.nexpansions : Int) then
          some (.ok (false, { st with openl := rest, iterations := st.iterations + 1, numGoals := goals }))
        else match M.successors node.1 with
          | .error e => some (.error e)
          | .ok succs =>
            let r := addSuccessors M.key node.2 succs rest st.closed
            bfsLoop M max fuel
              { openl := r.1, closed := r.2, iterations := st.iterations + 1, numGoals := goals,
                nexpansions := st.nexpansions + 1, expanded := st.expanded ++ [node] }

/-- Models `BreadthFirstSearch(model, max).run()` (search/blind.py:12-49). -/
def bfs {σ ω κ ε} [DecidableEq κ] (M : SearchModel σ ω κ ε) (max : Int) (fuel : Nat) :
    Option (Except ε (Bool × BState σ κ)) :=
  bfsLoop M max fuel ⟨[(M.init, 0)], [M.key M.init], 0, 0, 0, []⟩

/-- Models `[op for op in self.operators if is_applicable(state, op)]` and
`[(op, progress(state, op)) for op in ...]` (search/model.py:35-41). -/
def groundSuccessors (L : MLang) (dom : Domains) (m : MState) : List Operator → Except Err (List (Operator × MState))
  | [] => .ok []
  | o :: os =>
    match isApplicable L m o with
    | .error e => .error e
    | .ok false => groundSuccessors L dom m os
    | .ok true =>
      match progress L dom m o.effs with
      | .error e => .error e
      | .ok m' =>
        match groundSuccessors L dom m os with
        | .error e => .error e
        | .ok l => .ok ((o, m') :: l)

/-- Models `GroundForwardSearchModel(problem, operators)` (search/model.py:21-45); `key` is `str`. -/
def groundSearchModel {κ} (L : MLang) (dom : Domains) (init : MState) (goal : Formula) (ops : List Operator)
    (key : MState → κ) : SearchModel MState Operator κ Err where
  init := init
  successors := fun m => groundSuccessors L dom m ops
  isGoal := fun m => evFormula L m noSigma goal
  key := key

end Tarski

import Verif.Search
/-! Model of the nodes of breadth-first search: /repo/src/tarski/search/blind.py:20-86. `Search.lean` models the same loop with nodes
reduced to the state and the number of parents; here the nodes keep what the code keeps. -/
namespace Tarski

/-- A `SearchNode` (search/blind.py:52-56): made by `make_root_node` (79-81, no parent and no action) or by `make_child_node` (84-86). -/
inductive SNode (σ ω : Type) where
  | root (s : σ)
  | child (parent : SNode σ ω) (action : ω) (s : σ)

/-- `node.state`. -/
def SNode.state {σ ω} : SNode σ ω → σ
  | .root s => s
  | .child _ _ s => s

/-- The variables of `BreadthFirstSearch.search` (search/blind.py:20-34); `expanded` is kept to state what the search did. -/
structure NState (σ ω κ : Type) where
  openl : List (SNode σ ω)
  closed : List κ
  iterations : Nat
  numGoals : Nat
  nexpansions : Nat
  expanded : List (SNode σ ω)

/-- Models lines 41-44 of search/blind.py. -/
def addChildren {σ ω κ} [DecidableEq κ] (key : σ → κ) (node : SNode σ ω) :
    List (ω × σ) → List (SNode σ ω) → List κ → List (SNode σ ω) × List κ
  | [], op, cl => (op, cl)
  | (a, s) :: l, op, cl =>
    if key s ∈ cl then addChildren key node l op cl
    else addChildren key node l (op ++ [.child node a s]) (cl ++ [key s])

/-- Models the `while` loop (search/blind.py:28-49), see `bfsLoop`. -/
def nodeLoop {σ ω κ ε} [DecidableEq κ] (M : SearchModel σ ω κ ε) (max : Int) :
    Nat → NState σ ω κ → Option (Except ε (Bool × NState σ ω κ))
  | 0, st => match st.openl with
    | [] => some (.ok (true, st))
    | _ :: _ => none
  | fuel + 1, st =>
    match st.openl with
    | [] => some (.ok (true, st))
    | node :: rest =>
      match M.isGoal node.state with
      | .error e => some (.error e)
      | .ok g =>
        let goals := if g then st.numGoals + 1 else st.numGoals
        if 0 ≤ max ∧ max ≤ (st.nexpansions : Int) then
          some (.ok (false, { st with openl := rest, iterations := st.iterations + 1, numGoals := goals }))
        else match M.successors node.state with
          | .error e => some (.error e)
          | .ok succs =>
            let r := addChildren M.key node succs rest st.closed
            nodeLoop M max fuel
              { openl := r.1, closed := r.2, iterations := st.iterations + 1, numGoals := goals,
                nexpansions := st.nexpansions + 1, expanded := st.expanded ++ [node] }

/-- Models `BreadthFirstSearch(model, max).run()` (search/blind.py:12-49). -/
def nodeSearch {σ ω κ ε} [DecidableEq κ] (M : SearchModel σ ω κ ε) (max : Int) (fuel : Nat) :
    Option (Except ε (Bool × NState σ ω κ)) :=
  nodeLoop M max fuel ⟨[.root M.init], [M.key M.init], 0, 0, 0, []⟩

end Tarski

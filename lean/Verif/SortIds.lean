import Mathlib.Tactic.Common
import Mathlib.Data.List.Nodup
/-! Model of `compute_sort_id_assignment` (/repo/src/tarski/syntax/ops.py:106-136).

The hierarchy is given as a tree: each sort with its name, whether it is an `Interval`, the objects that have it as
direct sort (`compute_direct_sort_map`, sorts.py:247-252) and its child sorts. -/
namespace Tarski

inductive STree where
  | node (name : String) (interval : Bool) (objs : List String) (children : List STree)

def STree.name : STree → String | .node n _ _ _ => n
def STree.interval : STree → Bool | .node _ i _ _ => i
def STree.objs : STree → List String | .node _ _ o _ => o
def STree.children : STree → List STree | .node _ _ _ c => c

mutual
/-- The stored domain of a sort (sorts.py:70-77, see C21): the objects of the sort and of all its descendants;
`Interval.extend` does not store its own objects. -/
def STree.domain : STree → List String
  | .node _ i objs cs => (if i then [] else objs) ++ domains cs
def domains : List STree → List String
  | [] => []
  | c :: cs => c.domain ++ domains cs
end

/-- `sorted(objects, key=name)` -/
def sortObjs (l : List String) : List String := l.mergeSort (fun a b => decide (a ≤ b))

mutual
/-- Sorts the children of every node by name (`sorted(children(sort), key=name)`, ops.py:123). -/
def STree.sorted : STree → STree
  | .node n i o cs => .node n i o ((sortedL cs).mergeSort (fun a b => decide (a.name ≤ b.name)))
def sortedL : List STree → List STree
  | [] => []
  | c :: cs => c.sorted :: sortedL cs
end

/-- The two output dictionaries, as lists of entries in order of assignment. -/
structure IdMap where
  ids : List (String × Nat)
  bounds : List (String × (Nat × Nat))

/-- Consecutive ids from `lb` (ops.py:131-133). -/
def numberFrom (lb : Nat) : List String → List (String × Nat)
  | [] => []
  | o :: os => (o, lb) :: numberFrom (lb + 1) os

mutual
/-- Models `_compute_id_assignment` (ops.py:121-136) on a tree whose children are already sorted. -/
def assign : STree → Nat → IdMap
  | .node n _ objs cs, start =>
    let r := assignAll cs start
    ⟨r.1.ids ++ numberFrom r.2 (sortObjs objs),
     r.1.bounds ++ [(n, (start, r.2 + objs.length))]⟩
/-- The loop over children (ops.py:123-128); returns also the running `lb`. -/
def assignAll : List STree → Nat → IdMap × Nat
  | [], lb => (⟨[], []⟩, lb)
  | c :: cs, lb =>
    if c.interval then assignAll cs lb
    else
      let cub := lb + c.domain.length
      let r1 := assign c lb
      let r2 := assignAll cs cub
      (⟨r1.ids ++ r2.1.ids, r1.bounds ++ r2.1.bounds⟩, r2.2)
end

/-- Models `compute_sort_id_assignment` (ops.py:106-118) for the tree below `object`. -/
def computeSortIds (root : STree) (start : Nat) : IdMap := assign root.sorted start

/-! ### Specification side -/

/-- `s` is a sort of the tree `t`. -/
inductive SortIn : STree → STree → Prop where
  | self t : SortIn t t
  | child s n i o cs c : c ∈ cs → SortIn s c → SortIn s (.node n i o cs)

/-- No interval sort has a subsort (interval or not) with objects of its own that are not interval values, and the
tree has no intervals with stored domain. -/
inductive IntervalLeaf : STree → Prop where
  | interval n o cs : (domains cs = []) → IntervalLeaf (.node n true o cs)
  | plain n o cs : (∀ c ∈ cs, IntervalLeaf c) → IntervalLeaf (.node n false o cs)

/-- Reached from the root through non-interval sorts only. -/
inductive PlainSortIn : STree → STree → Prop where
  | self t : t.interval = false → PlainSortIn t t
  | child s n o cs c : c ∈ cs → PlainSortIn s c → PlainSortIn s (.node n false o cs)

end Tarski

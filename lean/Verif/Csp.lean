import Mathlib.Data.Finset.Card
import Mathlib.Data.Finset.Union
import Mathlib.Data.Finset.SDiff
import Mathlib.Data.Finset.Dedup
import Mathlib.Tactic.Common
/-! Model of the acyclicity test of /repo/src/tarski/analysis/csp.py. -/
namespace Tarski

/-- The order in which Python iterates over sets: any function that enumerates each set. -/
structure SetOrder (β : Type) where
  list : Finset β → List β
  mem : ∀ s x, x ∈ list s ↔ x ∈ s
  nodup : ∀ s, (list s).Nodup

variable {α : Type} [DecidableEq α]

/-- Models lines 87-90 of analysis/csp.py: in how many edges each node appears. -/
def nodeCounts (E : Finset (Finset α)) : α → Int := fun n => ((E.filter fun e => n ∈ e).card : Int)

/-- Models the first half of `remove_edge` (lines 53-55). -/
def decrement (f : Finset α) (counts : α → Int) : α → Int := fun n => if n ∈ f then counts n - 1 else counts n

/-- Models `itertools.permutations(edges, 2)` (line 65) on the distinct elements of a list. -/
def permutations2 {β} [DecidableEq β] (l : List β) : List (β × β) :=
  l.flatMap fun f => (l.filter fun g => decide (g ≠ f)).map fun g => (f, g)

/-- Models `_remove_ear_if_exists` (lines 40-74): the edge it removes, if any. -/
def findEar (o : SetOrder (Finset α)) (E : Finset (Finset α)) (counts : α → Int) : Option (Finset α) :=
  match (o.list E).find? fun f => decide (∀ n ∈ f, counts n = 1) with
  | some f => some f
  | none =>
    ((permutations2 (o.list E)).find? fun p => decide (∀ n ∈ p.1 \ p.2, counts n = 1)).map Prod.fst

theorem findEar_mem (o : SetOrder (Finset α)) (E : Finset (Finset α)) (counts : α → Int) (f : Finset α)
    (h : findEar o E counts = some f) : f ∈ E := by
  unfold findEar at h
  split at h
  · rename_i g hg
    cases h
    exact (o.mem E f).1 (List.mem_of_find?_eq_some hg)
  · simp only [Option.map_eq_some_iff] at h
    obtain ⟨p, hp, rfl⟩ := h
    have := List.mem_of_find?_eq_some hp
    simp only [permutations2, List.mem_flatMap, List.mem_map] at this
    obtain ⟨f, hf, g, _, rfl⟩ := this
    exact (o.mem E f).1 hf

/-- Models the loop of lines 93-94; returns the edges that are left. -/
def gyoLoop (o : SetOrder (Finset α)) (E : Finset (Finset α)) (counts : α → Int) : Finset (Finset α) :=
  match h : findEar o E counts with
  | none => E
  | some f => gyoLoop o (E.erase f) (decrement f counts)
termination_by E.card
decreasing_by exact Finset.card_erase_lt_of_mem (findEar_mem o E counts f h)

/-- Models `check_hypergraph_acyclicity` (lines 77-96) on a collection of tuples. -/
def checkAcyclicity (o : SetOrder (Finset α)) (H : List (List α)) : Bool :=
  let nodes := H.flatten.toFinset
  let edges := (H.map List.toFinset).toFinset
  if edges.card ≤ 1 ∨ nodes.card ≤ 1 then true
  else decide ((gyoLoop o edges (nodeCounts edges)).card = 0)

end Tarski

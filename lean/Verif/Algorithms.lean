import Mathlib.Data.Finset.Prod
import Mathlib.Data.Finset.Card
import Mathlib.Data.Finset.Image
import Mathlib.Tactic.Common
/-! Model of /repo/src/tarski/utils/algorithms.py. Python sets are `Finset`s when the order in which they are
iterated cannot matter, and arbitrary enumerations (lists) when the code loops over them. -/
namespace Tarski

/-- Models the set built at utils/algorithms.py:8,
`closure | set((x, w) for x, y in closure for q, w in closure if q == y)`. -/
def tcStep {α} [DecidableEq α] (c : Finset (α × α)) : Finset (α × α) :=
  c ∪ ((c ×ˢ c).filter fun p => p.2.1 = p.1.2).image fun p => (p.1.1, p.2.2)

theorem tcStep_subset {α} [DecidableEq α] (c : Finset (α × α)) : c ⊆ tcStep c := Finset.subset_union_left

/-- The pairs that can ever enter the closure. -/
def tcBound {α} [DecidableEq α] (c : Finset (α × α)) : Finset (α × α) := c.image Prod.fst ×ˢ c.image Prod.snd

theorem tcBound_self {α} [DecidableEq α] (c : Finset (α × α)) : c ⊆ tcBound c := by
  intro p hp
  simp only [tcBound, Finset.mem_product]
  exact ⟨Finset.mem_image_of_mem _ hp, Finset.mem_image_of_mem _ hp⟩

theorem tcStep_fst {α} [DecidableEq α] (c : Finset (α × α)) : (tcStep c).image Prod.fst = c.image Prod.fst := by
  ext x
  simp only [tcStep, Finset.mem_image, Finset.mem_union, Finset.mem_filter, Finset.mem_product]
  constructor
  · rintro ⟨p, hp | ⟨q, ⟨⟨h1, _⟩, _⟩, rfl⟩, rfl⟩
    · exact ⟨p, hp, rfl⟩
    · exact ⟨q.1, h1, rfl⟩
  · rintro ⟨p, hp, rfl⟩; exact ⟨p, Or.inl hp, rfl⟩

theorem tcStep_snd {α} [DecidableEq α] (c : Finset (α × α)) : (tcStep c).image Prod.snd = c.image Prod.snd := by
  ext x
  simp only [tcStep, Finset.mem_image, Finset.mem_union, Finset.mem_filter, Finset.mem_product]
  constructor
  · rintro ⟨p, hp | ⟨q, ⟨⟨_, h1⟩, _⟩, rfl⟩, rfl⟩
    · exact ⟨p, hp, rfl⟩
    · exact ⟨q.2, h1, rfl⟩
  · rintro ⟨p, hp, rfl⟩; exact ⟨p, Or.inl hp, rfl⟩

theorem tcBound_step {α} [DecidableEq α] (c : Finset (α × α)) : tcBound (tcStep c) = tcBound c := by
  simp only [tcBound, tcStep_fst, tcStep_snd]

/-- Models the loop of `transitive_closure` (utils/algorithms.py:7-15): stop when the size no longer grows, and
return the set as it was before the last step. That the loop stops is part of the definition being accepted. -/
def tcLoop {α} [DecidableEq α] (c : Finset (α × α)) : Finset (α × α) :=
  if (tcStep c).card = c.card then c else tcLoop (tcStep c)
termination_by (tcBound c).card - c.card
decreasing_by
  rename_i h
  have h1 : c.card < (tcStep c).card :=
    lt_of_le_of_ne (Finset.card_le_card (tcStep_subset c)) (fun e => h e.symm)
  have h2 : (tcStep c).card ≤ (tcBound c).card := by
    rw [← tcBound_step c]; exact Finset.card_le_card (tcBound_self _)
  rw [tcBound_step]; omega

/-- Models `transitive_closure` (utils/algorithms.py:5-15). -/
def transitiveClosure {α} [DecidableEq α] (elements : Finset (α × α)) : Finset (α × α) := tcLoop elements

/-- Python's `sys.maxsize` on a 64-bit build. -/
def sysMaxsize : Nat := 2 ^ 63 - 1

/-- Models `adjacencies[s]` (utils/algorithms.py:27-29): the targets of `s`, in the order in which the relation is
enumerated. -/
def adjacent {α} [DecidableEq α] (relation : List (α × α)) (s : α) : List α :=
  (relation.filter fun p => p.1 = s).map Prod.snd

/-- Assignment to an entry of the distance table (a `defaultdict` that reads as `sys.maxsize` elsewhere). -/
def setDist {α} [DecidableEq α] (d : α → Nat) (t : α) (n : Nat) : α → Nat := fun x => if x = t then n else d x

/-- Models the inner loop of `compute_min_distance` (utils/algorithms.py:42-45) for the popped node `s`; `through` is
`dist_through_s`. The queue is a list whose head is the next node to be popped, so `appendleft` is appending at the
end. -/
def relaxAll {α} [DecidableEq α] (s : α) (through : Nat) : List α → (α → Nat) → List α → (α → Nat) × List α
  | [], d, q => (d, q)
  | t :: ts, d, q =>
    if through < d t then relaxAll s through ts (setDist d t (d s + 1)) (q ++ [t])
    else relaxAll s through ts d q

/-- Sum of the distances of the nodes that can be updated: the termination measure of the search. -/
def distSum {α} (d : α → Nat) : List α → Nat
  | [] => 0
  | x :: l => d x + distSum d l

theorem distSum_le {α} (d d' : α → Nat) (l : List α) (h : ∀ x, d' x ≤ d x) : distSum d' l ≤ distSum d l := by
  induction l with
  | nil => exact Nat.le_refl _
  | cons x l ih => exact Nat.add_le_add (h x) ih

theorem distSum_lt {α} (d d' : α → Nat) (l : List α) (h : ∀ x, d' x ≤ d x) (t : α) (ht : t ∈ l) (hlt : d' t < d t) :
    distSum d' l < distSum d l := by
  induction l with
  | nil => cases ht
  | cons x l ih =>
    simp only [distSum]
    rcases List.mem_cons.1 ht with rfl | ht
    · have := distSum_le d d' l h; omega
    · have := ih ht; have := h x; omega

/-- The table stays the same (and then so does the queue), or some updatable entry drops. -/
theorem relaxAll_measure {α} [DecidableEq α] (s : α) (n : Nat) (U : List α) :
    ∀ (ts : List α) (d : α → Nat) (q : List α), (∀ t ∈ ts, t ∈ U) → d s + 1 ≤ n →
      relaxAll s n ts d q = (d, q) ∨ distSum (relaxAll s n ts d q).1 U < distSum d U := by
  intro ts
  induction ts with
  | nil => intro d q _ _; exact Or.inl rfl
  | cons t ts ih =>
    intro d q hU hn
    simp only [relaxAll]
    split
    · rename_i hlt
      have hle : ∀ x, setDist d t (d s + 1) x ≤ d x := by
        intro x; simp only [setDist]; split
        · rename_i e; subst e; omega
        · exact Nat.le_refl _
      have h1 : distSum (setDist d t (d s + 1)) U < distSum d U := by
        refine distSum_lt _ _ _ hle t (hU t (by simp)) ?_
        simp [setDist]; omega
      right
      have hs : setDist d t (d s + 1) s + 1 ≤ n := Nat.le_trans (Nat.add_le_add_right (hle s) 1) hn
      rcases ih (setDist d t (d s + 1)) (q ++ [t]) (fun x hx => hU x (by simp [hx])) hs with h | h
      · rw [h]; exact h1
      · exact Nat.lt_trans h h1
    · exact ih d q (fun x hx => hU x (by simp [hx])) hn

/-- Models the `while` loop of `compute_min_distance` (utils/algorithms.py:39-45), returning the final table. -/
def distLoop {α} [DecidableEq α] (relation : List (α × α)) (d : α → Nat) : List α → (α → Nat)
  | [] => d
  | s :: q =>
    distLoop relation (relaxAll s (d s + 1) (adjacent relation s) d q).1
      (relaxAll s (d s + 1) (adjacent relation s) d q).2
termination_by q => (distSum d (relation.map Prod.snd), q.length)
decreasing_by
  have hU : ∀ t ∈ adjacent relation s, t ∈ relation.map Prod.snd := by
    intro t ht
    simp only [adjacent, List.mem_map, List.mem_filter] at ht
    obtain ⟨p, ⟨hp, _⟩, rfl⟩ := ht
    exact List.mem_map_of_mem hp
  rcases relaxAll_measure s (d s + 1) (relation.map Prod.snd) (adjacent relation s) d q hU (Nat.le_refl _) with h | h
  · rw [h]; exact Prod.Lex.right _ (by simp)
  · exact Prod.Lex.left _ _ h

/-- Python's `min` over a non-empty sequence. -/
def minOver : Nat → List Nat → Nat
  | m, [] => m
  | m, x :: l => minOver (if x < m then x else m) l

/-- Models `compute_min_distance` (utils/algorithms.py:18-48), the sets being given by any enumeration of their
elements. -/
def computeMinDistance {α} [DecidableEq α] (c1s : List α) (relation : List (α × α)) (c2s : List α) : Nat :=
  if c1s.any (fun x => decide (x ∈ c2s)) then 0
  else if c1s.isEmpty || c2s.isEmpty || relation.isEmpty then sysMaxsize
  else
    let d := distLoop relation (fun x => if x ∈ c1s then 0 else sysMaxsize) c1s
    match c2s with
    | [] => sysMaxsize
    | o :: os => minOver (d o) (os.map d)

end Tarski

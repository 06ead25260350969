import Verif.SortIdsLemmas
import Mathlib.Data.List.Perm.Subperm
/-! C22: sort id assignment. -/
namespace Tarski

/-- What C22 asks of the result of `compute_sort_id_assignment` on a hierarchy: every object gets exactly one id, the ids
are the integers `start, ..., start + n - 1`, each used once, and for every non-interval sort there is exactly
one interval, containing exactly the ids of its objects. -/
structure SortIdsSpec (root : STree) (start : Nat) (r : IdMap) : Prop where
  objects : ∀ o, (∃ i, (o, i) ∈ r.ids) ↔ o ∈ root.domain
  functional : ∀ o i j, (o, i) ∈ r.ids → (o, j) ∈ r.ids → i = j
  injective : ∀ o o' i, (o, i) ∈ r.ids → (o', i) ∈ r.ids → o = o'
  consecutive : ∀ i, (∃ o, (o, i) ∈ r.ids) ↔ start ≤ i ∧ i < start + root.domain.length
  intervals : ∀ s, SortIn s root → s.interval = false → ∃ lo hi, (s.name, (lo, hi)) ∈ r.bounds ∧
    (∀ b, (s.name, b) ∈ r.bounds → b = (lo, hi)) ∧ hi - lo = s.domain.length ∧
    ∀ i, (lo ≤ i ∧ i < hi) ↔ ∃ o ∈ s.domain, (o, i) ∈ r.ids

mutual
/-- All sort names of a tree. -/
def STree.names : STree → List String
  | .node n _ _ cs => n :: namesL cs
def namesL : List STree → List String
  | [] => []
  | c :: cs => c.names ++ namesL cs
end

/-- C22 in full: names of sorts are distinct, names of objects are distinct. -/
def C22_full : Prop := ∀ (root : STree) (start : Nat), root.interval = false → root.names.Nodup → root.domain.Nodup →
  SortIdsSpec root start (computeSortIds root start)

mutual
theorem plainNames_sub : ∀ t : STree, (plainNames t).Subperm t.names
  | .node n i o cs => by
    simp only [plainNames, STree.names]
    have h1 := plainNamesL_sub cs
    have h2 : (plainNamesL cs ++ [n]).Perm (n :: plainNamesL cs) := by
      exact List.perm_append_comm
    exact h2.subperm.trans ((List.subperm_cons n).mpr h1)
theorem plainNamesL_sub : ∀ cs : List STree, (plainNamesL cs).Subperm (namesL cs)
  | [] => .refl _
  | c :: cs => by
    simp only [plainNamesL, namesL]
    refine List.Subperm.append ?_ (plainNamesL_sub cs)
    split
    · exact List.nil_subperm
    · exact plainNames_sub c
end

/-- With leaves for intervals every non-interval sort is reached through non-interval sorts, unless it
sits below an interval. -/
inductive NoSortBelowInterval : STree → Prop where
  | interval n o : NoSortBelowInterval (.node n true o [])
  | plain n o cs : (∀ c ∈ cs, NoSortBelowInterval c) → NoSortBelowInterval (.node n false o cs)

theorem leaf_of_noSort {t} (h : NoSortBelowInterval t) : IntervalLeaf t := by
  induction h with
  | interval n o => exact .interval _ _ _ rfl
  | plain n o cs _ ih => exact .plain _ _ _ ih

theorem plain_of_sortIn {s t : STree} (h : SortIn s t) (ht : NoSortBelowInterval t) (hs : s.interval = false) :
    PlainSortIn s t := by
  induction h with
  | self => exact .self _ hs
  | child n i o cs c hc _ ih =>
    cases ht with
    | interval => cases hc
    | plain _ _ _ h => exact .child _ _ _ _ c hc (ih (h c hc))

/-- C22 for all hierarchies in which interval sorts have no subsorts: any shape, any distribution of
objects, any start. -/
theorem C22_sort_ids_partial (root : STree) (start : Nat) (hi : NoSortBelowInterval root) (hr : root.interval = false)
    (hn : root.names.Nodup) (hd : root.domain.Nodup) : SortIdsSpec root start (computeSortIds root start) := by
  have hl := sorted_leaf (leaf_of_noSort hi)
  obtain ⟨k, v, b⟩ := assign_ok root.sorted start hl (by rw [sorted_interval]; exact hr)
  have kd : ((assign root.sorted start).ids.map (·.1)).Perm root.domain := k.trans (sorted_domain root)
  have hlen : root.sorted.domain.length = root.domain.length := (sorted_domain root).length_eq
  have nk : ((assign root.sorted start).ids.map (·.1)).Nodup := kd.nodup_iff.mpr hd
  have nv : ((assign root.sorted start).ids.map (·.2)).Nodup := by rw [v]; exact List.nodup_range'
  have nb : ((assign root.sorted start).bounds.map (·.1)).Nodup := by
    rw [bounds_names]
    refine (sorted_plainNames root).nodup_iff.mpr ?_
    obtain ⟨l, hp, hs⟩ := plainNames_sub root
    exact hp.nodup_iff.mp (hs.nodup hn)
  refine ⟨?_, ?_, ?_, ?_, ?_⟩
  · intro o
    rw [← kd.mem_iff]
    simp [computeSortIds]
  · intro o i j h1 h2; exact unique_of_nodup_fst nk h1 h2
  · intro o o' i h1 h2; exact unique_of_nodup_snd nv h1 h2
  · intro i
    have : (∃ o, (o, i) ∈ (computeSortIds root start).ids) ↔ i ∈ (assign root.sorted start).ids.map (·.2) := by
      simp [computeSortIds]
    rw [this, v, List.mem_range'_1, hlen]
  · intro s hs hsi
    obtain ⟨lo, hi, pre, mid, post, h1, h2, h3, h4, h5, h6⟩ :=
      b s.sorted (sorted_plainSortIn (plain_of_sortIn hs hi hsi))
    rw [sorted_name] at h1
    have hsl : s.sorted.domain.length = s.domain.length := (sorted_domain s).length_eq
    refine ⟨lo, hi, h1, fun b hb => unique_of_nodup_fst nb hb h1, by omega, ?_⟩
    have hmid : ∀ o, (∃ i, (o, i) ∈ mid) ↔ o ∈ s.domain := by
      intro o
      rw [← (h3.trans (sorted_domain s)).mem_iff]
      simp
    intro i
    constructor
    · rintro ⟨ha, hb⟩
      have : i ∈ mid.map (·.2) := by rw [h4, List.mem_range'_1]; omega
      obtain ⟨⟨o, j⟩, ho, rfl⟩ := List.mem_map.mp this
      exact ⟨o, (hmid o).mp ⟨_, ho⟩, by show (o, j) ∈ (assign root.sorted start).ids; rw [h2]; simp [ho]⟩
    · rintro ⟨o, ho, hoi⟩
      obtain ⟨j, hj⟩ := (hmid o).mpr ho
      have hj' : (o, j) ∈ (assign root.sorted start).ids := by rw [h2]; simp [hj]
      have : i = j := unique_of_nodup_fst nk hoi hj'
      subst this
      have : i ∈ mid.map (·.2) := List.mem_map.mpr ⟨_, hj, rfl⟩
      rw [h4, List.mem_range'_1] at this
      omega

/-- A non-trivial hierarchy meeting the hypotheses. -/
def demoTree : STree := .node "object" false ["o1"] [.node "truck" false ["t2", "t1"] [.node "van" false ["v"] []],
  .node "Real" true [] [], .node "place" false ["p"] []]

example : NoSortBelowInterval demoTree ∧ demoTree.names.Nodup ∧ demoTree.domain.Nodup ∧ demoTree.domain.length = 5 := by
  refine ⟨?_, by decide, by decide, by decide⟩
  refine .plain _ _ _ ?_
  intro c hc
  simp only [List.mem_cons, List.not_mem_nil, or_false] at hc
  rcases hc with rfl | rfl | rfl
  · refine .plain _ _ _ ?_
    intro c hc
    simp only [List.mem_cons, List.not_mem_nil, or_false] at hc
    subst hc
    exact .plain _ _ _ (by simp)
  · exact .interval _ _
  · exact .plain _ _ _ (by simp)

/-- A sort declared below a numeric sort: its object is in the domain of `object` but gets no id. -/
def belowInterval : STree := .node "object" false [] [.node "Real" true [] [.node "unit" false ["u"] []]]

/-- The full statement is false: objects of a sort below an interval sort get no id. -/
theorem C22_refuted : ¬ C22_full := by
  intro h
  have h1 := (h belowInterval 0 rfl (by decide) (by decide)).objects "u"
  have h2 : "u" ∈ belowInterval.domain := by decide
  obtain ⟨i, hi⟩ := h1.mpr h2
  have : (computeSortIds belowInterval 0).ids = [] := by
    simp [computeSortIds, belowInterval, STree.sorted, sortedL, assign, assignAll, STree.interval, sortObjs, numberFrom]
  rw [this] at hi
  cases hi

end Tarski

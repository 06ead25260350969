import Verif.Elements
import Verif.Props.BenchCounters
import Mathlib.Tactic.IntervalCases
/-! C132: the elements of a counters problem. -/
namespace Tarski

/-! ### Specification -/

/-- A helper that returns the problem, its language, the two functions and then the counters. -/
def Unpacks (es : List BenchElement) (P : BenchProblem) (cs : List String) : Prop :=
  es = .problem P :: .language P.lang :: .function "value" :: .function "max_int" :: cs.map .counter

/-- The counters `c1`, …, `cn` in the order of their numbers. -/
def Numbered (n : Nat) (cs : List String) : Prop := cs.length = n ∧ ∀ k, k < n → cs[k]? = some ("c" ++ toString (k + 1))

/-! ### Proof -/

theorem sortedNames_perm (l : List String) : (sortedNames l).Perm l := List.mergeSort_perm _ _

theorem sortedNames_sorted (l : List String) : (sortedNames l).Pairwise (· ≤ ·) := by
  have h := List.pairwise_mergeSort (le := fun a b : String => decide (a ≤ b))
    (by intro a b c h1 h2; simp only [decide_eq_true_eq] at *; exact String.le_trans h1 h2)
    (by intro a b; simp only [Bool.or_eq_true, decide_eq_true_eq]; exact String.le_total a b) l
  exact h.imp (by intro a b h; simpa using h)

theorem numbered_iff {n : Nat} {cs : List String} : Numbered n cs ↔ cs = counterNames n := by
  constructor
  · rintro ⟨h1, h2⟩
    refine List.ext_getElem? fun k => ?_
    by_cases hk : k < n
    · rw [h2 k hk]; simp [counterNames, hk]
    · rw [List.getElem?_eq_none (by omega), List.getElem?_eq_none (by simp [counterNames]; omega)]
  · rintro rfl
    exact ⟨by simp [counterNames], fun k hk => by simp [counterNames, hk]⟩

theorem sortedNames_few {n : Nat} (h : n ≤ 9) : sortedNames (counterNames n) = counterNames n := by
  refine List.Perm.eq_of_pairwise (fun a b _ _ h1 h2 => String.le_antisymm h1 h2) (sortedNames_sorted _) ?_ (sortedNames_perm _)
  interval_cases n <;> decide

theorem sortedNames_many {n : Nat} (h : 10 ≤ n) : sortedNames (counterNames n) ≠ counterNames n := by
  intro e
  have hp := sortedNames_sorted (counterNames n)
  rw [e] at hp
  have := (List.pairwise_iff_getElem.1 hp) 1 9 (by simp [counterNames]; omega) (by simp [counterNames]; omega) (by omega)
  revert this
  simp only [counterNames, List.getElem_map, List.getElem_range]
  decide

theorem counterNames_nodup (n : Nat) : (counterNames n).Nodup := by
  refine List.Nodup.map_on ?_ List.nodup_range
  intro x _ y _ h
  have h1 := congrArg String.toList h
  simp only [String.toList_append, List.append_cancel_left_eq] at h1
  have h2 := natText_inj (String.toList_injective h1)
  omega

/-! ### Theorems -/

/-- C132: the helper fails exactly if no counter is asked for; otherwise it returns the generated problem, its language, its functions and all its counters,
once each, in the order in which the goal compares them. -/
theorem C132_elements (n : Nat) : (n = 0 → countersElements n = .error .semantic) ∧
    (0 < n → ∃ P es cs, countersProblem n none sortedNames = .ok P ∧ countersElements n = .ok es ∧ Unpacks es P cs ∧ cs.Perm (counterNames n) ∧ cs.Nodup ∧
      P.goal = land (counterGoal cs) true) := by
  obtain ⟨h1, h2⟩ := C79_init n none sortedNames sortedNames_perm
  simp only [Option.getD_none] at h1 h2
  refine ⟨?_, fun hn => ?_⟩
  · rintro rfl
    simp only [countersElements, h1 (by decide)]
  · obtain ⟨P, hP, -⟩ := h2 (by omega)
    obtain ⟨-, -, -, hg⟩ := counters_actions hP
    exact ⟨P, _, sortedNames (counterNames n), hP, by simp only [countersElements, hP]; exact rfl, rfl, sortedNames_perm _,
      (sortedNames_perm _).nodup_iff.2 (counterNames_nodup n), hg⟩

/-- C132: up to nine counters come in the order of their numbers, so that unpacking the result into variables is right. -/
theorem C132_order_partial (n : Nat) (h : n ≤ 9) (es : List BenchElement) (P : BenchProblem) (cs : List String) (he : countersElements n = .ok es)
    (hu : Unpacks es P cs) : Numbered n cs := by
  unfold countersElements at he
  split at he
  · cases he
  · cases he
    have hc : cs = sortedNames (counterNames n) := by
      have := hu
      simp only [Unpacks, List.cons_append, List.nil_append, List.cons.injEq] at this
      exact (List.map_injective_iff.2 (fun a b e => by cases e; rfl) this.2.2.2.2).symm
    rw [numbered_iff, hc, sortedNames_few h]

/-- C132: from ten counters on they never do, since names are compared as texts: `c10` comes before `c2`; the goal compares them in that order, too. -/
theorem C132_order_refuted (n : Nat) (h : 10 ≤ n) (es : List BenchElement) (P : BenchProblem) (cs : List String) (he : countersElements n = .ok es)
    (hu : Unpacks es P cs) : ¬ Numbered n cs := by
  unfold countersElements at he
  split at he
  · cases he
  · cases he
    have hc : cs = sortedNames (counterNames n) := by
      have := hu
      simp only [Unpacks, List.cons_append, List.nil_append, List.cons.injEq] at this
      exact (List.map_injective_iff.2 (fun a b e => by cases e; rfl) this.2.2.2.2).symm
    rw [numbered_iff, hc]
    exact sortedNames_many h

/-! ### Examples -/

example : ∃ es P, countersElements 3 = .ok es ∧ Unpacks es P ["c1", "c2", "c3"] := by
  obtain ⟨P, es, cs, -, h1, h2, -⟩ := (C132_elements 3).2 (by decide)
  have h3 := C132_order_partial 3 (by decide) es P cs h1 h2
  rw [numbered_iff] at h3
  subst h3
  exact ⟨es, P, h1, h2⟩

example : ∃ es P cs, countersElements 10 = .ok es ∧ Unpacks es P cs ∧ cs.take 3 = ["c1", "c10", "c2"] := by
  obtain ⟨P, es, cs, -, h1, h2, h3, -⟩ := (C132_elements 10).2 (by decide)
  refine ⟨es, P, cs, h1, h2, ?_⟩
  unfold countersElements at h1
  split at h1
  · cases h1
  · cases h1
    have hc : cs = sortedNames (counterNames 10) := by
      have := h2
      simp only [Unpacks, List.cons_append, List.nil_append, List.cons.injEq] at this
      exact (List.map_injective_iff.2 (fun a b e => by cases e; rfl) this.2.2.2.2).symm
    have e : sortedNames (counterNames 10) = ["c1", "c10", "c2", "c3", "c4", "c5", "c6", "c7", "c8", "c9"] := by
      refine List.Perm.eq_of_pairwise (fun a b _ _ h1 h2 => String.le_antisymm h1 h2) (sortedNames_sorted _) (by decide) ((sortedNames_perm _).trans ?_)
      have : counterNames 10 = ["c1", "c2", "c3", "c4", "c5", "c6", "c7", "c8", "c9", "c10"] := by decide
      rw [this]
      decide
    rw [hc, e]
    rfl

end Tarski

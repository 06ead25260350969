import Verif.LPGround
import Verif.Props.AspNames
import Mathlib.Tactic.Common
/-! Lemmas on the parser of the answers of the solver. -/
namespace Tarski

theorem pyRstrip_none {cs : List Char} {s : AStr} (h : ∀ c ∈ s, c ∉ cs) : pyRstrip cs s = s := by
  unfold pyRstrip
  have : s.reverse.dropWhile (fun c => cs.contains c) = s.reverse := by
    cases e : s.reverse with
    | nil => rfl
    | cons x xs =>
      have hx : x ∈ s := by rw [← List.mem_reverse, e]; simp
      have := h x hx
      simp [List.dropWhile_cons, this]
  rw [this, List.reverse_reverse]

theorem pyRstrip_snoc {cs : List Char} {c : Char} (s : AStr) (h : c ∈ cs) : pyRstrip cs (s ++ [c]) = pyRstrip cs s := by
  simp [pyRstrip, List.dropWhile_cons, h]

theorem pyRstrip_stop {cs : List Char} {c : Char} (s : AStr) (h : c ∉ cs) : pyRstrip cs (s ++ [c]) = s ++ [c] := by
  simp [pyRstrip, List.dropWhile_cons, h]

theorem pySplit_none {c : Char} {s : AStr} (h : c ∉ s) : pySplit c s = [s] := by
  induction s with
  | nil => rfl
  | cons x xs ih =>
    simp only [List.mem_cons, not_or] at h
    simp [pySplit, ih h.2, Ne.symm h.1]

theorem pySplit_cut {c : Char} {s : AStr} (t : AStr) (h : c ∉ s) : pySplit c (s ++ c :: t) = s :: pySplit c t := by
  induction s with
  | nil => simp [pySplit]
  | cons x xs ih =>
    simp only [List.mem_cons, not_or] at h
    simp [pySplit, ih h.2, Ne.symm h.1]

end Tarski

import Mathlib.Tactic.Common
import Verif.Costs
import Verif.Semantics
/-! C87: the checks on the costs of actions. -/
namespace Tarski

/-! ### Specification -/

/-- A step of a plan: an action, executed in a state (an interpretation) with values for its parameters. -/
structure CostStep (D : Type) where
  act : PAction
  state : Interp D
  asg : Asg D

/-- The cost of a step, given the number that an object stands for: the value of the cost term; `dflt` if the action has
none. -/
noncomputable def CostStep.cost {D} (num : D → Int) (dflt : Int) (s : CostStep D) : Int :=
  match s.act.cost with
  | none => dflt
  | some t => num (evalT s.state t s.asg)

noncomputable def planCost {D} (num : D → Int) (dflt : Int) : List (CostStep D) → Int
  | [] => 0
  | s :: p => s.cost num dflt + planCost num dflt p

/-- Integers are denoted by themselves, and a constant denotes the same object in all states of the plan. -/
structure Numerals {D} (num : D → Int) (plan : List (CostStep D)) : Prop where
  int : ∀ s ∈ plan, ∀ n so, num (s.state.const (.int n) so) = n
  rigid : ∀ s ∈ plan, ∀ s' ∈ plan, s.state.const = s'.state.const

/-! ### Theorems -/

/-- C87: in a unit-cost problem a plan costs its length, in every execution; an action without a cost is meant to cost 1. -/
theorem C87_unit {D} (actions : List PAction) (h : isUnitCostProblem actions = true) (num : D → Int) (plan : List (CostStep D))
    (hp : ∀ s ∈ plan, s.act ∈ actions) (hn : Numerals num plan) : planCost num 1 plan = plan.length := by
  obtain ⟨hn, -⟩ := hn
  induction plan with
  | nil => rfl
  | cons s p ih =>
    have hs : s.cost num 1 = 1 := by
      have := List.all_eq_true.1 h _ (hp s (by simp))
      unfold isUnitCostAction at this
      unfold CostStep.cost
      split at this
      · rename_i e; rw [e]
      · rename_i n so e
        simp only [decide_eq_true_eq] at this
        subst this
        rw [e]
        exact hn s (by simp) 1 so
      · cases this
    rw [planCost, hs, ih (fun s hs => hp s (by simp [hs])) (fun s hs => hn s (by simp [hs]))]
    simp [Int.add_comm]

/-- C87: plans of zero-cost actions cost nothing, if an action without a cost costs 0. -/
theorem C87_zero {D} (num : D → Int) (plan : List (CostStep D)) (h : ∀ s ∈ plan, isZeroCostAction s.act = true)
    (hn : Numerals num plan) : planCost num 0 plan = 0 := by
  obtain ⟨hn, -⟩ := hn
  induction plan with
  | nil => rfl
  | cons s p ih =>
    have hs : s.cost num 0 = 0 := by
      have := h s (by simp)
      unfold isZeroCostAction at this
      unfold CostStep.cost
      split at this
      · rename_i e; rw [e]
      · rename_i n so e
        simp only [decide_eq_true_eq] at this
        subst this
        rw [e]
        exact hn s (by simp) 0 so
      · cases this
    rw [planCost, hs, ih (fun s hs => h s (by simp [hs])) (fun s hs => hn s (by simp [hs]))]
    rfl

/-- C87: in a constant-cost problem, two executions of the same actions cost the same, whatever the states and the values of
the parameters. -/
theorem C87_constant {D} (actions : List PAction) (h : isConstantCostProblem actions = true) (num : D → Int) (dflt : Int)
    (plan plan' : List (CostStep D)) (hp : ∀ s ∈ plan, s.act ∈ actions) (he : plan.map CostStep.act = plan'.map CostStep.act)
    (hn : Numerals num (plan ++ plan')) : planCost num dflt plan = planCost num dflt plan' := by
  obtain ⟨-, hn⟩ := hn
  induction plan generalizing plan' with
  | nil => cases plan' with
    | nil => rfl
    | cons => cases he
  | cons s p ih => cases plan' with
    | nil => cases he
    | cons s' p' =>
      simp only [List.map_cons, List.cons.injEq] at he
      have hs : s.cost num dflt = s'.cost num dflt := by
        have := List.all_eq_true.1 h _ (hp s (by simp))
        unfold isConstantCostAction at this
        unfold CostStep.cost
        rw [← he.1]
        split at this
        · rename_i e; rw [e]
        · rename_i n so e
          rw [e]
          simp only [evalT]
          rw [hn s (by simp) s' (by simp)]
        · cases this
      rw [planCost, planCost, hs, ih p' (fun s hs => hp s (by simp [hs])) he.2 fun x hx y hy => hn x (by
        simp only [List.mem_append, List.mem_cons] at hx ⊢; tauto) y (by simp only [List.mem_append, List.mem_cons] at hy ⊢; tauto)]

/-- C87: the checks say nothing more than that: each is equivalent to the shape of the cost. -/
theorem C87_shape (a : PAction) :
    (isUnitCostAction a = true ↔ a.cost = none ∨ ∃ so, a.cost = some (.const (.int 1) so)) ∧
    (isZeroCostAction a = true ↔ a.cost = none ∨ ∃ so, a.cost = some (.const (.int 0) so)) ∧
    (isConstantCostAction a = true ↔ a.cost = none ∨ ∃ n so, a.cost = some (.const n so)) := by
  obtain ⟨n, ps, pre, es, c⟩ := a
  cases c with
  | none => simp [isUnitCostAction, isZeroCostAction, isConstantCostAction]
  | some t => cases t <;> simp [isUnitCostAction, isZeroCostAction, isConstantCostAction]

/-- C87: no action should be both a unit-cost and a zero-cost action; an action without a cost is both, so that plans of
actions that are reported as zero-cost do not cost nothing when no cost means 1. -/
theorem C87_both_refuted : ∃ a : PAction, isUnitCostAction a = true ∧ isZeroCostAction a = true ∧
    ∀ (D : Type) (num : D → Int) (I : Interp D) (σ : Asg D), planCost num 1 [⟨a, I, σ⟩] ≠ 0 :=
  ⟨⟨"noop", [], .top, [], none⟩, rfl, rfl, by intro D num I σ; simp [planCost, CostStep.cost]⟩

/-! ### Concrete cases -/

def costMove : PAction := ⟨"move", [⟨"?x", "place"⟩], .top, [], some (.const (.int 1) "Integer")⟩
def costDrive : PAction := ⟨"drive", [⟨"?x", "place"⟩], .top, [], some (.app "dist" [.var ⟨"?x", "place"⟩])⟩
def costWait : PAction := ⟨"wait", [], .top, [], none⟩
def costI : Interp Int := ⟨fun n _ => match n with | .int k => k | _ => 7, fun _ _ => 5, fun _ _ => True, fun _ _ => True⟩

example : isUnitCostProblem [costMove, costWait] = true ∧ isConstantCostProblem [costMove, costDrive] = false ∧
    isUnitCostProblem [costMove, costDrive] = false := ⟨rfl, rfl, rfl⟩

/-- The hypotheses of `C87_unit` and `C87_constant` on a plan of two steps. -/
example : Numerals (D := Int) id [⟨costMove, costI, fun _ => 0⟩, ⟨costWait, costI, fun _ => 3⟩] :=
  ⟨by intro s hs; simp at hs; rcases hs with rfl | rfl <;> (intros; rfl),
   by intro s hs s' hs'; simp at hs hs'; rcases hs with rfl | rfl <;> rcases hs' with rfl | rfl <;> rfl⟩

end Tarski

import Verif.PddlEffLemmas
import Verif.Props.Pddl
/-! Property C52: the action read from the PDDL text of an action does the same as the action. -/
namespace Tarski

/-- Whether the language has the function `total-cost` (`language.get("total-cost")`, io/fstrips.py:358). -/
def RLang.hasTotalCost (L : RLang) : Bool := (L.funs "total-cost").isSome

/-- C52. Whenever an action is written over the language in a way that PDDL can express (`OkAction`), the writer prints
it, the reader accepts the text, and the action that is read has the same name, the same parameters up to their PDDL
names and, in every interpretation that gives `=`, `!=` and 0 and 1 their meaning and for all values of the parameters,
the same truth value of the precondition, effects that demand the same changes one by one, and the same cost.
What is missing for the full claim are the actions excluded by `OkAction`; see the theorems below. -/
theorem C52_action_round_trip_partial (L : RLang) (real : String → Bool) (a : PAction) (h : OkAction L real a) :
    ∃ text a', printAction real L.hasTotalCost a = .ok text ∧ readActionText L text = .ok a' ∧
      a'.name = a.name ∧ a'.params = a.params.map pvar ∧
      ∀ (D : Type) (I : Interp D), EqMeaning I → ∀ (σ τ : Asg D), (∀ v ∈ a.params, σ v = τ (pvar v)) →
        (Sat I a.pre σ ↔ Sat I a'.pre τ) ∧
        List.Forall₂ (fun e e' => ∀ ch, Demands I e σ ch ↔ Demands I e' τ ch) a.effs a'.effs ∧
        a.cost.map (fun t => evalT I t σ) = a'.cost.map (fun t => evalT I t τ) := by
  have hh : a.cost ≠ none → L.hasTotalCost = true := by
    intro hc
    cases hcost : a.cost with
    | none => exact absurd hcost hc
    | some t =>
      have := h.cost
      rw [hcost] at this
      obtain ⟨_, s, hs, _⟩ := this
      simp [RLang.hasTotalCost, hs]
  obtain ⟨t, x, h1, h2, h3⟩ := action_read h L.hasTotalCost hh
  refine ⟨t, pAction a, h1, by simp only [readActionText, readTrees_textsOf h2, h3], rfl, rfl, ?_⟩
  intro D I hI σ τ ha
  have ha' : ScopeAgree a.params τ σ := fun v hv => ha v hv
  refine ⟨(formula_sem I hI a.pre ha' h.pre).symm, ?_, ?_⟩
  · have key : ∀ es : List Effect, OkEs L real a.params es →
        List.Forall₂ (fun e e' => ∀ ch, Demands I e σ ch ↔ Demands I e' τ ch) es (pEs es) := by
      intro es
      induction es with
      | nil => intro _; exact .nil
      | cons e es ih =>
        intro he
        simp only [OkEs] at he
        exact .cons (fun ch => (effect_sem I hI e ha' he.1 ch).symm) (ih he.2)
    exact key a.effs h.effs
  · cases hcost : a.cost with
    | none => simp [pAction, hcost]
    | some t =>
      have := h.cost
      rw [hcost] at this
      obtain ⟨_, s, _, _, ht⟩ := this
      have hv : evalT I (pT t) τ = evalT I t σ := by
        rcases ht with ht | ht
        · exact term_sem I t ha' ht.1
        · exact numIn_sem I ht τ σ
      simp [pAction, hcost, hv]

/-! ### An action that meets the hypotheses -/

/-- `stack(?x)`: `exists ?Y...` as the precondition, a conditional add effect, an assignment, a universal delete effect,
and a cost. -/
def exAct : PAction where
  name := "Stack-1"
  params := [⟨"x", "block"⟩]
  pre := exPre
  effs := [.add (.atom (.user "clear") [.const (.str "b1") "block"]) (.user "on")
             [.var ⟨"x", "block"⟩, .const (.str "b1") "block"],
           .assign .top "weight" [.var ⟨"x", "block"⟩] (.const (.int 3) "Integer"),
           .univ .top [⟨"?z", "block"⟩] [.del .top (.user "clear") [.var ⟨"?z", "block"⟩],
             .add .top (.user "on") [.var ⟨"?z", "block"⟩, .var ⟨"x", "block"⟩]]]
  cost := some (.app "weight" [.var ⟨"x", "block"⟩])

theorem exAct_ok : OkAction exPddl (fun _ => false) exAct := by
  have hb : PName "block" := exPName 'b' ['l','o','c','k'] rfl (by decide) (by decide) (by decide) (by decide)
  have hb1 : PName "b1" := exPName 'b' ['1'] rfl (by decide) (by decide) (by decide) (by decide)
  have hon : PName "on" := exPName 'o' ['n'] rfl (by decide) (by decide) (by decide) (by decide)
  have hcl : PName "clear" := exPName 'c' ['l','e','a','r'] rfl (by decide) (by decide) (by decide) (by decide)
  have hw : PName "weight" := exPName 'w' ['e','i','g','h','t'] rfl (by decide) (by decide) (by decide) (by decide)
  refine ⟨⟨by decide, 'S', ['t','a','c','k','-','1'], rfl, by decide, by decide⟩, exPre_ok.1, exPre_ok.2, ?_, ?_, ?_⟩
  · simp only [exAct, OkEs, OkE, OkF, true_and, and_true]
    refine ⟨⟨⟨hcl, ["block"], rfl, ?_⟩, hon, ["block", "object"], rfl, ?_⟩,
      ⟨hw, ["block"], "Integer", rfl, ?_, .inr ⟨3, rfl, rfl, rfl⟩⟩, ⟨?_, by decide⟩,
      ⟨hcl, ["block"], rfl, ?_⟩, hon, ["block", "object"], rfl, ?_⟩
    · simp only [OkAtom, OkT]
      exact ⟨⟨hb1, rfl⟩, rfl, trivial⟩
    · simp only [OkAtom, OkT]
      exact ⟨by decide, by decide, ⟨hb1, rfl⟩, by decide, trivial⟩
    · simp only [OkArgs, OkT]
      exact ⟨.inl (by decide), trivial⟩
    · intro v hv
      simp only [List.mem_singleton] at hv
      subst hv
      exact ⟨⟨'z', [], rfl, by decide, by simp⟩, .inl hb, by decide⟩
    · simp only [OkAtom, OkT]
      exact ⟨by decide, by decide, trivial⟩
    · simp only [OkAtom, OkT]
      exact ⟨by decide, by decide, by decide, by decide, trivial⟩
  · intro e he
    simp only [exAct, List.mem_cons, List.not_mem_nil, or_false] at he
    rcases he with rfl | rfl | rfl <;> simp [NotCost]
  · refine ⟨rfl, "Integer", rfl, rfl, .inl ⟨?_, by decide⟩⟩
    simp only [OkT]
    refine .inr (.inr ⟨hw, ["block"], "Integer", rfl, ?_⟩)
    simp only [OkArgs, OkT]
    exact ⟨.inl (by decide), trivial⟩

set_option maxRecDepth 4000 in
/-- The text of the example, and what is read from it. -/
example : printAction (fun _ => false) true exAct = .ok "
    (:action Stack-1
     :parameters (?x - block)
     :precondition (exists (?Y - block) (and (on ?x ?Y) (or (not (= ?Y b1)) (not (<= (weight ?x) (+ 7 (counter )))))))
     :effect (and
        (when (clear b1) (on ?x b1))
        (assign (weight ?x) 3)
        (forall (?z - block) (and
    (not (clear ?z))
    (on ?z ?x)))
        (increase (total-cost ) (weight ?x)))
    )
".toList := by rfl

/-! ### What the full claim misses -/

/-- The action without parameters and precondition, with the given effects and cost. -/
def effAct (es : List Effect) (cost : Option Term) : PAction := ⟨"a", [], .top, es, cost⟩

set_option maxRecDepth 4000 in
/-- A universal effect with a condition is printed as `(when c (forall ...))`, which the grammar does not allow. -/
theorem C52_conditional_universal_refuted :
    ∃ text, printAction (fun _ => false) true (effAct [.univ (.atom (.user "clear") [.const (.str "b1") "block"])
        [⟨"z", "block"⟩] [.del .top (.user "clear") [.var ⟨"z", "block"⟩]]] none) = .ok text ∧
      readActionText exPddl text = .error .syntactic := ⟨_, rfl, rfl⟩

/-- An effect that adds an equality atom is printed and cannot be read. -/
theorem C52_equality_effect_refuted :
    ∃ text, printAction (fun _ => false) true (effAct [.add .top (.cmp .eq) [.const (.str "b1") "block",
        .const (.str "b2") "block"]] none) = .ok text ∧
      readActionText exPddl text = .error .syntactic := ⟨_, rfl, rfl⟩

/-- A cost that is a real number - as the reader itself creates it in the presence of `:action-costs` - is printed with
a decimal point and cannot be read back. -/
theorem C52_real_cost_refuted :
    ∃ text, printAction (fun s => s == "number") true (effAct [] (some (.const (.int 5) "number"))) = .ok text ∧
      readActionText exPddl text = .error .value := ⟨_, rfl, rfl⟩

/-- Two parameters whose names differ in case only become one: the action that is read is silently a different one. -/
theorem C52_parameter_case_refuted :
    ∃ text, printAction (fun _ => false) true ⟨"a", [⟨"x", "block"⟩, ⟨"X", "block"⟩],
        .atom (.user "on") [.var ⟨"x", "block"⟩, .var ⟨"X", "block"⟩], [], none⟩ = .ok text ∧
      readActionText exPddl text = .ok ⟨"a", [⟨"?x", "block"⟩],
        .atom (.user "on") [.var ⟨"?x", "block"⟩, .var ⟨"?x", "block"⟩], [], none⟩ := ⟨_, rfl, rfl⟩

end Tarski

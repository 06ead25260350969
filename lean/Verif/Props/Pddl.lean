import Verif.PddlSem
/-! Property C51: the formula read from the PDDL text of a formula means the same as the formula. -/
namespace Tarski

/-- The scope of the parser inside an action with the given parameters (reader.py:184-190). -/
def paramScope (sc : List Var) : Option VBinding := some (VBinding.ofList (sc.map pvar))

theorem scopeIs_params {sc : List Var} (hn : (sc.map fun v => (pvar v).sym).Nodup) : ScopeIs (paramScope sc) sc := by
  simp only [ScopeIs, paramScope, VBinding.ofList]
  rw [dictOf_nodup]
  · simp [List.map_map]
  · simpa [List.map_map, Function.comp_def] using hn

/-- C51 (part 1, formulas in the scope of the parameters of an action). Whenever a formula is written over the language
and in the scope of the parameters in a way that PDDL can express (`OkF`), the writer prints it, the reader accepts the
text, and the formula that is read has the truth value of the one written, in every interpretation that gives `=`, `!=`
and the numbers 0 and 1 their meaning, and for all values of the parameters. What is missing for the full claim are the
formulas excluded by `OkF`; see the theorems below. -/
theorem C51_precondition_round_trip_partial (L : RLang) (real : String → Bool) (params : List Var) (f : Formula)
    (hp : OkDecl L [] params) (hf : OkF L real params f) :
    ∃ text g, printF real f = .ok text ∧ readFormula L (paramScope params) text = .ok g ∧
      ∀ (D : Type) (I : Interp D), EqMeaning I → ∀ (σ τ : Asg D), (∀ v ∈ params, σ v = τ (pvar v)) →
        (Sat I f σ ↔ Sat I g τ) := by
  have hn : (params.map fun v => (pvar v).sym).Nodup := by simpa using hp.2
  obtain ⟨s, x, h1, h2, h3⟩ := formula_read f (scopeIs_params hn) hn (fun v hv => (hp.1 v hv).1) hf
  refine ⟨s, pF f, h1, ?_, ?_⟩
  · simp only [readFormula, readTrees_textOf h2, h3]
  · intro D I hI σ τ ha
    exact (formula_sem I hI f (fun v hv => ha v hv) hf).symm

/-- C51 (part 2, closed formulas, as goals): the same truth value, whatever the assignments. -/
theorem C51_goal_round_trip_partial (L : RLang) (real : String → Bool) (f : Formula) (hf : OkF L real [] f) :
    ∃ text g, printF real f = .ok text ∧ readFormula L none text = .ok g ∧
      ∀ (D : Type) (I : Interp D), EqMeaning I → ∀ (σ τ : Asg D), (Sat I f σ ↔ Sat I g τ) := by
  obtain ⟨s, x, h1, h2, h3⟩ := formula_read f (b := none) rfl (by simp) (by simp) hf
  refine ⟨s, pF f, h1, ?_, ?_⟩
  · simp only [readFormula, readTrees_textOf h2, h3]
  · intro D I hI σ τ
    exact (formula_sem I hI f (fun v hv => by cases hv) hf).symm

/-! ### A language and formulas that meet the hypotheses -/

/-- Blocks that lie on each other, with a weight and a numeric counter. -/
def exPddl : RLang where
  preds s := if s = "on" then some ["block", "object"] else if s = "clear" then some ["block"]
    else if s = "heavier" then some ["Integer"] else if s = "Done" then some [] else none
  funs s := if s = "weight" then some (["block"], "Integer") else if s = "counter" then some ([], "Integer")
    else if s = "speed" then some ([], "Real") else if s = "total-cost" then some ([], "Integer") else none
  consts s := if s = "b1" then some "block" else if s = "b2" then some "block" else if s = "B3" then some "block"
    else if s = "max" then some "block" else none
  hasSort s := s ∈ ["object", "block", "Integer", "Real"]
  isSub a b := a == b || b == "object" || (a == "Integer" && b == "Real")
  castInt _ n := .ok (.int n)
  equality := true
  arithmetic := true
  special := false

/-- The same language without arithmetic. -/
def exPddlPlain : RLang := { exPddl with hasSort := fun s => s ∈ ["object", "block"], arithmetic := false }

/-- `exists ?Y . on(?x, ?Y) and (?Y != b1 or not (weight(?x) <= 7 + counter()))` in the scope of the parameter `?x`. -/
def exPre : Formula :=
  .quant .exists [.var ⟨"Y", "block"⟩] (.comp .tuple .and
    [.atom (.user "on") [.var ⟨"x", "block"⟩, .var ⟨"Y", "block"⟩],
     .comp .tuple .or
       [.atom (.cmp .ne) [.var ⟨"Y", "block"⟩, .const (.str "b1") "block"],
        .comp .tuple .not [.atom (.cmp .le) [.app "weight" [.var ⟨"x", "block"⟩],
          .app "+" [.const (.int 7) "Integer", .app "counter" []]]]]])

theorem exPName {s : String} (c : Char) (cs : Text) (h : s.toList = c :: cs) (h1 : reserved s = none)
    (h2 : ∀ d ∈ c :: cs, lowerC d = d) (h3 : isLetter c = true) (h4 : ∀ d ∈ cs, isWordChar d = true) : PName s :=
  ⟨h1, h ▸ h2, c, cs, h, h3, h4⟩

theorem exPre_ok : OkDecl exPddl [] [⟨"x", "block"⟩] ∧ OkF exPddl (fun _ => false) [⟨"x", "block"⟩] exPre := by
  have hb : PName "block" := exPName 'b' ['l','o','c','k'] rfl (by decide) (by decide) (by decide) (by decide)
  constructor
  · refine ⟨?_, by decide⟩
    intro v hv
    simp only [List.mem_singleton] at hv
    subst hv
    exact ⟨⟨'x', [], rfl, by decide, by simp⟩, .inl hb, by decide⟩
  · unfold exPre
    simp only [OkF, OkFs, and_true, List.length_cons, List.length_nil]
    refine ⟨[⟨"Y", "block"⟩], rfl, by simp, ⟨?_, by decide⟩, by omega, ?_, by omega, ⟨rfl, ?_⟩, by simp, rfl, ?_⟩
    · intro v hv
      simp only [List.mem_singleton] at hv
      subst hv
      exact ⟨⟨'Y', [], rfl, by decide, by simp⟩, .inl hb, by decide⟩
    · refine ⟨exPName 'o' ['n'] rfl (by decide) (by decide) (by decide) (by decide), ["block", "object"], rfl, ?_⟩
      simp only [OkAtom, OkT]
      decide
    · simp only [OkTwo, OkT]
      refine ⟨.inl ⟨by decide, exPName 'b' ['1'] rfl (by decide) (by decide) (by decide) (by decide), rfl⟩, by decide, by decide⟩
    · simp only [OkTwo, OkT]
      refine ⟨.inl ⟨.inr (.inr ⟨exPName 'w' ['e','i','g','h','t'] rfl (by decide) (by decide) (by decide) (by decide),
          ["block"], "Integer", rfl, ?_⟩), .inl ⟨by decide, rfl, ?_, by decide, by decide⟩⟩, by decide, by decide⟩
      · simp only [OkArgs, OkT]
        exact ⟨.inl (by decide), trivial⟩
      · refine .inr (.inr (.inl ⟨⟨7, rfl, rfl, rfl⟩, .inr (.inr ⟨exPName 'c' ['o','u','n','t','e','r'] rfl (by decide)
          (by decide) (by decide) (by decide), [], "Integer", rfl, ?_⟩)⟩))
        simp [OkArgs]

/-- The hypotheses of part 1 are met, and this is the text and the formula read from it. -/
example : printF (fun _ => false) exPre =
      .ok "(exists (?Y - block) (and (on ?x ?Y) (or (not (= ?Y b1)) (not (<= (weight ?x) (+ 7 (counter )))))))".toList ∧
    readFormula exPddl (paramScope [⟨"x", "block"⟩])
      "(exists (?Y - block) (and (on ?x ?Y) (or (not (= ?Y b1)) (not (<= (weight ?x) (+ 7 (counter )))))))".toList =
    .ok (.quant .exists [.var ⟨"?y", "block"⟩] (.comp .list .and
      [.atom (.user "on") [.var ⟨"?x", "block"⟩, .var ⟨"?y", "block"⟩],
       .comp .list .or
         [.comp .list .not [.atom (.cmp .eq) [.var ⟨"?y", "block"⟩, .const (.str "b1") "block"]],
          .comp .list .not [.atom (.cmp .le) [.app "weight" [.var ⟨"?x", "block"⟩],
            .app "+" [.const (.int 7) "Integer", .app "counter" []]]]]])) := by
  constructor <;> rfl

/-! ### What the full claim misses: formulas over the language whose text is not read back -/

/-- The contradiction is printed as `(= 0 1)`, which cannot be read if the language has no arithmetic. -/
theorem C51_contradiction_refuted :
    ∃ text, printF (fun _ => false) .bot = .ok text ∧
      readFormula exPddlPlain none text = .error .undefinedVariable := ⟨_, rfl, rfl⟩

/-- A variable that is quantified again inside its scope is rejected. -/
theorem C51_rebinding_refuted :
    ∃ text, printF (fun _ => false) (.quant .exists [.var ⟨"x", "block"⟩] (.comp .tuple .and
        [.atom (.user "clear") [.var ⟨"x", "block"⟩],
         .quant .exists [.var ⟨"x", "block"⟩] (.atom (.user "clear") [.var ⟨"x", "block"⟩])])) = .ok text ∧
      readFormula exPddl none text = .error .duplicateVariable := ⟨_, rfl, rfl⟩

/-- A number as the argument of a predicate is rejected. -/
theorem C51_number_argument_refuted :
    ∃ text, printF (fun _ => false) (.atom (.user "heavier") [.const (.int 3) "Integer"]) = .ok text ∧
      readFormula exPddl none text = .error .language := ⟨_, rfl, rfl⟩

/-- Upper-case letters in the names of objects and predicates get lost, so that the symbol is not found. -/
theorem C51_upper_case_refuted :
    (∃ text, printF (fun _ => false) (.atom (.user "clear") [.const (.str "B3") "block"]) = .ok text ∧
      readFormula exPddl none text = .error .undefinedVariable) ∧
    (∃ text, printF (fun _ => false) (.atom (.user "Done") []) = .ok text ∧
      readFormula exPddl none text = .error .undefinedVariable) := ⟨⟨_, rfl, rfl⟩, ⟨_, rfl, rfl⟩⟩

/-- An object whose name is a reserved word is not read as an object. -/
theorem C51_reserved_word_refuted :
    ∃ text, printF (fun _ => false) (.atom (.user "clear") [.const (.str "max") "block"]) = .ok text ∧
      readFormula exPddl none text = .error .syntactic := ⟨_, rfl, rfl⟩

/-- Variables of the arithmetic sorts are declared with the raw name of the sort, which is not found. -/
theorem C51_integer_variable_refuted :
    ∃ text, printF (fun _ => false) (.quant .exists [.var ⟨"n", "Integer"⟩]
        (.atom (.cmp .eq) [.var ⟨"n", "Integer"⟩, .app "counter" []])) = .ok text ∧
      readFormula exPddl none text = .error .undefinedVariable := ⟨_, rfl, rfl⟩

/-- A whole real number is printed with a decimal point, which the reader cannot convert back. -/
theorem C51_real_number_refuted :
    ∃ text, printF (fun s => s == "Real") (.atom (.cmp .eq) [.app "speed" [], .const (.int 5) "Real"]) = .ok text ∧
      readFormula exPddl none text = .error .value := ⟨_, rfl, rfl⟩

/-- Worse, two variables whose names differ in case only are silently identified: the formula that is read is not
equivalent to the one that was written. -/
theorem C51_variable_case_refuted :
    ∃ f text g, printF (fun _ => false) f = .ok text ∧ readFormula exPddl none text = .ok g ∧
      ∃ (I : Interp Bool), EqMeaning I ∧ ∀ σ τ, Sat I f σ ∧ ¬ Sat I g τ := by
  refine ⟨.quant .exists [.var ⟨"x", "block"⟩, .var ⟨"X", "block"⟩]
      (.atom (.user "on") [.var ⟨"x", "block"⟩, .var ⟨"X", "block"⟩]), _,
    .quant .exists [.var ⟨"?x", "block"⟩, .var ⟨"?x", "block"⟩]
      (.atom (.user "on") [.var ⟨"?x", "block"⟩, .var ⟨"?x", "block"⟩]), rfl, rfl,
    ⟨fun n _ => n == .int 0, fun _ _ => true,
      fun p ds => match p, ds with
        | .cmp .eq, [a, b] => a = b
        | _, [a, b] => a ≠ b
        | _, _ => True, fun _ _ => True⟩, ⟨fun _ _ => Iff.rfl, fun _ _ => Iff.rfl, by decide⟩, fun σ τ => ⟨?_, ?_⟩⟩
  · simp only [Sat, quantBlock, evalTs, evalT, true_and]
    exact ⟨true, false, by simp [Asg.set]⟩
  · simp only [Sat, quantBlock, evalTs, evalT, true_and]
    simp

end Tarski

import Mathlib.Tactic.Common
import Verif.Project
import Verif.ProjectSpec
import Verif.FreeVarsLemmas
import Verif.ExSimpLemmas
import Verif.Props.Subst
/-! C56: parameters that occur in no effect are turned into existential variables of the precondition without changing the
transitions. -/
namespace Tarski

/-! ### Coincidence for effects -/

mutual
theorem demands_coinc {D : Type} (I : Interp D) (ch : EChange D) (e : Effect) (σ τ : Asg D) (h : ∀ v, FreeE v e → σ v = τ v) :
    Demands I e σ ch ↔ Demands I e τ ch := by
  match e with
  | .add c p ts =>
    simp only [Demands, sat_coinc I c σ τ (fun v hv => h v (.inl hv)), evalTs_coinc I ts σ τ (fun v hv => h v (.inr hv))]
  | .del c p ts =>
    simp only [Demands, sat_coinc I c σ τ (fun v hv => h v (.inl hv)), evalTs_coinc I ts σ τ (fun v hv => h v (.inr hv))]
  | .lit c l => simp only [Demands]
  | .assign c f ts r =>
    simp only [Demands, sat_coinc I c σ τ (fun v hv => h v (.inl hv)), evalTs_coinc I ts σ τ (fun v hv => h v (.inr (.inl hv))),
      evalT_coinc I r σ τ (fun v hv => h v (.inr (.inr hv)))]
  | .univ c vs es =>
    simp only [Demands, sat_coinc I c σ τ (fun v hv => h v (.inl hv))]
    refine and_congr_right fun _ => ?_
    refine quantBlock_coinc I .exists (S := fun v => FreeEs v es) (fun σ τ h => demandsAny_coinc I ch es σ τ h) _ σ τ ?_
    intro v hv hn
    exact h v (.inr ⟨hv, fun hm => hn (List.mem_map_of_mem hm)⟩)
theorem demandsAny_coinc {D : Type} (I : Interp D) (ch : EChange D) (es : List Effect) (σ τ : Asg D)
    (h : ∀ v, FreeEs v es → σ v = τ v) : DemandsAny I es σ ch ↔ DemandsAny I es τ ch := by
  match es with
  | [] => simp only [DemandsAny]
  | e :: es =>
    simp only [DemandsAny, demands_coinc I ch e σ τ (fun v hv => h v (.inl hv)),
      demandsAny_coinc I ch es σ τ (fun v hv => h v (.inr hv))]
end

/-! ### The variables that are collected -/

theorem mem_setUnion {α} [DecidableEq α] {y : α} : ∀ {xs l : List α}, y ∈ setUnion l xs ↔ y ∈ l ∨ y ∈ xs
  | [], l => by simp [setUnion]
  | x :: xs, l => by
    simp only [setUnion]
    rw [mem_setUnion]
    simp only [mem_setAdd, List.mem_cons]
    tauto

mutual
theorem effVars_spec (e : Effect) (h : PlainE e) (fr : List Var) :
    ∃ fr', effVars e fr = .ok fr' ∧ ∀ v, v ∈ fr' ↔ v ∈ fr ∨ ArgE v e := by
  match e with
  | .add c p ts =>
    refine ⟨_, rfl, fun v => ?_⟩
    rw [mem_setUnion, (fvTs_spec ts h ⟨[], []⟩ List.nodup_nil).2.2 v]
    simp [ArgE]
  | .del c p ts =>
    refine ⟨_, rfl, fun v => ?_⟩
    rw [mem_setUnion, (fvTs_spec ts h ⟨[], []⟩ List.nodup_nil).2.2 v]
    simp [ArgE]
  | .lit c l =>
    obtain ⟨s', h1, -, -, -, h5⟩ := fvF_spec l h.1 h.2.1 ⟨[], []⟩ List.nodup_nil List.nodup_nil (by simp) h.2.2
    refine ⟨setUnion fr s'.free, by simp only [effVars, freeVariables, h1], fun v => ?_⟩
    rw [mem_setUnion, h5 v]
    simp [ArgE]
  | .assign c f ts r =>
    refine ⟨_, rfl, fun v => ?_⟩
    rw [mem_setUnion, mem_setUnion, (fvTs_spec ts h.1 ⟨[], []⟩ List.nodup_nil).2.2 v, (fvT_spec r h.2 ⟨[], []⟩ List.nodup_nil).2.2 v]
    simp [ArgE]
    tauto
  | .univ c vs es =>
    obtain ⟨sub, h1, h2⟩ := effVarsAll_spec es h []
    refine ⟨setUnion fr (sub.filter (fun v => decide (v ∉ vs))), by simp only [effVars, h1], fun v => ?_⟩
    rw [mem_setUnion]
    simp only [List.mem_filter, h2, List.not_mem_nil, false_or, decide_eq_true_eq, ArgE]
theorem effVarsAll_spec (es : List Effect) (h : PlainEs es) (fr : List Var) :
    ∃ fr', effVarsAll es fr = .ok fr' ∧ ∀ v, v ∈ fr' ↔ v ∈ fr ∨ ArgEs v es := by
  match es with
  | [] => exact ⟨fr, rfl, fun v => by simp [ArgEs]⟩
  | e :: es =>
    obtain ⟨fr1, h1, h2⟩ := effVars_spec e h.1 fr
    obtain ⟨fr2, h3, h4⟩ := effVarsAll_spec es h.2 fr1
    refine ⟨fr2, by simp only [effVarsAll, h1, h3], fun v => ?_⟩
    rw [h4, h2, ArgEs]
    tauto
end

mutual
theorem argE_free {v : Var} (e : Effect) (h : ArgE v e) : FreeE v e := by
  match e with
  | .add c p ts => exact .inr h
  | .del c p ts => exact .inr h
  | .lit c l => exact .inr h
  | .assign c f ts r => exact .inr h
  | .univ c vs es => exact .inr ⟨argEs_free es h.1, h.2⟩
theorem argEs_free {v : Var} (es : List Effect) (h : ArgEs v es) : FreeEs v es := by
  match es with
  | [] => exact h
  | e :: es => exact h.imp (argE_free e) (argEs_free es)
end

theorem quantified_vars {q : Quant} {vs : List Var} (h : vs ≠ []) (f : Formula) :
    quantified q (vs.map Term.var) f = .ok (.quant q (vs.map Term.var) f) := by
  have h1 : (vs.map Term.var).isEmpty = false := by cases vs <;> simp_all
  have h2 : (vs.map Term.var).all (fun t => match t with | .var _ => true | _ => false) = true := by simp
  simp only [quantified, h1, h2]
  simp

/-! ### The property -/

/-- The full statement of C56: for every action schema without loose variables, and for whatever order in which the set of
parameters that occur in no effect is enumerated, the projection returns an action schema without loose variables, with
the same name, whose parameters are those that occur in an effect, and which has the same transitions. -/
def C56_full : Prop :=
  ∀ (order : List Var → List Var), (∀ l, (order l).Perm l) → ∀ a : PAction, a.Closed → a.params.Nodup →
    ∃ a', projectAway order a = .ok a' ∧ a'.Closed ∧ a'.name = a.name ∧
      (∀ v, v ∈ a'.params ↔ v ∈ a.params ∧ (FreeEs v a.effs ∨ FreeCost v a.cost)) ∧ SameTransitions a a'

/-- C56, proved part. What is missing for the full claim are the actions where some parameter occurs in the condition of an
effect or in the cost, but not in the effect itself; those without any parameter to project away, on which the code
raises; and if-then-else terms in effects; see the theorems below. -/
theorem C56_project_partial (order : List Var → List Var) (ho : ∀ l, (order l).Perm l) (a : PAction) (hc : a.Closed)
    (hp : PlainEs a.effs) (hcond : ∀ v, FreeEs v a.effs ∨ FreeCost v a.cost → ArgEs v a.effs)
    (hsome : ∃ v ∈ a.params, ¬ (FreeEs v a.effs ∨ FreeCost v a.cost)) :
    ∃ a', projectAway order a = .ok a' ∧ a'.Closed ∧ a'.name = a.name ∧
      (∀ v, v ∈ a'.params ↔ v ∈ a.params ∧ (FreeEs v a.effs ∨ FreeCost v a.cost)) ∧ SameTransitions a a' := by
  obtain ⟨fr, h1, h2⟩ := effVarsAll_spec a.effs hp []
  have hfr : ∀ v, v ∈ fr ↔ FreeEs v a.effs ∨ FreeCost v a.cost := fun v => by
    rw [h2]
    simp only [List.not_mem_nil, false_or]
    exact ⟨fun h => .inl (argEs_free _ h), hcond v⟩
  obtain ⟨free, hfree⟩ : ∃ free, free = a.params.filter (fun v => decide (v ∉ fr)) := ⟨_, rfl⟩
  have hmem : ∀ v, v ∈ free ↔ v ∈ a.params ∧ ¬ (FreeEs v a.effs ∨ FreeCost v a.cost) := fun v => by
    rw [hfree]; simp only [List.mem_filter, decide_eq_true_eq, hfr]
  have hmo : ∀ v, v ∈ order free ↔ v ∈ free := fun v => (ho free).mem_iff
  have hne : order free ≠ [] := by
    obtain ⟨v, hv, hn⟩ := hsome
    intro he
    have := (hmo v).2 ((hmem v).2 ⟨hv, hn⟩)
    rw [he] at this
    exact List.not_mem_nil this
  have hmt : ∀ v, Term.var v ∈ (order free).map Term.var ↔ v ∈ free := fun v => by
    rw [← hmo]; simp
  refine ⟨⟨a.name, a.params.filter (fun v => decide (v ∉ free)), .quant .exists ((order free).map Term.var) a.pre, a.effs, a.cost⟩,
    ?_, ?_, rfl, ?_, ?_⟩
  · simp only [projectAway, effectFreeParams, h1, ← hfree, quantified_vars hne]
  · rintro v hv
    simp only [List.mem_filter, decide_eq_true_eq]
    rcases hv with hv | hv
    · exact ⟨hc v (.inl hv.1), fun hm => hv.2 ((hmt v).2 hm)⟩
    · exact ⟨hc v (.inr hv), fun hm => ((hmem v).1 hm).2 hv⟩
  · intro v
    simp only [List.mem_filter, decide_eq_true_eq, hmem]
    tauto
  · intro D I C k
    constructor
    · rintro ⟨σ, s1, s2, s3, s4⟩
      refine ⟨σ, fun v hv => s1 v (List.mem_filter.1 hv |>.1), ?_, s3, s4⟩
      simp only [Sat]
      rw [quantBlock_exists']
      exact ⟨σ, fun v hv => s1 v ((hmem v).1 ((hmt v).1 hv)).1, fun _ _ => rfl, s2⟩
    · rintro ⟨σ, s1, s2, s3, s4⟩
      simp only [Sat] at s2
      rw [quantBlock_exists'] at s2
      obtain ⟨τ, t1, t2, t3⟩ := s2
      have hag : ∀ v, FreeEs v a.effs ∨ FreeCost v a.cost → σ v = τ v := fun v hv =>
        (t2 v (fun hm => ((hmem v).1 ((hmt v).1 hm)).2 hv)).symm
      refine ⟨τ, fun v hv => ?_, t3, fun ch => ?_, ?_⟩
      · by_cases hm : v ∈ free
        · exact t1 v ((hmt v).2 hm)
        · rw [t2 v (fun h => hm ((hmt v).1 h))]
          exact s1 v (List.mem_filter.2 ⟨hv, by simpa using hm⟩)
      · rw [s3 ch]
        exact demandsAny_coinc I ch a.effs σ τ (fun v hv => hag v (.inl hv))
      · rw [s4]
        simp only
        cases hk : a.cost with
        | none => rfl
        | some t =>
          simp only [Option.map_some, Option.some.injEq]
          exact evalT_coinc I t σ τ (fun v hv => hag v (.inr (by rw [hk]; exact hv)))

/-- The same for all actions of a problem. -/
theorem C56_project_problem_partial (order : List Var → List Var) (ho : ∀ l, (order l).Perm l) : ∀ (as : List PAction),
    (∀ a ∈ as, a.Closed ∧ PlainEs a.effs ∧ (∀ v, FreeEs v a.effs ∨ FreeCost v a.cost → ArgEs v a.effs) ∧
      ∃ v ∈ a.params, ¬ (FreeEs v a.effs ∨ FreeCost v a.cost)) →
    ∃ as', projectAwayAll order as = .ok as' ∧
      List.Forall₂ (fun a a' => a'.Closed ∧ a'.name = a.name ∧ SameTransitions a a') as as'
  | [], _ => ⟨[], rfl, .nil⟩
  | a :: as, h => by
    obtain ⟨h1, h2, h3, h4⟩ := h a (by simp)
    obtain ⟨a', e1, e2, e3, -, e4⟩ := C56_project_partial order ho a h1 h2 h3 h4
    obtain ⟨as', f1, f2⟩ := C56_project_problem_partial order ho as (fun b hb => h b (by simp [hb]))
    exact ⟨a' :: as', by simp only [projectAwayAll, e1, f1], .cons ⟨e2, e3, e4⟩ f2⟩

/-! ### An action that meets the hypotheses -/

/-- `a(x, y, z)`: if `p(x, y) and q(y, z)` then not `p(x, y)`, and `r(w)` for all `w` with `p(x, w)`. -/
def exProject : PAction :=
  ⟨"a", [⟨"x", "object"⟩, ⟨"y", "object"⟩, ⟨"z", "object"⟩],
   land [.atom (.user "p") [.var ⟨"x", "object"⟩, .var ⟨"y", "object"⟩], .atom (.user "q") [.var ⟨"y", "object"⟩, .var ⟨"z", "object"⟩]],
   [.del .top (.user "p") [.var ⟨"x", "object"⟩, .var ⟨"y", "object"⟩],
    .univ .top [⟨"w", "object"⟩] [.add (.atom (.user "p") [.var ⟨"x", "object"⟩, .var ⟨"w", "object"⟩]) (.user "r") [.var ⟨"w", "object"⟩]]],
   some (.app "d" [.var ⟨"x", "object"⟩])⟩

theorem exProject_free (v : Var) : FreeEs v exProject.effs ∨ FreeCost v exProject.cost ↔ v = ⟨"x", "object"⟩ ∨ v = ⟨"y", "object"⟩ := by
  simp only [exProject, FreeEs, FreeE, FreeF, FreeTs, FreeT, FreeCost, List.mem_singleton]
  grind

example : ∃ a', projectAway List.reverse exProject = .ok a' ∧ a'.Closed ∧ a'.name = "a" ∧
    (∀ v, v ∈ a'.params ↔ v ∈ exProject.params ∧ (FreeEs v exProject.effs ∨ FreeCost v exProject.cost)) ∧ SameTransitions exProject a' := by
  refine C56_project_partial _ (fun l => List.reverse_perm l) exProject ?_ ?_ ?_ ?_
  · intro v hv
    rcases hv with hv | hv
    · simp [exProject, land, createCompound, toBinaryTree, FreeF, FreeFs, FreeTs, FreeT] at hv ⊢
      grind
    · rcases (exProject_free v).1 hv with rfl | rfl <;> simp [exProject]
  · simp [exProject, PlainEs, PlainE, NoIteTs, NoIteT]
  · intro v hv
    rcases (exProject_free v).1 hv with rfl | rfl <;> simp [exProject, ArgEs, ArgE, FreeTs, FreeT]
  · refine ⟨⟨"z", "object"⟩, by simp [exProject], fun h => ?_⟩
    rcases (exProject_free _).1 h with h | h <;> simp at h

/-- What is returned for this action: `a(x, y)` with the precondition `exists z. p(x, y) and q(y, z)`. -/
example : (projectAway id exProject).map (fun a => (a.params, a.pre)) =
    .ok ([⟨"x", "object"⟩, ⟨"y", "object"⟩], .quant .exists [.var ⟨"z", "object"⟩] exProject.pre) := rfl

/-! ### Actions for which the claim fails -/

/-- `b(x)`: if `p(x)` then `r(x)`. -/
def exNoneFree : PAction :=
  ⟨"b", [⟨"x", "object"⟩], .atom (.user "p") [.var ⟨"x", "object"⟩], [.add .top (.user "r") [.var ⟨"x", "object"⟩]], none⟩

/-- If all parameters occur in the effects, the code raises instead of returning the action. -/
theorem C56_nothing_to_project_refuted : exNoneFree.Closed ∧ ∀ order, (∀ l, (order l).Perm l) →
    projectAway order exNoneFree = .error .language := by
  refine ⟨fun v hv => ?_, fun order ho => ?_⟩
  · simp only [exNoneFree, FreeF, FreeEs, FreeE, FreeTs, FreeT, FreeCost] at hv
    simp only [exNoneFree, List.mem_singleton]
    grind
  · have : order [] = [] := List.perm_nil.1 (ho [])
    have e : effectFreeParams exNoneFree = .ok [] := rfl
    simp [projectAway, e, quantified, this]

/-- `c(x, y)`: if `p(x)` then `r(x)` when `p(y)`. -/
def exCondOnly : PAction :=
  ⟨"c", [⟨"x", "object"⟩, ⟨"y", "object"⟩], .atom (.user "p") [.var ⟨"x", "object"⟩],
   [.add (.atom (.user "p") [.var ⟨"y", "object"⟩]) (.user "r") [.var ⟨"x", "object"⟩]], none⟩

/-- A parameter that occurs in the condition of an effect only is projected away as well: the action that is returned has a
loose variable. -/
theorem C56_condition_refuted : exCondOnly.Closed ∧
    ∃ a', projectAway id exCondOnly = .ok a' ∧ a'.params = [⟨"x", "object"⟩] ∧ FreeEs ⟨"y", "object"⟩ a'.effs ∧ ¬ a'.Closed := by
  refine ⟨fun v hv => ?_, _, rfl, rfl, ?_, fun h => ?_⟩
  · simp only [exCondOnly, FreeF, FreeEs, FreeE, FreeTs, FreeT, FreeCost] at hv
    simp only [exCondOnly, List.mem_cons]
    grind
  · simp [FreeEs, FreeE, FreeF, FreeTs, FreeT, exCondOnly]
  · have := h ⟨"y", "object"⟩ (.inr (.inl (by simp [FreeEs, FreeE, FreeF, FreeTs, FreeT, exCondOnly])))
    exact absurd this (by decide)

/-- `d(x, y)`: if `p(x)` then `r(x)`, at the cost `dist(x, y)`. -/
def exCostOnly : PAction :=
  ⟨"d", [⟨"x", "object"⟩, ⟨"y", "object"⟩], .atom (.user "p") [.var ⟨"x", "object"⟩],
   [.add .top (.user "r") [.var ⟨"x", "object"⟩]], some (.app "dist" [.var ⟨"x", "object"⟩, .var ⟨"y", "object"⟩])⟩

/-- A parameter that occurs in the cost only is projected away as well: the cost of the action that is returned has a loose
variable. -/
theorem C56_cost_refuted : exCostOnly.Closed ∧
    ∃ a', projectAway id exCostOnly = .ok a' ∧ a'.params = [⟨"x", "object"⟩] ∧ FreeCost ⟨"y", "object"⟩ a'.cost ∧ ¬ a'.Closed := by
  refine ⟨fun v hv => ?_, _, rfl, rfl, ?_, fun h => ?_⟩
  · simp only [exCostOnly, FreeF, FreeEs, FreeE, FreeTs, FreeT, FreeCost] at hv
    simp only [exCostOnly, List.mem_cons]
    grind
  · simp [FreeCost, FreeTs, FreeT, exCostOnly]
  · have := h ⟨"y", "object"⟩ (.inr (.inr (by simp [FreeCost, FreeTs, FreeT, exCostOnly])))
    exact absurd this (by decide)

/-- `e(x, y)`: if `p(x)` then `f(x) := if p(y) then x else x`. -/
def exIteOnly : PAction :=
  ⟨"e", [⟨"x", "object"⟩, ⟨"y", "object"⟩], .atom (.user "p") [.var ⟨"x", "object"⟩],
   [.assign .top "f" [.var ⟨"x", "object"⟩] (.ite (.atom (.user "p") [.var ⟨"y", "object"⟩]) (.var ⟨"x", "object"⟩) (.var ⟨"x", "object"⟩))], none⟩

/-- A parameter that occurs inside an if-then-else term only is projected away as well. -/
theorem C56_ite_refuted : exIteOnly.Closed ∧
    ∃ a', projectAway id exIteOnly = .ok a' ∧ a'.params = [⟨"x", "object"⟩] ∧ FreeEs ⟨"y", "object"⟩ a'.effs ∧ ¬ a'.Closed := by
  refine ⟨fun v hv => ?_, _, rfl, rfl, ?_, fun h => ?_⟩
  · simp only [exIteOnly, FreeF, FreeEs, FreeE, FreeTs, FreeT, FreeCost] at hv
    simp only [exIteOnly, List.mem_cons]
    grind
  · simp [FreeEs, FreeE, FreeF, FreeTs, FreeT, exIteOnly]
  · have := h ⟨"y", "object"⟩ (.inr (.inl (by simp [FreeEs, FreeE, FreeF, FreeTs, FreeT, exIteOnly])))
    exact absurd this (by decide)

theorem C56_refuted : ¬ C56_full := by
  intro h
  obtain ⟨a', h1, -⟩ := h id (fun _ => .rfl) exNoneFree C56_nothing_to_project_refuted.1 (by simp [exNoneFree])
  rw [C56_nothing_to_project_refuted.2 id (fun _ => .rfl)] at h1
  cases h1

end Tarski

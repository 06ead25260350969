import Mathlib.Tactic.Common
import Mathlib.Data.List.Forall2
import Mathlib.Data.List.Nodup
import Verif.HybridGround
import Verif.QELemmas
import Verif.Props.ActionGround
import Verif.Props.Grounding
import Verif.Props.Registries
/-! C86: grounding of reactions, sensing actions and differential constraints. -/
namespace Tarski

/-! ### Specification -/

/-- The constants are a possible choice of values for the parameters: each has the sort of its parameter. -/
def Chooses (dom : String → Except Err (List Const)) (params : List Var) (cs : List Const) : Prop :=
  List.Forall₂ (fun v c => ∃ d, dom v.sort = .ok d ∧ c ∈ d) params cs

/-- `items` are the instances of the schemas, exactly one for every schema and every choice of values for its parameters. -/
def OneForEach {S G} (dom : String → Except Err (List Const)) (params : S → List Var) (IsInst : S → List Const → G → Prop)
    (schemas : List S) (items : List G) : Prop :=
  ∃ pairs : List (S × List Const), pairs.Nodup ∧ (∀ s cs, (s, cs) ∈ pairs ↔ s ∈ schemas ∧ Chooses dom (params s) cs) ∧
    List.Forall₂ (fun p g => IsInst p.1 p.2 g) pairs items

/-- The ground reaction happens when the condition holds for the values of the parameters, and demands the changes that the
effect demands for them. -/
def IsReactionInst (r : Reaction) (cs : List Const) (g : Reaction) : Prop :=
  g.name = r.name ∧ g.params = [] ∧ ∀ (D : Type) (I : Interp D) (σ τ : Asg D), Instantiates I r.params cs σ τ →
    (Sat I g.cond σ ↔ Sat I r.cond τ) ∧ ∀ ch, Demands I g.eff σ ch ↔ Demands I r.eff τ ch

/-- The ground sensing action is possible when the condition holds for the values of the parameters, and observes the truth
value that the observation has for them. -/
def IsSensorInst (s : Sensor) (cs : List Const) (g : Sensor) : Prop :=
  g.name = s.name ∧ g.params = [] ∧ ∀ (D : Type) (I : Interp D) (σ τ : Asg D), Instantiates I s.params cs σ τ →
    (Sat I g.cond σ ↔ Sat I s.cond τ) ∧ (Sat I g.obs σ ↔ Sat I s.obs τ)

/-- The ground constraint is active when the condition holds for the values of the parameters, is on the same function at the
values that its arguments have for them, and has the same rate. -/
def IsOdeInst (d : DiffConstraint) (cs : List Const) (g : DiffConstraint) : Prop :=
  g.name = d.name ∧ g.params = [] ∧ ∃ f ts ts', d.variate = .app f ts ∧ g.variate = .app f ts' ∧
    ∀ (D : Type) (I : Interp D) (σ τ : Asg D), Instantiates I d.params cs σ τ →
      (Sat I g.cond σ ↔ Sat I d.cond τ) ∧ evalTs I ts' σ = evalTs I ts τ ∧ evalT I g.ode σ = evalT I d.ode τ

/-- The parameters are distinct, and no quantifier and no universal effect binds one of them again. -/
def Reaction.NoRebinding (r : Reaction) : Prop :=
  r.params.Nodup ∧ VarBindersF r.cond ∧ VarBindersE r.eff ∧ ∀ v ∈ r.params, ¬ BoundF v r.cond ∧ ¬ BoundE v r.eff

def Sensor.NoRebinding (s : Sensor) : Prop :=
  s.params.Nodup ∧ VarBindersF s.cond ∧ VarBindersF s.obs ∧ ∀ v ∈ s.params, ¬ BoundF v s.cond ∧ ¬ BoundF v s.obs

def DiffConstraint.NoRebinding (d : DiffConstraint) : Prop :=
  d.params.Nodup ∧ VarBindersF d.cond ∧ VarBindersT d.variate ∧ VarBindersT d.ode ∧
    ∀ v ∈ d.params, ¬ BoundF v d.cond ∧ ¬ BoundT v d.variate ∧ ¬ BoundT v d.ode

/-- All sorts of the parameters have a list of constants: no built-in sort. -/
def Groundable (dom : String → Except Err (List Const)) (params : List Var) : Prop := ∀ v ∈ params, ∃ d, dom v.sort = .ok d

/-! ### Proof -/

theorem cart_map {α β} (f : α → β) (ls : List (List α)) : cart (ls.map (List.map f)) = (cart ls).map (List.map f) := by
  induction ls with
  | nil => rfl
  | cons l ls ih =>
    simp only [List.map_cons, cart, ih, List.map_flatMap, List.flatMap_map, List.map_map]
    rfl

def domLists (dom : String → Except Err (List Const)) (vs : List Var) : List (List Const) :=
  vs.map fun v => match dom v.sort with | .ok d => d | .error _ => []

theorem enumLoop_termDomains (dom : String → Except Err (List Const)) : ∀ vs : List Var, Groundable dom vs →
    enumLoop (termDomains dom) (vs.map Term.var) =
      .ok (((domLists dom vs).map List.length).prod, (domLists dom vs).map (List.map (fun c => Term.const c.name c.sort)))
  | [], _ => rfl
  | v :: vs, h => by
    obtain ⟨d, hd⟩ := h v (by simp)
    have ih := enumLoop_termDomains dom vs fun w hw => h w (by simp [hw])
    have hd' : termDomains dom v.sort = .ok (d.map (fun c => Term.const c.name c.sort)) := by simp [termDomains, hd, Except.map]
    simp only [List.map_cons, enumLoop, ih, hd']
    simp [hd, domLists]

theorem enumLoop_raises (dom : String → Except Err (List Const)) : ∀ vs : List Var, ¬ Groundable dom vs →
    ∃ e, enumLoop (termDomains dom) (vs.map Term.var) = .error e
  | [], h => absurd (fun _ hv => by simp at hv) h
  | v :: vs, h => by
    simp only [List.map_cons, enumLoop]
    cases hd : dom v.sort with
    | error e => exact ⟨e, by simp [termDomains, hd, Except.map]⟩
    | ok d =>
      obtain ⟨e, he⟩ := enumLoop_raises dom vs fun hg => h fun w hw => by
        rcases List.mem_cons.1 hw with rfl | hw
        · exact ⟨d, hd⟩
        · exact hg w hw
      have hd' : termDomains dom v.sort = .ok (d.map (fun c => Term.const c.name c.sort)) := by simp [termDomains, hd, Except.map]
      exact ⟨e, by simp only [hd', he]⟩

theorem mem_cart_domLists (dom : String → Except Err (List Const)) (vs : List Var) (hg : Groundable dom vs) (cs : List Const) :
    cs ∈ cart (domLists dom vs) ↔ Chooses dom vs cs := by
  rw [mem_cart]
  induction vs generalizing cs with
  | nil => simp [domLists, Chooses]
  | cons v vs ih =>
    obtain ⟨d, hd⟩ := hg v (by simp)
    cases cs with
    | nil => simp [domLists, Chooses]
    | cons c cs =>
      have := ih (fun w hw => hg w (by simp [hw])) cs
      simp only [domLists, Chooses, List.map_cons, List.forall₂_cons, hd] at this ⊢
      rw [this]
      simp

/-- The loops of the three grounders, for schemas whose instances do not raise. -/
def calculateAll {S G} (params : S → List Var) (inst : S → List Const → G) (dom : String → Except Err (List Const)) :
    List S → Grounder G → Grounder G × Option Err
  | [], g => (g, none)
  | s :: ss, g =>
    match enumLoop (termDomains dom) ((params s).map Term.var) with
    | .error e => (g, some e)
    | .ok (k, _) =>
      calculateAll params inst dom ss ⟨g.items ++ (cart (domLists dom (params s))).map (inst s), g.generated + k⟩

theorem calculateAll_ok {S G} (params : S → List Var) (inst : S → List Const → G) (dom : String → Except Err (List Const))
    (ss : List S) (g : Grounder G) (h : ∀ s ∈ ss, Groundable dom (params s)) :
    (calculateAll params inst dom ss g).2 = none ∧
    (calculateAll params inst dom ss g).1.items = g.items ++ ss.flatMap fun s => (cart (domLists dom (params s))).map (inst s) := by
  induction ss generalizing g with
  | nil => simp [calculateAll]
  | cons s ss ih =>
    simp only [calculateAll, enumLoop_termDomains dom _ (h s (by simp))]
    obtain ⟨h1, h2⟩ := ih ⟨_, _⟩ fun s hs => h s (by simp [hs])
    refine ⟨h1, ?_⟩
    rw [h2]
    simp

theorem calculateAll_error {S G} (params : S → List Var) (inst : S → List Const → G) (dom : String → Except Err (List Const))
    (ss : List S) (g : Grounder G) (h : ∃ s ∈ ss, ¬ Groundable dom (params s)) : (calculateAll params inst dom ss g).2 ≠ none := by
  induction ss generalizing g with
  | nil => simp at h
  | cons s ss ih =>
    simp only [calculateAll]
    by_cases hs : Groundable dom (params s)
    · rw [enumLoop_termDomains dom _ hs]
      apply ih
      obtain ⟨s', hs', hn⟩ := h
      rcases List.mem_cons.1 hs' with rfl | hs'
      · exact absurd hs hn
      · exact ⟨s', hs', hn⟩
    · obtain ⟨e, he⟩ := enumLoop_raises dom _ hs
      rw [he]
      simp

theorem calculateAll_count {S G} (params : S → List Var) (inst : S → List Const → G) (dom : String → Except Err (List Const))
    (ss : List S) (g : Grounder G) (h : g.items.length = g.generated) :
    (calculateAll params inst dom ss g).1.items.length = (calculateAll params inst dom ss g).1.generated := by
  induction ss generalizing g with
  | nil => exact h
  | cons s ss ih =>
    simp only [calculateAll]
    by_cases hs : Groundable dom (params s)
    · rw [enumLoop_termDomains dom _ hs]
      apply ih
      simp [h, cart_length]
    · obtain ⟨e, he⟩ := enumLoop_raises dom _ hs
      rw [he]
      exact h

theorem oneForEach_of {S G} (dom : String → Except Err (List Const)) (params : S → List Var) (inst : S → List Const → G)
    (IsInst : S → List Const → G → Prop) (ss : List S) (hn : ss.Nodup) (hd : ∀ s d, dom s = .ok d → d.Nodup)
    (hg : ∀ s ∈ ss, Groundable dom (params s)) (hi : ∀ s ∈ ss, ∀ cs, Chooses dom (params s) cs → IsInst s cs (inst s cs)) :
    OneForEach dom params IsInst ss (ss.flatMap fun s => (cart (domLists dom (params s))).map (inst s)) := by
  refine ⟨ss.flatMap fun s => (cart (domLists dom (params s))).map fun cs => (s, cs), ?_, ?_, ?_⟩
  · refine List.nodup_flatMap.mpr ⟨fun s _ => ?_, ?_⟩
    · refine List.Nodup.map (fun a b e => (Prod.mk.inj e).2) (cart_nodup _ ?_)
      intro l hl
      simp only [domLists, List.mem_map] at hl
      obtain ⟨v, -, rfl⟩ := hl
      split
      · rename_i d hd'; exact hd _ _ hd'
      · simp
    · refine hn.imp ?_
      intro a b hab
      simp only [Function.onFun, List.disjoint_left, List.mem_map]
      rintro p ⟨cs, -, rfl⟩ ⟨cs', -, e⟩
      exact hab (Prod.mk.inj e).1.symm
  · intro s cs
    simp only [List.mem_flatMap, List.mem_map, Prod.mk.injEq]
    constructor
    · rintro ⟨s', hs', cs', hc, rfl, rfl⟩
      exact ⟨hs', (mem_cart_domLists dom _ (hg _ hs') _).1 hc⟩
    · rintro ⟨hs, hc⟩
      exact ⟨s, hs, cs, (mem_cart_domLists dom _ (hg _ hs) _).2 hc, rfl, rfl⟩
  · clear hn
    induction ss with
    | nil => simp
    | cons s ss ih =>
      simp only [List.flatMap_cons]
      refine List.rel_append ?_ (ih (fun s hs => hg s (by simp [hs])) fun s hs => hi s (by simp [hs]))
      have : ∀ l : List (List Const), (∀ cs ∈ l, Chooses dom (params s) cs) →
          List.Forall₂ (fun p g => IsInst p.1 p.2 g) (l.map fun cs => (s, cs)) (l.map (inst s)) := by
        intro l hl
        induction l with
        | nil => simp
        | cons x l ih' =>
          simp only [List.map_cons, List.forall₂_cons]
          exact ⟨hi s (by simp) x (hl x (by simp)), ih' fun cs hcs => hl cs (by simp [hcs])⟩
      exact this _ fun cs hcs => (mem_cart_domLists dom _ (hg s (by simp)) cs).1 hcs

theorem instSubst_def (vs : List Var) (cs : List Const) :
    createSubst (vs.map Term.var) (cs.map (fun c => Term.const c.name c.sort)) = instSubst vs cs := rfl

/-- The instance that the grounder of reactions builds. -/
def reactionInst (r : Reaction) (cs : List Const) : Reaction :=
  if r.params.length = 0 then ⟨r.name, [], r.cond, r.eff⟩ else groundReaction r (instSubst r.params cs)

theorem calculateReactions_eq (dom) (rs : List Reaction) (g : Grounder Reaction) :
    calculateReactions dom rs g = calculateAll Reaction.params reactionInst dom rs g := by
  induction rs generalizing g with
  | nil => rfl
  | cons r rs ih =>
    simp only [calculateReactions, calculateAll]
    by_cases h0 : r.params.length = 0
    · rw [if_pos h0, ih]
      have h0' : r.params = [] := by simpa using h0
      simp [h0', enumLoop, domLists, cart, reactionInst]
    · rw [if_neg h0]
      by_cases hg : Groundable dom r.params
      · simp only [enumerateGroundings, enumLoop_termDomains dom _ hg, ih, cart_map, List.map_map]
        congr 4
        funext cs
        simp [reactionInst, h0, instSubst_def]
      · obtain ⟨e, he⟩ := enumLoop_raises dom _ hg
        simp only [enumerateGroundings, he]

def sensorInst (s : Sensor) (cs : List Const) : Sensor :=
  ⟨s.name, [], subF (instSubst s.params cs) s.cond, subF (instSubst s.params cs) s.obs⟩

theorem sensorTuples_eq (s : Sensor) (hs : SensorOK s) (syms : List Term) (l : List (List Term)) (acc : List Sensor) :
    sensorTuples s syms l acc =
      (acc ++ l.map fun vs => ⟨s.name, [], subF (createSubst syms vs) s.cond, subF (createSubst syms vs) s.obs⟩, none) := by
  induction l generalizing acc with
  | nil => simp [sensorTuples]
  | cons x l ih =>
    have : mkSensor ⟨s.name, [], subF (createSubst syms x) s.cond, subF (createSubst syms x) s.obs⟩ =
        .ok ⟨s.name, [], subF (createSubst syms x) s.cond, subF (createSubst syms x) s.obs⟩ := by
      rcases hs with ⟨p, ts, e⟩ | ⟨k, p, ts, r, e⟩ <;> rw [e] <;> simp [mkSensor, subF, subFs]
    simp only [sensorTuples, this, ih]
    simp

theorem calculateSensors_eq (dom) (ss : List Sensor) (hs : ∀ s ∈ ss, SensorOK s) (g : Grounder Sensor) :
    calculateSensors dom ss g = calculateAll Sensor.params sensorInst dom ss g := by
  induction ss generalizing g with
  | nil => rfl
  | cons s ss ih =>
    simp only [calculateSensors, calculateAll]
    by_cases hg : Groundable dom s.params
    · simp only [enumerateGroundings, enumLoop_termDomains dom _ hg, sensorTuples_eq s (hs s (by simp)),
        ih (fun s h => hs s (by simp [h])), cart_map, List.map_map]
      rfl
    · obtain ⟨e, he⟩ := enumLoop_raises dom _ hg
      simp only [enumerateGroundings, he]

def odeInst (d : DiffConstraint) (cs : List Const) : DiffConstraint :=
  ⟨d.name, [], subF (instSubst d.params cs) d.cond, subT (instSubst d.params cs) d.variate, subT (instSubst d.params cs) d.ode⟩

theorem zip_keys (vs : List Var) (l : List Term) : KeysVar (createSubst (vs.map Term.var) l) := by
  intro kv hkv
  have := (List.of_mem_zip hkv).1
  simp only [List.mem_map] at this
  obtain ⟨v, -, e⟩ := this
  exact ⟨v, e.symm⟩

theorem odeTuples_eq (d : DiffConstraint) (hs : OdeOK d) (vs : List Var) (l : List (List Term)) (acc : List DiffConstraint) :
    odeTuples d (vs.map Term.var) l acc =
      (acc ++ l.map fun x => ⟨d.name, [], subF (createSubst (vs.map Term.var) x) d.cond,
        subT (createSubst (vs.map Term.var) x) d.variate, subT (createSubst (vs.map Term.var) x) d.ode⟩, none) := by
  induction l generalizing acc with
  | nil => simp [odeTuples]
  | cons x l ih =>
    have : mkDiffConstraint ⟨d.name, [], subF (createSubst (vs.map Term.var) x) d.cond,
          subT (createSubst (vs.map Term.var) x) d.variate, subT (createSubst (vs.map Term.var) x) d.ode⟩ =
        .ok ⟨d.name, [], subF (createSubst (vs.map Term.var) x) d.cond,
          subT (createSubst (vs.map Term.var) x) d.variate, subT (createSubst (vs.map Term.var) x) d.ode⟩ := by
      obtain ⟨f, ts, e⟩ := hs
      rw [e, subT, visit_nonvar (zip_keys vs x) (by simp)]
      rfl
    simp only [odeTuples, this, ih]
    simp

theorem calculateOdes_eq (dom) (ds : List DiffConstraint) (hs : ∀ d ∈ ds, OdeOK d) (g : Grounder DiffConstraint) :
    calculateOdes dom ds g = calculateAll DiffConstraint.params odeInst dom ds g := by
  induction ds generalizing g with
  | nil => rfl
  | cons s ss ih =>
    simp only [calculateOdes, calculateAll]
    by_cases hg : Groundable dom s.params
    · simp only [enumerateGroundings, enumLoop_termDomains dom _ hg, odeTuples_eq s (hs s (by simp)),
        ih (fun s h => hs s (by simp [h])), cart_map, List.map_map]
      rfl
    · obtain ⟨e, he⟩ := enumLoop_raises dom _ hg
      simp only [enumerateGroundings, he]

/-! ### Theorems -/

/-- C86: the ground reactions are the instances of the reactions, one for every choice of values. -/
theorem C86_reactions (dom : String → Except Err (List Const)) (rs : List Reaction) (hn : rs.Nodup)
    (hd : ∀ s d, dom s = .ok d → d.Nodup) (hg : ∀ r ∈ rs, Groundable dom r.params) (hr : ∀ r ∈ rs, r.NoRebinding) :
    (calculateReactions dom rs .new).2 = none ∧
    OneForEach dom Reaction.params IsReactionInst rs (calculateReactions dom rs .new).1.items := by
  rw [calculateReactions_eq]
  obtain ⟨h1, h2⟩ := calculateAll_ok Reaction.params reactionInst dom rs .new hg
  refine ⟨h1, ?_⟩
  rw [h2]
  refine oneForEach_of dom _ _ _ rs hn hd hg fun r hr' cs hcs => ?_
  obtain ⟨a1, a2, a3, a4⟩ := hr r hr'
  have hl := hcs.length_eq
  by_cases h0 : r.params.length = 0
  · refine ⟨by simp [reactionInst, h0], by simp [reactionInst, h0], fun D I σ τ hτ => ?_⟩
    have h0' : r.params = [] := by simpa using h0
    have : τ = σ := funext fun v => hτ.rest v (by simp [h0'])
    simp [reactionInst, h0, this]
  · refine ⟨by simp [reactionInst, h0, groundReaction], by simp [reactionInst, h0, groundReaction], fun D I σ τ hτ => ?_⟩
    have hu : updAsg I (instSubst r.params cs) σ = τ := updAsg_instantiates a1 hτ
    simp only [reactionInst, h0, if_false, groundReaction]
    refine ⟨?_, fun ch => ?_⟩
    · rw [subF_sem I (instSubst_keys _ _) r.cond a2 (fun v hv => instSubst_fresh _ _ fun hm => (a4 v hm).1 hv) σ, hu]
    · rw [subE_sem I (instSubst_keys _ _) (instSubst_consts _ _) r.eff a3
        (fun v hv => instSubst_fresh _ _ fun hm => (a4 v hm).2 hv) σ ch, hu]

/-- C86: the ground sensing actions are the instances of the sensing actions. -/
theorem C86_sensors (dom : String → Except Err (List Const)) (ss : List Sensor) (hn : ss.Nodup) (hw : ∀ s ∈ ss, SensorOK s)
    (hd : ∀ s d, dom s = .ok d → d.Nodup) (hg : ∀ s ∈ ss, Groundable dom s.params) (hr : ∀ s ∈ ss, s.NoRebinding) :
    (calculateSensors dom ss .new).2 = none ∧
    OneForEach dom Sensor.params IsSensorInst ss (calculateSensors dom ss .new).1.items := by
  rw [calculateSensors_eq dom ss hw]
  obtain ⟨h1, h2⟩ := calculateAll_ok Sensor.params sensorInst dom ss .new hg
  refine ⟨h1, ?_⟩
  rw [h2]
  refine oneForEach_of dom _ _ _ ss hn hd hg fun r hr' cs hcs => ?_
  obtain ⟨a1, a2, a3, a4⟩ := hr r hr'
  refine ⟨rfl, rfl, fun D I σ τ hτ => ?_⟩
  have hu : updAsg I (instSubst r.params cs) σ = τ := updAsg_instantiates a1 hτ
  simp only [sensorInst]
  refine ⟨?_, ?_⟩
  · rw [subF_sem I (instSubst_keys _ _) r.cond a2 (fun v hv => instSubst_fresh _ _ fun hm => (a4 v hm).1 hv) σ, hu]
  · rw [subF_sem I (instSubst_keys _ _) r.obs a3 (fun v hv => instSubst_fresh _ _ fun hm => (a4 v hm).2 hv) σ, hu]

/-- C86: the ground differential constraints are the instances of the differential constraints. -/
theorem C86_odes (dom : String → Except Err (List Const)) (ds : List DiffConstraint) (hn : ds.Nodup) (hw : ∀ d ∈ ds, OdeOK d)
    (hd : ∀ s d, dom s = .ok d → d.Nodup) (hg : ∀ d ∈ ds, Groundable dom d.params) (hr : ∀ d ∈ ds, d.NoRebinding) :
    (calculateOdes dom ds .new).2 = none ∧
    OneForEach dom DiffConstraint.params IsOdeInst ds (calculateOdes dom ds .new).1.items := by
  rw [calculateOdes_eq dom ds hw]
  obtain ⟨h1, h2⟩ := calculateAll_ok DiffConstraint.params odeInst dom ds .new hg
  refine ⟨h1, ?_⟩
  rw [h2]
  refine oneForEach_of dom _ _ _ ds hn hd hg fun r hr' cs hcs => ?_
  obtain ⟨a1, a2, a3, a5, a4⟩ := hr r hr'
  obtain ⟨f, ts, e⟩ := hw r hr'
  refine ⟨rfl, rfl, f, ts, subTs (instSubst r.params cs) ts, e, ?_, fun D I σ τ hτ => ?_⟩
  · rw [odeInst, e, subT, visit_nonvar (instSubst_keys _ _) (by simp)]
  have hu : updAsg I (instSubst r.params cs) σ = τ := updAsg_instantiates a1 hτ
  rw [e] at a3 a4
  simp only [odeInst]
  refine ⟨?_, ?_, ?_⟩
  · rw [subF_sem I (instSubst_keys _ _) r.cond a2 (fun v hv => instSubst_fresh _ _ fun hm => (a4 v hm).1 hv) σ, hu]
  · rw [subTs_sem I (instSubst_keys _ _) ts a3 (fun v hv => instSubst_fresh _ _ fun hm => (a4 v hm).2.1 hv) σ, hu]
  · rw [subT_sem I (instSubst_keys _ _) r.ode a5 (fun v hv => instSubst_fresh _ _ fun hm => (a4 v hm).2.2 hv) σ, hu]

/-- C86: a grounder raises exactly when a parameter has a sort that cannot be enumerated. -/
theorem C86_raises (dom : String → Except Err (List Const)) :
    (∀ rs g, (calculateReactions dom rs g).2 ≠ none ↔ ∃ r ∈ rs, ¬ Groundable dom r.params) ∧
    (∀ ss g, (∀ s ∈ ss, SensorOK s) → ((calculateSensors dom ss g).2 ≠ none ↔ ∃ s ∈ ss, ¬ Groundable dom s.params)) ∧
    (∀ ds g, (∀ d ∈ ds, OdeOK d) → ((calculateOdes dom ds g).2 ≠ none ↔ ∃ d ∈ ds, ¬ Groundable dom d.params)) := by
  have key : ∀ {S G} (params : S → List Var) (inst : S → List Const → G) (ss : List S) (g : Grounder G),
      (calculateAll params inst dom ss g).2 ≠ none ↔ ∃ s ∈ ss, ¬ Groundable dom (params s) := by
    intro S G params inst ss g
    refine ⟨fun h => ?_, calculateAll_error params inst dom ss g⟩
    by_contra hc
    push Not at hc
    exact h (calculateAll_ok params inst dom ss g hc).1
  refine ⟨fun rs g => ?_, fun ss g hw => ?_, fun ds g hw => ?_⟩
  · rw [calculateReactions_eq]; exact key _ _ _ _
  · rw [calculateSensors_eq dom ss hw]; exact key _ _ _ _
  · rw [calculateOdes_eq dom ds hw]; exact key _ _ _ _

/-- C86: the counter of a grounder is the number of elements of its index, after any number of calls, also of calls that
raise. -/
theorem C86_count (dom : String → Except Err (List Const)) :
    (∀ rs g, g.items.length = g.generated →
      (calculateReactions dom rs g).1.items.length = (calculateReactions dom rs g).1.generated) ∧
    (∀ ss g, (∀ s ∈ ss, SensorOK s) → g.items.length = g.generated →
      (calculateSensors dom ss g).1.items.length = (calculateSensors dom ss g).1.generated) ∧
    (∀ ds g, (∀ d ∈ ds, OdeOK d) → g.items.length = g.generated →
      (calculateOdes dom ds g).1.items.length = (calculateOdes dom ds g).1.generated) := by
  refine ⟨fun rs g h => ?_, fun ss g hw h => ?_, fun ds g hw h => ?_⟩
  · rw [calculateReactions_eq]; exact calculateAll_count _ _ _ _ _ h
  · rw [calculateSensors_eq dom ss hw]; exact calculateAll_count _ _ _ _ _ h
  · rw [calculateOdes_eq dom ds hw]; exact calculateAll_count _ _ _ _ _ h

theorem ode_table (psorts) (h : List RegOp) (g : Registry)
    (hg : (g.odes.map Prod.fst).Nodup ∧ ∀ kv ∈ g.odes, kv.1 = kv.2.name ∧ OdeOK kv.2) :
    ((Registry.run psorts g h).odes.map Prod.fst).Nodup ∧
      ∀ kv ∈ (Registry.run psorts g h).odes, kv.1 = kv.2.name ∧ OdeOK kv.2 := by
  induction h generalizing g with
  | nil => exact hg
  | cons o h ih =>
    refine ih _ ?_
    cases o with
    | ode d =>
      simp only [Registry.step, Registry.addOde]
      split
      · exact hg
      · rcases mkDiffConstraint_cases d with ⟨h1, h2⟩ | ⟨h1, e, h2⟩
        · rw [h2]
          refine ⟨nodup_dinsert hg.1, fun kv hkv => ?_⟩
          rcases mem_dinsert hkv with rfl | hkv
          · exact ⟨rfl, h1⟩
          · exact hg.2 kv hkv
        · rw [h2]; exact hg
    | action a => simp only [Registry.step, Registry.addAction]; split <;> exact hg
    | derived a =>
      simp only [Registry.step, Registry.addDerived]
      split
      · exact hg
      · split <;> exact hg
    | reaction a => simp only [Registry.step, Registry.addReaction]; split <;> exact hg
    | sensor a =>
      simp only [Registry.step, Registry.addSensor]
      split
      · exact hg
      · split <;> exact hg

/-- C86: the schemas of a problem satisfy the hypotheses of the theorems above: they are pairwise distinct and the sensing
actions and differential constraints are well formed, whatever the history of definitions. -/
theorem C86_schemas (psorts : String → Option (List String)) (h : List RegOp) :
    ((Registry.run psorts .empty h).reactions.map Prod.snd).Nodup ∧
    ((Registry.run psorts .empty h).sensors.map Prod.snd).Nodup ∧
    (∀ s ∈ (Registry.run psorts .empty h).sensors.map Prod.snd, SensorOK s) ∧
    ((Registry.run psorts .empty h).odes.map Prod.snd).Nodup ∧
    (∀ d ∈ (Registry.run psorts .empty h).odes.map Prod.snd, OdeOK d) := by
  obtain ⟨i1, i2, i3, i4⟩ := run_tables psorts h .empty
  have key : ∀ {α} (ok : α → Bool) (nm : α → String) (as : List α),
      ((regAll ok nm [] as).map Prod.snd).Nodup ∧ ∀ a ∈ (regAll ok nm [] as).map Prod.snd, ok a = true := by
    intro α ok nm as
    have hn := regAll_nodup ok nm as [] (by simp)
    obtain ⟨bs, h1, h2⟩ := regAll_sublist ok nm as []
    rw [h1] at hn ⊢
    simp only [List.nil_append, List.map_map] at hn ⊢
    have e1 : (Prod.snd ∘ fun a => (nm a, a)) = id := rfl
    have e2 : (Prod.fst ∘ fun a => (nm a, a)) = nm := rfl
    rw [e2] at hn
    rw [e1, List.map_id]
    refine ⟨List.Nodup.of_map nm hn, fun a ha => ?_⟩
    exact (List.mem_filter.1 (h2.subset ha)).2
  have ho := ode_table psorts h .empty ⟨by simp [Registry.empty], by simp [Registry.empty]⟩
  refine ⟨?_, ?_, ?_, ?_, ?_⟩
  · rw [i3]; exact (key _ _ _).1
  · rw [i4]; exact (key _ _ _).1
  · rw [i4]; intro s hs; simpa using (key _ _ _).2 s hs
  · refine List.Nodup.of_map DiffConstraint.name ?_
    have : ((Registry.run psorts .empty h).odes.map Prod.snd).map DiffConstraint.name =
        (Registry.run psorts .empty h).odes.map Prod.fst := by
      rw [List.map_map]
      exact List.map_congr_left fun kv hkv => (ho.2 kv hkv).1.symm
    rw [this]
    exact ho.1
  · intro d hd
    simp only [List.mem_map] at hd
    obtain ⟨kv, hkv, rfl⟩ := hd
    exact (ho.2 kv hkv).2

/-! ### Concrete cases -/

def balls : String → Except Err (List Const) := fun s =>
  if s = "ball" then .ok [⟨.str "b1", "ball"⟩, ⟨.str "b2", "ball"⟩, ⟨.str "b3", "ball"⟩] else .error .unableToGround

/-- Two balls collide when they are at the same place. -/
def collide : Reaction :=
  ⟨"collide", [⟨"?x", "ball"⟩, ⟨"?y", "ball"⟩],
    .atom (.cmp .eq) [.app "pos" [.var ⟨"?x", "ball"⟩], .app "pos" [.var ⟨"?y", "ball"⟩]],
    .assign .top "vel" [.var ⟨"?x", "ball"⟩] (.app "vel" [.var ⟨"?y", "ball"⟩])⟩

example : collide.NoRebinding ∧ Groundable balls collide.params ∧ (∀ s d, balls s = .ok d → d.Nodup) := by
  refine ⟨⟨by decide, ?_, ?_, ?_⟩, ?_, ?_⟩
  · simp [collide, VarBindersF, VarBindersTs, VarBindersT]
  · simp [collide, VarBindersE, VarBindersF, VarBindersTs, VarBindersT]
  · intro v _; simp [collide, BoundF, BoundTs, BoundT, BoundE]
  · intro v hv
    simp only [collide, List.mem_cons, List.not_mem_nil, or_false] at hv
    rcases hv with rfl | rfl <;> exact ⟨_, rfl⟩
  · intro s d h
    unfold balls at h
    split at h
    · cases h; decide
    · cases h

/-- Nine ground reactions and one without parameters; the fifth makes `b2` collide with itself. -/
example : (calculateReactions balls [collide, someReaction] .new).1.generated = 10 ∧
    ((calculateReactions balls [collide, someReaction] .new).1.items.map Reaction.cond)[5]? =
      some (.atom (.cmp .eq) [.app "pos" [.const (.str "b2") "ball"], .app "pos" [.const (.str "b3") "ball"]]) := ⟨rfl, rfl⟩

/-- A parameter of another sort raises, after the reactions of the first schema have been added; the counter agrees. -/
example : (calculateReactions balls [collide, ⟨"tick", [⟨"?n", "Integer"⟩], .top, .add .top (.user "p") []⟩] .new).2
      = some .unableToGround ∧
    (calculateReactions balls [collide, ⟨"tick", [⟨"?n", "Integer"⟩], .top, .add .top (.user "p") []⟩] .new).1.generated = 9 :=
  ⟨rfl, rfl⟩

/-- A sensing action with a negated observation, and the differential constraint of a falling ball. -/
example : ((calculateSensors balls [⟨"look", [⟨"?x", "ball"⟩], .top, .comp .list .not [.atom (.user "red") [.var ⟨"?x", "ball"⟩]]⟩] .new).1.items.map
      Sensor.obs)[1]? = some (.comp .list .not [.atom (.user "red") [.const (.str "b2") "ball"]]) ∧
    ((calculateOdes balls [⟨"fall", [⟨"?b", "ball"⟩], .top, .app "y" [.var ⟨"?b", "ball"⟩], .app "vel" [.var ⟨"?b", "ball"⟩]⟩] .new).1.items.map
      DiffConstraint.ode)[2]? = some (.app "vel" [.const (.str "b3") "ball"]) := ⟨rfl, rfl⟩

end Tarski

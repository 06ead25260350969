import Verif.Props.PddlAgain
import Verif.ExSimpLemmas
/-! C131: writing a problem and reading it again changes none of its plans. -/
namespace Tarski

/-! ### Specification (with `LiftedRun`, `Represents` of `Props/Pipeline.lean`) -/

/-- The steps lead from a state with the atoms of the initial model to the state, in which the goal is true. -/
def PlanTo (p : PProblem) (R : CmpRel) (steps : List (String × List String)) (S : PState) : Prop :=
  ∃ S₀ g, Represents p.lang.mlang p.init S₀ ∧ LiftedRun (lpInputOf p []) R S₀ steps S ∧ p.goal = some g ∧
    ∀ σ, Sat (stateInterp p.lang.listDomain R S) g σ

/-! ### Proof -/

theorem eqMeaning_state (dom : Domains) (R : CmpRel) (S : PState) : EqMeaning (stateInterp dom R S) where
  eq a b := R.eq_iff a b
  ne a b := by
    have := R.compl .eq a b
    simp only [Cmp.complement] at this
    simp only [stateInterp]
    rw [this, R.eq_iff]
  nums := by simp only [stateInterp]; decide

/-- The change that an atom is added or deleted. -/
def changeOf (b : Bool) (q : String) (as : List String) : EChange String := if b then .add (.user q) as else .del (.user q) as

mutual
theorem causes_demands (I : Interp String) (b : Bool) (q : String) (as : List String) : ∀ (e : Effect) (σ : Asg String),
    Causes I b e σ q as ↔ Demands I e σ (changeOf b q as)
  | .add c r ts, σ => by
    simp only [Demands, changeOf]
    constructor
    · intro h
      cases h with
      | add _ _ _ _ hb hc => subst hb; exact ⟨hc, by simp⟩
    · rintro ⟨hc, h⟩
      cases b with
      | false => simp at h
      | true =>
        simp only [if_true, EChange.add.injEq] at h
        obtain ⟨rfl, rfl⟩ := h
        exact .add _ _ _ _ rfl hc
  | .del c r ts, σ => by
    simp only [Demands, changeOf]
    constructor
    · intro h
      cases h with
      | del _ _ _ _ hb hc => subst hb; exact ⟨hc, by simp⟩
    · rintro ⟨hc, h⟩
      cases b with
      | true => simp at h
      | false =>
        simp only [Bool.false_eq_true, if_false, EChange.del.injEq] at h
        obtain ⟨rfl, rfl⟩ := h
        exact .del _ _ _ _ rfl hc
  | .lit _ _, σ => by
    simp only [Demands, iff_false]
    intro h; cases h
  | .assign c f ts r, σ => by
    simp only [Demands]
    constructor
    · intro h; cases h
    · rintro ⟨-, h⟩
      cases b <;> simp [changeOf] at h
  | .univ c vs es, σ => by
    simp only [Demands]
    rw [quantBlock_exists']
    constructor
    · intro h
      cases h with
      | univ _ _ _ e _ τ _ _ hc he h1 h2 h3 =>
        refine ⟨hc, τ, fun v hv => h2 v (by simpa using hv), fun v hv => h1 v (by simpa using hv), ?_⟩
        exact (causes_demandsAny I b q as es τ).1 ⟨e, he, h3⟩
    · rintro ⟨hc, τ, h2, h1, h3⟩
      obtain ⟨e, he, h3⟩ := (causes_demandsAny I b q as es τ).2 h3
      exact .univ _ _ _ e _ τ _ _ hc he (fun v hv => h1 v (by simpa using hv)) (fun v hv => h2 v (by simpa using hv)) h3
theorem causes_demandsAny (I : Interp String) (b : Bool) (q : String) (as : List String) : ∀ (es : List Effect) (σ : Asg String),
    (∃ e ∈ es, Causes I b e σ q as) ↔ DemandsAny I es σ (changeOf b q as)
  | [], σ => by simp [DemandsAny]
  | e :: es, σ => by
    simp only [DemandsAny, List.mem_cons, exists_eq_or_imp]
    rw [causes_demands I b q as e σ, causes_demandsAny I b q as es σ]
end

/-- Effects that demand the same changes one by one cause the same changes. -/
theorem causes_same {I : Interp String} {σ τ : Asg String} {es es' : List Effect}
    (h : List.Forall₂ (fun e e' => ∀ ch, Demands I e σ ch ↔ Demands I e' τ ch) es es') (b : Bool) (q : String) (as : List String) :
    (∃ e ∈ es, Causes I b e σ q as) ↔ ∃ e ∈ es', Causes I b e τ q as := by
  induction h with
  | nil => simp
  | cons h1 _ ih =>
    simp only [List.mem_cons, exists_eq_or_imp, ih]
    rw [causes_demands, causes_demands, h1]

/-- The two instances of actions can be applied in the same states and have the same effects. -/
def SameInstance (I : Interp String) (a : Schema) (σ : Asg String) (a' : Schema) (τ : Asg String) : Prop :=
  a.params.map σ = a'.params.map τ ∧ (ApplicableIn I a σ ↔ ApplicableIn I a' τ) ∧
    ∀ b q as, (∃ e ∈ a.effs, Causes I b e σ q as) ↔ ∃ e ∈ a'.effs, Causes I b e τ q as

theorem run_transfer {X X' : LPInput} {R : CmpRel} (hd : ∀ S, stateInterp X'.dom R S = stateInterp X.dom R S)
    (ha : ∀ n a, (n, a) ∈ X.actions → ∀ S σ, ∃ a' τ, (n, a') ∈ X'.actions ∧ SameInstance (stateInterp X.dom R S) a σ a' τ)
    {S S' : PState} {steps : List (String × List String)} (h : LiftedRun X R S steps S') : LiftedRun X' R S steps S' := by
  induction h with
  | nil S => exact .nil S
  | cons S S1 S2 n a σ rest hm happ hS _ ih =>
    obtain ⟨a', τ, hm', h1, h2, h3⟩ := ha n a hm S σ
    rw [h1]
    refine .cons S S1 S2 n a' τ rest hm' ?_ ?_ ih
    · rw [hd]; exact h2.1 happ
    · intro q as
      rw [hd, hS q as, h3, h3]

theorem allSorts_same {D D' : PDecls} (h : SameDecls D D') : D'.allSorts = D.allSorts := by
  have : D'.numeric = D.numeric := by simp only [PDecls.numeric, h.arithmetic, h.special]
  unfold PDecls.allSorts
  rw [this, h.sorts]

theorem sort_same {D D' : PDecls} (h : SameDecls D D') : D'.sort = D.sort := by
  funext s
  simp only [PDecls.sort, allSorts_same h]

theorem dom_same {D D' : PDecls} (h : SameDecls D D') (R : CmpRel) (S : PState) : stateInterp D'.listDomain R S = stateInterp D.listDomain R S := by
  have hb : ∀ s, D'.bounds s = D.bounds s := fun s => by simp only [PDecls.bounds, sort_same h]
  have hs : D'.isSub = D.isSub := by
    funext s t
    simp only [PDecls.isSub, sort_same h, allSorts_same h]
  have key : OfSort D'.listDomain = OfSort D.listDomain := by
    funext s d
    apply propext
    simp only [OfSort, PDecls.listDomain, hb]
    split
    · constructor
      · rintro ⟨cs, n, so, e, hm, hn⟩
        cases e
        refine ⟨_, n, so, rfl, ?_, hn⟩
        simp only [List.mem_map, List.mem_filter, hs] at hm ⊢
        obtain ⟨c, ⟨hc, h2⟩, h3⟩ := hm
        exact ⟨c, ⟨h.consts.mem_iff.1 hc, h2⟩, h3⟩
      · rintro ⟨cs, n, so, e, hm, hn⟩
        cases e
        refine ⟨_, n, so, rfl, ?_, hn⟩
        simp only [List.mem_map, List.mem_filter, hs] at hm ⊢
        obtain ⟨c, ⟨hc, h2⟩, h3⟩ := hm
        exact ⟨c, ⟨h.consts.mem_iff.2 hc, h2⟩, h3⟩
    · exact Iff.rfl
  simp only [stateInterp, key]

theorem sameAction_instance {a a' : PAction} {cost : Option Term} (h : SameAction a cost a') {I : Interp String} (hI : EqMeaning I) {σ τ : Asg String}
    (hst : ∀ v ∈ a.params, σ v = τ (pvar v)) : SameInstance I ⟨a.params, a.pre, a.effs⟩ σ ⟨a'.params, a'.pre, a'.effs⟩ τ := by
  obtain ⟨-, hp, h⟩ := h
  obtain ⟨h1, h2, -⟩ := h String I hI σ τ hst
  refine ⟨?_, ?_, fun b q as => causes_same h2 b q as⟩
  · rw [hp, List.map_map]
    exact List.map_congr_left hst
  · have hps : ∀ v, (pvar v).sort = v.sort := fun _ => rfl
    simp only [ApplicableIn, hp, h1, List.mem_map, forall_exists_index, and_imp, forall_apply_eq_imp_iff₂, hps]
    refine and_congr_left fun _ => forall_congr' fun v => forall_congr' fun hv => ?_
    rw [hst v hv]

theorem forall₂_left {α β} {P : α → β → Prop} {l : List α} {l' : List β} (h : List.Forall₂ P l l') : ∀ a ∈ l, ∃ b ∈ l', P a b := by
  induction h with
  | nil => simp
  | cons h _ ih =>
    intro a ha
    rcases List.mem_cons.1 ha with rfl | ha
    · exact ⟨_, by simp, h⟩
    · obtain ⟨b, hb, hp⟩ := ih a ha
      exact ⟨b, by simp [hb], hp⟩

theorem forall₂_right {α β} {P : α → β → Prop} {l : List α} {l' : List β} (h : List.Forall₂ P l l') : ∀ b ∈ l', ∃ a ∈ l, P a b := by
  induction h with
  | nil => simp
  | cons h _ ih =>
    intro a ha
    rcases List.mem_cons.1 ha with rfl | ha
    · exact ⟨_, by simp, h⟩
    · obtain ⟨b, hb, hp⟩ := ih a ha
      exact ⟨b, by simp [hb], hp⟩

theorem map_inj_of_nodup {α β} {f : α → β} {l : List α} (h : (l.map f).Nodup) {a b : α} (ha : a ∈ l) (hb : b ∈ l) (e : f a = f b) : a = b :=
  List.inj_on_of_nodup_map h ha hb e

/-! ### Theorems -/

/-- C131: two problems that are the same but for the names of variables and the order of the constants have the same initial states, the same runs and the
same plans, for every order of numbers `R`. -/
theorem C131_same_plans (p p' : PProblem) (h : SameProblem p p') (hn : ∀ a ∈ p.actions, (a.params.map pvar).Nodup) (R : CmpRel) :
    (∀ S, Represents p'.lang.mlang p'.init S ↔ Represents p.lang.mlang p.init S) ∧
    (∀ S steps S', LiftedRun (lpInputOf p' []) R S steps S' ↔ LiftedRun (lpInputOf p []) R S steps S') ∧
    ∀ steps S, PlanTo p' R steps S ↔ PlanTo p R steps S := by
  have hrep : ∀ S, Represents p'.lang.mlang p'.init S ↔ Represents p.lang.mlang p.init S := fun S => by simp only [Represents, h.holds]
  have hd : ∀ S, stateInterp (lpInputOf p' []).dom R S = stateInterp (lpInputOf p []).dom R S := fun S => dom_same h.lang R S
  have hrun : ∀ S steps S', LiftedRun (lpInputOf p' []) R S steps S' ↔ LiftedRun (lpInputOf p []) R S steps S' := by
    intro S steps S'
    constructor
    · refine run_transfer (fun S => (hd S).symm) ?_
      intro n x hx T τ
      obtain ⟨a', ha', e⟩ := List.mem_map.1 hx
      obtain ⟨rfl, rfl⟩ := Prod.mk.inj e
      obtain ⟨a, ha, hs⟩ := forall₂_right h.actions a' ha'
      have := sameAction_instance hs (eqMeaning_state (lpInputOf p' []).dom R T) (σ := fun v => τ (pvar v)) (τ := τ) (fun _ _ => rfl)
      refine ⟨⟨a.params, a.pre, a.effs⟩, fun v => τ (pvar v), List.mem_map.2 ⟨a, ha, by rw [hs.1]⟩, this.1.symm, this.2.1.symm, fun b q as => (this.2.2 b q as).symm⟩
    · refine run_transfer hd ?_
      intro n x hx T σ
      obtain ⟨a, ha, e⟩ := List.mem_map.1 hx
      obtain ⟨rfl, rfl⟩ := Prod.mk.inj e
      obtain ⟨a', ha', hs⟩ := forall₂_left h.actions a ha
      have hτ : ∃ τ : Asg String, ∀ v ∈ a.params, σ v = τ (pvar v) := by
        classical
        refine ⟨fun w => if hw : ∃ v ∈ a.params, pvar v = w then σ hw.choose else "", fun v hv => ?_⟩
        have hw : ∃ u ∈ a.params, pvar u = pvar v := ⟨v, hv, rfl⟩
        simp only [dif_pos hw]
        rw [map_inj_of_nodup (hn a ha) hw.choose_spec.1 hv hw.choose_spec.2]
      obtain ⟨τ, hτ⟩ := hτ
      have := sameAction_instance hs (eqMeaning_state (lpInputOf p []).dom R T) hτ
      exact ⟨⟨a'.params, a'.pre, a'.effs⟩, τ, List.mem_map.2 ⟨a', ha', by rw [hs.1]⟩, this⟩
  refine ⟨hrep, hrun, fun steps S => ?_⟩
  obtain ⟨g, g', hg, hg', hgoal⟩ := h.goal
  have hsat : (∀ σ, Sat (stateInterp p'.lang.listDomain R S) g' σ) ↔ ∀ σ, Sat (stateInterp p.lang.listDomain R S) g σ := by
    rw [dom_same h.lang R S]
    have := hgoal String _ (eqMeaning_state p.lang.listDomain R S)
    exact ⟨fun k σ => (this σ σ).2 (k σ), fun k σ => (this σ σ).1 (k σ)⟩
  constructor
  · rintro ⟨S₀, g1, h1, h2, h3, h4⟩
    rw [hg'] at h3
    cases h3
    exact ⟨S₀, g, (hrep _).1 h1, (hrun _ _ _).1 h2, hg, hsat.1 h4⟩
  · rintro ⟨S₀, g1, h1, h2, h3, h4⟩
    rw [hg] at h3
    cases h3
    exact ⟨S₀, g', (hrep _).2 h1, (hrun _ _ _).2 h2, hg', hsat.2 h4⟩

theorem okParams_nodup {p : PProblem} {dom : List (Name × String)} (h : OkProblem p dom) (a : PAction) (ha : a ∈ p.actions) : (a.params.map pvar).Nodup := by
  have := (h.domain.actions a ha).params.2
  simp only [List.nil_append] at this
  refine List.Nodup.of_map Var.sym ?_
  rw [List.map_map]
  exact this

/-- C131: a problem that can be written in PDDL (`OkProblem`, as in C55) is written, whatever constants are in the domain file and whatever the order of the
requirements, to two files from which a problem with the same plans is read. -/
theorem C131_written (p : PProblem) (dom : List (Name × String)) (rs : List Text) (h : OkProblem p dom) (hrs : rs.Perm p.lang.requirements) :
    ∃ domain inst p', printDomain p rs dom = .ok domain ∧ printInstance p dom = .ok inst ∧ readProblemFiles false p.lang.bare domain inst = .ok p' ∧
      ∀ R steps S, PlanTo p' R steps S ↔ PlanTo p R steps S := by
  obtain ⟨domain, inst, p', h1, h2, h3, h4⟩ := C55_problem_round_trip_partial p dom rs h hrs
  exact ⟨domain, inst, p', h1, h2, by rw [readProblemFiles_eq]; exact h3, fun R => (C131_same_plans p p' h4 (okParams_nodup h) R).2.2⟩

/-- C131: whatever two files the reader accepts, if they make no use of numbers and functions, the problem can be written, and the written files have the same
plans as the files that were read. -/
theorem C131_files (ci : Bool) (D0 : PDecls) (h1 : D0.sorts = []) (h2 : D0.consts = []) (h3 : D0.preds = []) (h4 : D0.funs = [])
    (dom inst : Text) (p : PProblem) (h : readProblemFiles ci D0 dom inst = .ok p) (A : AgainProblem p)
    (rs : List Text) (hrs : rs.Perm p.lang.requirements) :
    ∃ domain instance' p', printDomain p rs p.lang.consts = .ok domain ∧ printInstance p p.lang.consts = .ok instance' ∧
      readProblemFiles false p.lang.bare domain instance' = .ok p' ∧ ∀ R steps S, PlanTo p' R steps S ↔ PlanTo p R steps S := by
  obtain ⟨W, ⟨d, hd, hb⟩ | hi⟩ := readFiles_ok (wellDeclared_bare h1 h2 h3 h4) h
  · rw [(A.sorts d hd).1] at hb; cases hb
  · exact C131_written p p.lang.consts rs (again_problem W A hi) hrs

/-! ### Examples -/

theorem flipProblem_plan_to : PlanTo flipProblem eqCmpRel [("flip", ["b-1"])] flipAfter :=
  ⟨flipBefore, _, flipProblem_before, flipProblem_plan, rfl, fun σ => by
    simp [neg, Sat, SatAll, evalTs, evalT, Const.toTerm, stateInterp, flipObj, flipAfter, nameText]⟩

/-- The files of `Props/TaskPlan.lean` meet the hypotheses, and the files that are written have the plan as well. -/
example : ∃ domain inst p', printDomain flipProblem flipProblem.lang.requirements flipProblem.lang.consts = .ok domain ∧
    printInstance flipProblem flipProblem.lang.consts = .ok inst ∧ readProblemFiles false flipProblem.lang.bare domain inst = .ok p' ∧
    PlanTo p' eqCmpRel [("flip", ["b-1"])] flipAfter := by
  obtain ⟨d, i, p', h1, h2, h3, h4⟩ := C131_files false bareLang rfl rfl rfl rfl _ _ _ flip_read flipProblem_again _ (List.Perm.refl _)
  exact ⟨d, i, p', h1, h2, h3, (h4 _ _ _).2 flipProblem_plan_to⟩

end Tarski

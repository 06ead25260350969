import Verif.Registries
import Verif.ModelTextLemmas
import Mathlib.Tactic.Common
import Mathlib.Data.List.Nodup
/-! C85: what a problem registers under a name. -/
namespace Tarski

/-! ### Specification -/

/-- The actions that a history defines, in order; likewise below. -/
def actionsOf (h : List RegOp) : List PAction := h.filterMap fun o => match o with | .action a => some a | _ => none
def derivedOf (h : List RegOp) : List Derived := h.filterMap fun o => match o with | .derived a => some a | _ => none
def reactionsOf (h : List RegOp) : List Reaction := h.filterMap fun o => match o with | .reaction a => some a | _ => none
def odesOf (h : List RegOp) : List DiffConstraint := h.filterMap fun o => match o with | .ode a => some a | _ => none
def sensorsOf (h : List RegOp) : List Sensor := h.filterMap fun o => match o with | .sensor a => some a | _ => none

/-- The predicate is declared, and the parameters have exactly its sorts. -/
def DerivedOK (psorts : String → Option (List String)) (d : Derived) : Prop := psorts d.name = some (d.params.map Var.sort)

/-- The observation is an atom or the negation of an atom. -/
def SensorOK (s : Sensor) : Prop :=
  (∃ p ts, s.obs = .atom p ts) ∨ ∃ k p ts rest, s.obs = .comp k .not (.atom p ts :: rest)

/-- The variate is a compound term. -/
def OdeOK (d : DiffConstraint) : Prop := ∃ f ts, d.variate = .app f ts

instance (psorts) : DecidablePred (DerivedOK psorts) := fun d => inferInstanceAs (Decidable (_ = _))

instance : DecidablePred SensorOK := fun s =>
  match h : s.obs with
  | .atom p ts => isTrue (.inl ⟨p, ts, h⟩)
  | .comp k .not (.atom p ts :: r) => isTrue (.inr ⟨k, p, ts, r, h⟩)
  | .top | .bot | .quant .. | .comp _ .and _ | .comp _ .or _ | .comp _ .not [] | .comp _ .not (.top :: _)
  | .comp _ .not (.bot :: _) | .comp _ .not (.quant .. :: _) | .comp _ .not (.comp .. :: _) =>
    isFalse (by rintro (⟨p, ts, e⟩ | ⟨k, p, ts, r, e⟩) <;> rw [h] at e <;> cases e)

instance : DecidablePred OdeOK := fun d =>
  match h : d.variate with
  | .app f ts => isTrue ⟨f, ts, h⟩
  | .var _ | .const .. | .ite .. => isFalse (by rintro ⟨f, ts, e⟩; rw [h] at e; cases e)

/-- What a lookup gives: the first definition that satisfies `ok`, or the error `e`. -/
def firstDefinition {α} (ok : α → Bool) (nm : α → String) (e : Err) (n : String) (defs : List α) : Except Err α :=
  match (defs.filter ok).find? (fun a => nm a = n) with
  | some a => .ok a
  | none => .error e

/-! ### Proof -/

theorem derivedSorts_iff (ss : List String) (vs : List Var) (hl : vs.length = ss.length) :
    derivedSorts ss vs = .ok () ↔ ss = vs.map Var.sort := by
  induction ss generalizing vs with
  | nil => cases vs with
    | nil => simp [derivedSorts]
    | cons => simp at hl
  | cons s ss ih => cases vs with
    | nil => simp at hl
    | cons v vs =>
      simp only [List.length_cons, Nat.add_right_cancel_iff] at hl
      simp only [derivedSorts, List.map_cons, List.cons.injEq]
      by_cases e : s = v.sort
      · simp [e, ih vs hl]
      · simp [e]

theorem mkDerived_cases (psorts) (d : Derived) :
    (DerivedOK psorts d ∧ mkDerived psorts d = .ok d) ∨ (¬ DerivedOK psorts d ∧ ∃ e, mkDerived psorts d = .error e) := by
  unfold mkDerived DerivedOK
  cases h : psorts d.name with
  | none => right; simp
  | some ss =>
    by_cases hl : d.params.length = ss.length
    · cases hd : derivedSorts ss d.params with
      | ok u =>
        left
        have := (derivedSorts_iff ss d.params hl).mp hd
        refine ⟨congrArg some this, ?_⟩
        dsimp only
        rw [if_neg (by simpa using hl), hd]
      | error e =>
        right
        refine ⟨fun e' => ?_, e, by dsimp only; rw [if_neg (by simpa using hl), hd]⟩
        rw [(derivedSorts_iff ss d.params hl).mpr (by simpa using e')] at hd
        cases hd
    · right
      refine ⟨fun e' => hl ?_, .semantic, by simp [hl]⟩
      have := Option.some.inj e'
      simp [this]

theorem mkSensor_cases (s : Sensor) :
    (SensorOK s ∧ mkSensor s = .ok s) ∨ (¬ SensorOK s ∧ ∃ e, mkSensor s = .error e) := by
  unfold mkSensor
  split
  · rename_i p ts h; exact .inl ⟨.inl ⟨p, ts, h⟩, rfl⟩
  · rename_i k p ts r h; exact .inl ⟨.inr ⟨k, p, ts, r, h⟩, rfl⟩
  · rename_i h1 h2
    refine .inr ⟨?_, _, rfl⟩
    rintro (⟨p, ts, e⟩ | ⟨k, p, ts, r, e⟩)
    · exact h1 _ _ e
    · exact h2 _ _ _ _ e

theorem mkDiffConstraint_cases (d : DiffConstraint) :
    (OdeOK d ∧ mkDiffConstraint d = .ok d) ∨ (¬ OdeOK d ∧ ∃ e, mkDiffConstraint d = .error e) := by
  unfold mkDiffConstraint
  split
  · rename_i f ts h; exact .inl ⟨⟨f, ts, h⟩, rfl⟩
  · rename_i h1
    refine .inr ⟨?_, _, rfl⟩
    rintro ⟨f, ts, e⟩
    exact h1 _ _ e

/-- A table filled by first-come-first-served. -/
def regAll {α} (ok : α → Bool) (nm : α → String) (t : List (String × α)) : List α → List (String × α)
  | [] => t
  | a :: as => regAll ok nm (if (dlookup t (nm a)).isNone && ok a then dinsert t (nm a) a else t) as

theorem regAll_lookup {α} (ok : α → Bool) (nm : α → String) (as : List α) (t : List (String × α)) (n : String) :
    dlookup (regAll ok nm t as) n = (dlookup t n).or ((as.filter ok).find? (fun a => nm a = n)) := by
  induction as generalizing t with
  | nil => simp [regAll]
  | cons a as ih =>
    rw [regAll, ih]
    by_cases ho : ok a = true
    · rw [List.filter_cons_of_pos ho, List.find?_cons]
      by_cases hn : nm a = n
      · subst hn
        cases hd : dlookup t (nm a) with
        | none => simp [ho, dlookup_dinsert]
        | some b => simp [hd]
      · cases hd : dlookup t (nm a) <;> simp [ho, hn, dlookup_dinsert]
    · simp [ho]

theorem dinsert_at_end {α} (t : List (String × α)) (n : String) (a : α) (h : dlookup t n = none) :
    dinsert t n a = t ++ [(n, a)] := by
  induction t with
  | nil => rfl
  | cons x t ih =>
    obtain ⟨k, v⟩ := x
    simp only [dlookup] at h
    split at h
    · cases h
    · rename_i hk
      simp [dinsert, hk, ih h]

theorem regAll_sublist {α} (ok : α → Bool) (nm : α → String) (as : List α) (t : List (String × α)) :
    ∃ bs : List α, regAll ok nm t as = t ++ bs.map (fun a => (nm a, a)) ∧ bs.Sublist (as.filter ok) := by
  induction as generalizing t with
  | nil => exact ⟨[], by simp [regAll], by simp⟩
  | cons a as ih =>
    rw [regAll]
    by_cases hc : ((dlookup t (nm a)).isNone && ok a) = true
    · rw [if_pos hc]
      simp only [Bool.and_eq_true, Option.isNone_iff_eq_none] at hc
      obtain ⟨bs, h1, h2⟩ := ih (dinsert t (nm a) a)
      refine ⟨a :: bs, ?_, ?_⟩
      · rw [h1, dinsert_at_end t _ a hc.1]; simp
      · rw [List.filter_cons_of_pos hc.2]; exact h2.cons_cons a
    · rw [if_neg hc]
      obtain ⟨bs, h1, h2⟩ := ih t
      refine ⟨bs, h1, h2.trans ?_⟩
      exact (List.sublist_cons_self a as).filter ok

theorem regAll_nodup {α} (ok : α → Bool) (nm : α → String) (as : List α) (t : List (String × α))
    (h : (t.map Prod.fst).Nodup) : ((regAll ok nm t as).map Prod.fst).Nodup := by
  induction as generalizing t with
  | nil => exact h
  | cons a as ih =>
    rw [regAll]; apply ih
    split
    · exact nodup_dinsert h
    · exact h

theorem run_append (psorts) (g : Registry) (h k : List RegOp) :
    Registry.run psorts g (h ++ k) = Registry.run psorts (Registry.run psorts g h) k := by
  induction h generalizing g with
  | nil => rfl
  | cons o h ih => exact ih _

theorem run_tables (psorts) (h : List RegOp) (g : Registry) :
    (Registry.run psorts g h).actions = regAll (fun _ => true) PAction.name g.actions (actionsOf h) ∧
    (Registry.run psorts g h).derived = regAll (fun d => decide (DerivedOK psorts d)) Derived.name g.derived (derivedOf h) ∧
    (Registry.run psorts g h).reactions = regAll (fun _ => true) Reaction.name g.reactions (reactionsOf h) ∧
    (Registry.run psorts g h).sensors = regAll (fun s => decide (SensorOK s)) Sensor.name g.sensors (sensorsOf h) := by
  induction h generalizing g with
  | nil => exact ⟨rfl, rfl, rfl, rfl⟩
  | cons o h ih =>
    obtain ⟨i1, i2, i3, i4⟩ := ih (g.step psorts o).1
    simp only [Registry.run]
    rw [i1, i2, i3, i4]
    cases o with
    | action a =>
      simp only [Registry.step, Registry.addAction, actionsOf, derivedOf, reactionsOf, sensorsOf, List.filterMap_cons, regAll]
      cases hd : dlookup g.actions a.name <;> simp
    | derived d =>
      simp only [Registry.step, Registry.addDerived, actionsOf, derivedOf, reactionsOf, sensorsOf, List.filterMap_cons, regAll]
      cases hd : dlookup g.derived d.name with
      | some _ => simp
      | none =>
        rcases mkDerived_cases psorts d with ⟨h1, h2⟩ | ⟨h1, e, h2⟩ <;> simp [h1, h2]
    | reaction r =>
      simp only [Registry.step, Registry.addReaction, actionsOf, derivedOf, reactionsOf, sensorsOf, List.filterMap_cons, regAll]
      cases hd : dlookup g.reactions r.name <;> simp
    | ode d =>
      simp only [Registry.step, Registry.addOde, actionsOf, derivedOf, reactionsOf, sensorsOf, List.filterMap_cons]
      cases hd : dlookup g.reactions d.name with
      | some _ => simp
      | none =>
        rcases mkDiffConstraint_cases d with ⟨h1, h2⟩ | ⟨h1, e, h2⟩ <;> simp [h2]
    | sensor s =>
      simp only [Registry.step, Registry.addSensor, actionsOf, derivedOf, reactionsOf, sensorsOf, List.filterMap_cons, regAll]
      cases hd : dlookup g.sensors s.name with
      | some _ => simp
      | none =>
        rcases mkSensor_cases s with ⟨h1, h2⟩ | ⟨h1, e, h2⟩ <;> simp [h1, h2]

/-! ### Theorems -/

/-- C85: after any sequence of calls, failed ones included, looking a name up gives the *first* definition of that name, and
the lookup raises exactly when there is none. An ill-formed derived predicate or sensor counts as no definition. -/
theorem C85_lookup (psorts : String → Option (List String)) (h : List RegOp) (n : String) :
    (Registry.run psorts .empty h).getAction n = firstDefinition (fun _ => true) PAction.name .undefinedTerm n (actionsOf h) ∧
    (Registry.run psorts .empty h).getReaction n =
      firstDefinition (fun _ => true) Reaction.name .undefinedTerm n (reactionsOf h) ∧
    (Registry.run psorts .empty h).getDerived n =
      firstDefinition (fun d => decide (DerivedOK psorts d)) Derived.name .keyError n (derivedOf h) ∧
    (Registry.run psorts .empty h).getSensor n =
      firstDefinition (fun s => decide (SensorOK s)) Sensor.name .undefinedTerm n (sensorsOf h) := by
  obtain ⟨i1, i2, i3, i4⟩ := run_tables psorts h .empty
  refine ⟨?_, ?_, ?_, ?_⟩
  · rw [Registry.getAction, firstDefinition, i1, regAll_lookup]
    cases (List.filter (fun _ => true) (actionsOf h)).find? (fun a => a.name = n) <;> rfl
  · rw [Registry.getReaction, firstDefinition, i3, regAll_lookup]
    cases (List.filter (fun _ => true) (reactionsOf h)).find? (fun a => a.name = n) <;> rfl
  · rw [Registry.getDerived, firstDefinition, i2, regAll_lookup]
    cases (List.filter (fun d => decide (DerivedOK psorts d)) (derivedOf h)).find? (fun a => a.name = n) <;> rfl
  · rw [Registry.getSensor, firstDefinition, i4, regAll_lookup]
    cases (List.filter (fun s => decide (SensorOK s)) (sensorsOf h)).find? (fun a => a.name = n) <;> rfl

/-- C85: a table lists every name once, and lists what it holds in the order in which it was defined. -/
theorem C85_listed (psorts : String → Option (List String)) (h : List RegOp) :
    (((Registry.run psorts .empty h).actions.map Prod.fst).Nodup ∧
      ((Registry.run psorts .empty h).actions.map Prod.snd).Sublist (actionsOf h)) ∧
    (((Registry.run psorts .empty h).reactions.map Prod.fst).Nodup ∧
      ((Registry.run psorts .empty h).reactions.map Prod.snd).Sublist (reactionsOf h)) ∧
    (((Registry.run psorts .empty h).derived.map Prod.fst).Nodup ∧
      ((Registry.run psorts .empty h).derived.map Prod.snd).Sublist (derivedOf h)) ∧
    (((Registry.run psorts .empty h).sensors.map Prod.fst).Nodup ∧
      ((Registry.run psorts .empty h).sensors.map Prod.snd).Sublist (sensorsOf h)) := by
  obtain ⟨i1, i2, i3, i4⟩ := run_tables psorts h .empty
  have key : ∀ {α} (ok : α → Bool) (nm : α → String) (as : List α),
      ((regAll ok nm [] as).map Prod.fst).Nodup ∧ ((regAll ok nm [] as).map Prod.snd).Sublist as := by
    intro α ok nm as
    refine ⟨regAll_nodup ok nm as [] (by simp), ?_⟩
    obtain ⟨bs, h1, h2⟩ := regAll_sublist ok nm as []
    rw [h1]
    simp only [List.nil_append, List.map_map]
    have : (Prod.snd ∘ fun a => (nm a, a)) = id := rfl
    rw [this, List.map_id]
    exact h2.trans List.filter_sublist
  rw [i1, i2, i3, i4]
  exact ⟨key _ _ _, key _ _ _, key _ _ _, key _ _ _⟩

/-- C85: a call that raises changes nothing. -/
theorem C85_failed (psorts : String → Option (List String)) (g : Registry) (o : RegOp)
    (h : (g.step psorts o).2 ≠ none) : (g.step psorts o).1 = g := by
  cases o with
  | action a =>
    simp only [Registry.step, Registry.addAction] at h ⊢
    split at h <;> simp_all
  | derived d =>
    simp only [Registry.step, Registry.addDerived] at h ⊢
    split at h
    · simp_all
    · split at h <;> simp_all
  | reaction r =>
    simp only [Registry.step, Registry.addReaction] at h ⊢
    split at h <;> simp_all
  | ode d =>
    simp only [Registry.step, Registry.addOde] at h ⊢
    split at h
    · simp_all
    · split at h <;> simp_all
  | sensor s =>
    simp only [Registry.step, Registry.addSensor] at h ⊢
    split at h
    · simp_all
    · split at h <;> simp_all

theorem find_none_iff {α} (ok : α → Bool) (nm : α → String) (as : List α) (n : String) :
    (dlookup (regAll ok nm [] as) n = none) ↔ ¬ ∃ a ∈ as, ok a = true ∧ nm a = n := by
  rw [regAll_lookup]
  simp [dlookup]

/-- C85: a definition is refused exactly when its name already has one, or when it is ill-formed. -/
theorem C85_refused (psorts : String → Option (List String)) (h : List RegOp) :
    (∀ a, ((Registry.run psorts .empty h).step psorts (.action a)).2 ≠ none ↔ ∃ a' ∈ actionsOf h, a'.name = a.name) ∧
    (∀ r, ((Registry.run psorts .empty h).step psorts (.reaction r)).2 ≠ none ↔ ∃ r' ∈ reactionsOf h, r'.name = r.name) ∧
    (∀ d, ((Registry.run psorts .empty h).step psorts (.derived d)).2 ≠ none ↔
      ¬ DerivedOK psorts d ∨ ∃ d' ∈ derivedOf h, DerivedOK psorts d' ∧ d'.name = d.name) ∧
    (∀ s, ((Registry.run psorts .empty h).step psorts (.sensor s)).2 ≠ none ↔
      ¬ SensorOK s ∨ ∃ s' ∈ sensorsOf h, SensorOK s' ∧ s'.name = s.name) := by
  obtain ⟨i1, i2, i3, i4⟩ := run_tables psorts h .empty
  refine ⟨fun a => ?_, fun r => ?_, fun d => ?_, fun s => ?_⟩
  · have := find_none_iff (fun _ => true) PAction.name (actionsOf h) a.name
    simp only [Registry.step, Registry.addAction, i1]
    change _ ↔ _ at this
    cases hd : dlookup (regAll (fun _ => true) PAction.name Registry.empty.actions (actionsOf h)) a.name with
    | none => simpa using this.mp hd
    | some x => by_contra hc; simp_all [Registry.empty]
  · have := find_none_iff (fun _ => true) Reaction.name (reactionsOf h) r.name
    simp only [Registry.step, Registry.addReaction, i3]
    cases hd : dlookup (regAll (fun _ => true) Reaction.name Registry.empty.reactions (reactionsOf h)) r.name with
    | none => simpa using this.mp hd
    | some x => by_contra hc; simp_all [Registry.empty]
  · have := find_none_iff (fun d => decide (DerivedOK psorts d)) Derived.name (derivedOf h) d.name
    simp only [Registry.step, Registry.addDerived, i2]
    cases hd : dlookup (regAll (fun d => decide (DerivedOK psorts d)) Derived.name Registry.empty.derived (derivedOf h)) d.name with
    | none =>
      have hn := this.mp hd
      simp only [decide_eq_true_eq] at hn
      rcases mkDerived_cases psorts d with ⟨h1, h2⟩ | ⟨h1, e, h2⟩
      · simp only [h2, ne_eq, not_true_eq_false, false_iff, not_or, not_not]; exact ⟨h1, hn⟩
      · simp [h1, h2]
    | some x => by_contra hc; simp_all [Registry.empty]
  · have := find_none_iff (fun s => decide (SensorOK s)) Sensor.name (sensorsOf h) s.name
    simp only [Registry.step, Registry.addSensor, i4]
    cases hd : dlookup (regAll (fun s => decide (SensorOK s)) Sensor.name Registry.empty.sensors (sensorsOf h)) s.name with
    | none =>
      have hn := this.mp hd
      simp only [decide_eq_true_eq] at hn
      rcases mkSensor_cases s with ⟨h1, h2⟩ | ⟨h1, e, h2⟩
      · simp only [h2, ne_eq, not_true_eq_false, false_iff, not_or, not_not]; exact ⟨h1, hn⟩
      · simp [h1, h2]
    | some x => by_contra hc; simp_all [Registry.empty]

/-- The call that defines `d`, made after the calls `before`, is accepted: the variate is a compound term, and no reaction
had that name. -/
def OdeAccepted (before : List RegOp) (d : DiffConstraint) : Prop := OdeOK d ∧ ∀ r ∈ reactionsOf before, r.name ≠ d.name

theorem addOde_lookup (psorts) (h : List RegOp) (d : DiffConstraint) (n : String) :
    dlookup ((Registry.run psorts .empty h).step psorts (.ode d)).1.odes n =
      open Classical in if OdeAccepted h d ∧ d.name = n then some d else dlookup (Registry.run psorts .empty h).odes n := by
  obtain ⟨_, _, i3, _⟩ := run_tables psorts h .empty
  have hf := find_none_iff (fun _ => true) Reaction.name (reactionsOf h) d.name
  simp only [Registry.step, Registry.addOde]
  have i3' : (Registry.run psorts .empty h).reactions = regAll (fun _ => true) Reaction.name [] (reactionsOf h) := i3
  rw [i3']
  cases hd : dlookup (regAll (fun _ => true) Reaction.name [] (reactionsOf h)) d.name with
  | some x =>
    have : ¬ OdeAccepted h d := by
      intro ha
      have := hf.mpr (by rintro ⟨r, hr, -, e⟩; exact ha.2 r hr e)
      rw [this] at hd; cases hd
    simp [this]
  | none =>
    have hn := hf.mp hd
    rcases mkDiffConstraint_cases d with ⟨h1, h2⟩ | ⟨h1, e, h2⟩
    · have ha : OdeAccepted h d := ⟨h1, fun r hr e => hn ⟨r, hr, rfl, e⟩⟩
      simp only [h2, dlookup_dinsert, ha, true_and]
    · have : ¬ OdeAccepted h d := fun ha => h1 ha.1
      simp [h2, this]

/-- C85: the differential constraint found under a name is the *last* accepted definition. The property asks for the first
one, like for the other tables. -/
theorem C85_ode_partial (psorts : String → Option (List String)) (h : List RegOp) (n : String) (d : DiffConstraint) :
    (Registry.run psorts .empty h).getOde n = .ok d ↔
      ∃ before after, h = before ++ .ode d :: after ∧ d.name = n ∧ OdeAccepted before d ∧
        ∀ p q d', after = p ++ .ode d' :: q → d'.name = n → ¬ OdeAccepted (before ++ .ode d :: p) d' := by
  have key : dlookup (Registry.run psorts .empty h).odes n = some d ↔
      ∃ before after, h = before ++ .ode d :: after ∧ d.name = n ∧ OdeAccepted before d ∧
        ∀ p q d', after = p ++ .ode d' :: q → d'.name = n → ¬ OdeAccepted (before ++ .ode d :: p) d' := by
    induction h using List.reverseRecOn with
    | nil => simp [Registry.run, Registry.empty, dlookup]
    | append_singleton h o ih =>
      rw [run_append]
      have hsplit : ∀ (P : List RegOp → List RegOp → Prop),
          (∃ before after, h ++ [o] = before ++ .ode d :: after ∧ P before after) ↔
          (o = .ode d ∧ P h []) ∨ ∃ before after, h = before ++ .ode d :: after ∧ P before (after ++ [o]) := by
        intro P
        constructor
        · rintro ⟨b, a, e, hp⟩
          rcases List.eq_nil_or_concat a with rfl | ⟨a', x, rfl⟩
          · obtain ⟨e1, e2⟩ := List.append_inj' e rfl
            subst e1
            simp only [List.cons.injEq, and_true] at e2
            exact .inl ⟨e2, hp⟩
          · have e' : h ++ [o] = (b ++ .ode d :: a') ++ [x] := by simpa using e
            obtain ⟨e1, e2⟩ := List.append_inj' e' rfl
            simp only [List.cons.injEq, and_true] at e2
            subst e2
            exact .inr ⟨b, a', e1, by simpa using hp⟩
        · rintro (⟨rfl, hp⟩ | ⟨b, a, rfl, hp⟩)
          · exact ⟨h, [], rfl, hp⟩
          · exact ⟨b, a ++ [o], by simp, hp⟩
      rw [hsplit fun b a => d.name = n ∧ OdeAccepted b d ∧
        ∀ (p q : List RegOp) (d' : DiffConstraint), a = p ++ RegOp.ode d' :: q → d'.name = n →
          ¬ OdeAccepted (b ++ RegOp.ode d :: p) d']
      by_cases ho : ∃ d', o = .ode d'
      · obtain ⟨d', rfl⟩ := ho
        show dlookup ((Registry.run psorts .empty h).step psorts (.ode d')).1.odes n = some d ↔ _
        rw [addOde_lookup]
        by_cases hc : OdeAccepted h d' ∧ d'.name = n
        · rw [if_pos hc]
          constructor
          · rintro ⟨⟩
            exact .inl ⟨rfl, hc.2, hc.1, by intro p q d' e; simp at e⟩
          · rintro (⟨e, -⟩ | ⟨b, a, rfl, -, -, hl⟩)
            · cases e; rfl
            · exact absurd hc.1 (hl a [] d' rfl hc.2)
        · rw [if_neg hc, ih]
          constructor
          · rintro ⟨b, a, rfl, h1, h2, h3⟩
            refine .inr ⟨b, a, rfl, h1, h2, ?_⟩
            intro p q x e hx
            rcases List.eq_nil_or_concat q with rfl | ⟨q', y, rfl⟩
            · obtain ⟨e1, e2⟩ := List.append_inj' (by simpa using e : a ++ [RegOp.ode d'] = p ++ [.ode x]) rfl
              subst e1
              simp only [List.cons.injEq, RegOp.ode.injEq, and_true] at e2
              subst e2
              exact fun ha => hc ⟨ha, hx⟩
            · obtain ⟨e1, e2⟩ := List.append_inj' (by simpa using e : a ++ [RegOp.ode d'] = (p ++ .ode x :: q') ++ [y]) rfl
              exact h3 p q' x e1 hx
          · rintro (⟨e, h1, h2, -⟩ | ⟨b, a, rfl, h1, h2, h3⟩)
            · cases e; exact absurd ⟨h2, h1⟩ hc
            · exact ⟨b, a, rfl, h1, h2, fun p q x e hx => h3 p (q ++ [.ode d']) x (by rw [e]; simp) hx⟩
      · have hsame : dlookup (Registry.run psorts (Registry.run psorts .empty h) [o]).odes n =
            dlookup (Registry.run psorts .empty h).odes n := by
          simp only [Registry.run]
          cases o with
          | ode d' => exact absurd ⟨d', rfl⟩ ho
          | action a => simp only [Registry.step, Registry.addAction]; split <;> rfl
          | derived a =>
            simp only [Registry.step, Registry.addDerived]
            split
            · rfl
            · split <;> rfl
          | reaction a => simp only [Registry.step, Registry.addReaction]; split <;> rfl
          | sensor a =>
            simp only [Registry.step, Registry.addSensor]
            split
            · rfl
            · split <;> rfl
        rw [hsame, ih]
        constructor
        · rintro ⟨b, a, rfl, h1, h2, h3⟩
          refine .inr ⟨b, a, rfl, h1, h2, ?_⟩
          intro p q x e hx
          rcases List.eq_nil_or_concat q with rfl | ⟨q', y, rfl⟩
          · obtain ⟨e1, e2⟩ := List.append_inj' (by simpa using e : a ++ [o] = p ++ [.ode x]) rfl
            simp only [List.cons.injEq, and_true] at e2
            exact absurd ⟨x, e2⟩ ho
          · obtain ⟨e1, e2⟩ := List.append_inj' (by simpa using e : a ++ [o] = (p ++ .ode x :: q') ++ [y]) rfl
            exact h3 p q' x e1 hx
        · rintro (⟨e, -⟩ | ⟨b, a, rfl, h1, h2, h3⟩)
          · exact absurd ⟨d, e⟩ ho
          · exact ⟨b, a, rfl, h1, h2, fun p q x e hx => h3 p (q ++ [o]) x (by rw [e]; simp) hx⟩
  rw [← key, Registry.getOde]
  cases dlookup (Registry.run psorts .empty h).odes n <;> simp

/-! ### Refutations and concrete cases -/

def someOde (rhs : Int) : DiffConstraint := ⟨"fall", [⟨"?b", "ball"⟩], .top, .app "y" [.var ⟨"?b", "ball"⟩], .const (.int rhs) "Real"⟩
def someReaction : Reaction := ⟨"bounce", [], .top, .add .top (.user "up") []⟩

/-- C85: a second differential constraint with the same name is accepted, and the first one is lost. -/
theorem C85_ode_refuted :
    ∃ (psorts : String → Option (List String)) (d d' : DiffConstraint), d.name = d'.name ∧ d ≠ d' ∧
      (Registry.empty.step psorts (.ode d)).2 = none ∧
      ((Registry.run psorts .empty [.ode d]).step psorts (.ode d')).2 = none ∧
      (Registry.run psorts .empty [.ode d, .ode d']).getOde d.name = .ok d' :=
  ⟨fun _ => none, someOde 1, someOde 2, rfl, by decide, rfl, rfl, rfl⟩

/-- C85: and a differential constraint is refused as a duplicate though no differential constraint has its name: a reaction
has it. In the other order both are accepted. -/
theorem C85_ode_name_refuted :
    ∃ (psorts : String → Option (List String)) (r : Reaction) (d : DiffConstraint), OdeOK d ∧
      ((Registry.run psorts .empty [.reaction r]).step psorts (.ode d)).2 = some .duplicateVariable ∧
      (Registry.empty.step psorts (.ode d)).2 = none ∧
      ((Registry.run psorts .empty [.ode d]).step psorts (.reaction r)).2 = none :=
  ⟨fun _ => none, someReaction, ⟨"bounce", [], .top, .app "y" [], .const (.int 1) "Real"⟩, ⟨_, _, rfl⟩, rfl, rfl, rfl⟩

/-- C85: a differential constraint on a built-in function is accepted (here `x + y`), which the constructor means to
refuse. -/
theorem C85_builtin_variate_refuted :
    ∃ (psorts : String → Option (List String)) (d : DiffConstraint) (ts : List Term), d.variate = .app "+" ts ∧
      "+" ∈ builtinFunctionNames ∧ (Registry.empty.step psorts (.ode d)).2 = none :=
  ⟨fun _ => none, ⟨"sum", [], .top, .app "+" [.app "x" [], .app "y" []], .const (.int 1) "Real"⟩, _, rfl, by decide, rfl⟩

def regSorts : String → Option (List String) := fun n => if n = "above" then some ["block", "block"] else none
def okDerived : Derived := ⟨"above", [⟨"?x", "block"⟩, ⟨"?y", "block"⟩], .top⟩
def badDerived : Derived := ⟨"above", [⟨"?x", "block"⟩, ⟨"?y", "table"⟩], .bot⟩
def okSensor (s : String) : Sensor := ⟨"look", [], .top, .comp .list .not [.atom (.user s) []]⟩
def badSensor : Sensor := ⟨"look", [], .top, .top⟩

/-- An ill-formed definition does not take the name; the second well-formed one is refused. -/
example : (Registry.run regSorts .empty [.derived badDerived, .sensor badSensor, .derived okDerived, .sensor (okSensor "p"),
      .sensor (okSensor "q")]).getDerived "above" = .ok okDerived ∧
    (Registry.run regSorts .empty [.derived badDerived, .sensor badSensor, .derived okDerived, .sensor (okSensor "p"),
      .sensor (okSensor "q")]).getSensor "look" = .ok (okSensor "p") ∧
    ((Registry.run regSorts .empty [.sensor (okSensor "p")]).step regSorts (.sensor (okSensor "q"))).2
      = some .duplicateVariable := ⟨rfl, rfl, rfl⟩

example : DerivedOK regSorts okDerived ∧ ¬ DerivedOK regSorts badDerived ∧ SensorOK (okSensor "p") ∧ ¬ SensorOK badSensor := by
  decide

/-- The errors of the constructor of a derived predicate. -/
example : (Registry.empty.step regSorts (.derived badDerived)).2 = some .attribute ∧
    (Registry.empty.step regSorts (.derived ⟨"above", [], .top⟩)).2 = some .semantic ∧
    (Registry.empty.step regSorts (.derived ⟨"below", [], .top⟩)).2 = some .undefinedTerm := ⟨rfl, rfl, rfl⟩

/-- The hypotheses of `C85_failed`, and both sides of `C85_ode_partial`. -/
example : ((Registry.run regSorts .empty [.reaction someReaction]).step regSorts (.reaction someReaction)).2 ≠ none ∧
    OdeAccepted [.reaction someReaction, .ode (someOde 1)] (someOde 2) :=
  ⟨by decide, ⟨_, _, rfl⟩, by intro r hr; simp [reactionsOf] at hr; subst hr; decide⟩

end Tarski

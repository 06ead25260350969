import Mathlib.Tactic.Common
import Verif.Relaxation
import Verif.Props.Effects
/-! C33: effect conflicts. -/
namespace Tarski

/-- The list contains the unconditional effect `ADD a`. -/
def AddsAtom (es : List Effect) (a : Formula) : Prop := ∃ p ts, a = .atom p ts ∧ Effect.add .top p ts ∈ es
/-- The list contains the unconditional effect `DEL a`. -/
def DelsAtom (es : List Effect) (a : Formula) : Prop := ∃ p ts, a = .atom p ts ∧ Effect.del .top p ts ∈ es
/-- The list consists of unconditional add and delete effects. -/
def UnconditionalAddDel (es : List Effect) : Prop :=
  ∀ e ∈ es, ∃ p ts, e = .add .top p ts ∨ e = .del .top p ts

theorem atomic_cases {e : Effect} (h1 : e.isAtomic = true) {a b} (h2 : e.propositional? = some (a, b)) :
    ∃ p ts, a = .atom p ts ∧ ((b = true ∧ e = .add .top p ts) ∨ (b = false ∧ e = .del .top p ts)) := by
  cases e with
  | add c p ts =>
    simp only [Effect.isAtomic, Effect.cond, beq_iff_eq] at h1
    simp only [Effect.propositional?, Option.some.injEq, Prod.mk.injEq] at h2
    exact ⟨p, ts, h2.1.symm, .inl ⟨h2.2.symm, by rw [h1]⟩⟩
  | del c p ts =>
    simp only [Effect.isAtomic, Effect.cond, beq_iff_eq] at h1
    simp only [Effect.propositional?, Option.some.injEq, Prod.mk.injEq] at h2
    exact ⟨p, ts, h2.1.symm, .inr ⟨h2.2.symm, by rw [h1]⟩⟩
  | lit c l => simp [Effect.propositional?] at h2
  | assign c f ts r => simp [Effect.propositional?] at h2
  | univ c vs es => simp [Effect.propositional?] at h2

/-- Occurrence with a polarity among already processed effects. -/
def Seen (es : List Effect) : Bool → Formula → Prop
  | true, a => AddsAtom es a
  | false, a => DelsAtom es a

theorem seen_snoc {done : List Effect} {e : Effect} {a : Formula} {b : Bool} (h1 : e.isAtomic = true)
    (h2 : e.propositional? = some (a, b)) (b' : Bool) (a' : Formula) :
    Seen (done ++ [e]) b' a' ↔ Seen done b' a' ∨ (b' = b ∧ a' = a) := by
  obtain ⟨p, ts, rfl, ⟨rfl, rfl⟩ | ⟨rfl, rfl⟩⟩ := atomic_cases h1 h2 <;> cases b' <;>
    simp only [Seen, AddsAtom, DelsAtom, List.mem_append, List.mem_singleton, reduceCtorEq, or_false, false_and,
      Effect.add.injEq, Effect.del.injEq, true_and]
  all_goals
    constructor
    · rintro ⟨q, us, rfl, h | ⟨rfl, rfl⟩⟩
      · exact .inl ⟨q, us, rfl, h⟩
      · exact .inr rfl
    · rintro (⟨q, us, rfl, h⟩ | rfl)
      · exact ⟨q, us, rfl, .inl h⟩
      · exact ⟨p, ts, rfl, .inr ⟨rfl, rfl⟩⟩

theorem conflictsLoop_spec : ∀ (es done : List Effect) (pol : List (Formula × Bool)) (conf res : List Formula),
    (∀ a b, dlookup pol a = some b → Seen done b a) → (∀ a, dlookup pol a = none → ∀ b, ¬ Seen done b a) →
    (∀ a, a ∈ conf ↔ Seen done true a ∧ Seen done false a) →
    conflictsLoop pol conf es = .ok res →
    UnconditionalAddDel es ∧ ∀ a, a ∈ res ↔ Seen (done ++ es) true a ∧ Seen (done ++ es) false a
  | [], done, pol, conf, res, _, _, h3, h => by
    simp only [conflictsLoop, Except.ok.injEq] at h
    subst h
    exact ⟨by simp [UnconditionalAddDel], by simpa using h3⟩
  | e :: es, done, pol, conf, res, h1, h2, h3, h => by
    simp only [conflictsLoop] at h
    split at h
    · rename_i hat
      cases hp : e.propositional? with
      | none => simp [hp] at h
      | some ab =>
        obtain ⟨a, b⟩ := ab
        simp only [hp] at h
        have hs := seen_snoc (done := done) hat hp
        have ih := conflictsLoop_spec es (done ++ [e]) _ _ _ ?_ ?_ ?_ h
        · refine ⟨?_, by simpa using ih.2⟩
          intro e' he'
          rcases List.mem_cons.1 he' with rfl | he'
          · obtain ⟨p, ts, _, h | h⟩ := atomic_cases hat hp
            · exact ⟨p, ts, .inl h.2⟩
            · exact ⟨p, ts, .inr h.2⟩
          · exact ih.1 e' he'
        · intro a' b' hl
          rw [dlookup_dinsert] at hl
          rw [hs]
          split at hl
          · rename_i heq
            simp only [Option.some.injEq] at hl
            exact .inr ⟨hl.symm, by simpa using heq.symm⟩
          · exact .inl (h1 a' b' hl)
        · intro a' hl b' hsn
          rw [dlookup_dinsert] at hl
          split at hl
          · simp at hl
          · rename_i hne
            rcases (hs b' a').1 hsn with hsn | ⟨_, rfl⟩
            · exact h2 a' hl b' hsn
            · exact hne rfl
        · intro a'
          rw [hs, hs]
          have key : ∀ b0, dlookup pol a = some b0 → Seen done b0 a := fun b0 => h1 a b0
          cases hd : dlookup pol a with
          | none =>
            have hno := h2 a hd
            simp only [h3]
            constructor
            · rintro ⟨x, y⟩; exact ⟨.inl x, .inl y⟩
            · rintro ⟨x | ⟨x, ex⟩, y | ⟨y, ey⟩⟩
              · exact ⟨x, y⟩
              · exact absurd (ey ▸ x) (hno _)
              · exact absurd (ex ▸ y) (hno _)
              · rw [← x] at y; simp at y
          | some b0 =>
            have hb0 := h1 a b0 hd
            by_cases hne : b0 = b
            · subst hne
              simp only [ne_eq, not_true_eq_false, if_false, h3]
              constructor
              · rintro ⟨x, y⟩; exact ⟨.inl x, .inl y⟩
              · rintro ⟨x | ⟨x, ex⟩, y | ⟨y, ey⟩⟩
                · exact ⟨x, y⟩
                · subst ey; exact ⟨x, y ▸ hb0⟩
                · subst ex; exact ⟨x ▸ hb0, y⟩
                · rw [← x] at y; simp at y
            · simp only [ne_eq, hne, not_false_eq_true, if_true, mem_ptAdd, h3]
              constructor
              · rintro (rfl | ⟨x, y⟩)
                · cases b <;> cases b0 <;> simp_all
                · exact ⟨.inl x, .inl y⟩
              · rintro ⟨x | ⟨x, ex⟩, y | ⟨y, ey⟩⟩
                · exact .inr ⟨x, y⟩
                · exact .inl ey
                · exact .inl ex
                · exact .inl ex
    · simp at h

theorem conflictsLoop_ok : ∀ (es : List Effect) (pol : List (Formula × Bool)) (conf : List Formula),
    UnconditionalAddDel es → ∃ res, conflictsLoop pol conf es = .ok res
  | [], _, conf, _ => ⟨conf, rfl⟩
  | e :: es, pol, conf, h => by
    have h' : UnconditionalAddDel es := fun e' he' => h e' (by simp [he'])
    obtain ⟨p, ts, rfl | rfl⟩ := h e (by simp) <;>
    · simp only [conflictsLoop, Effect.isAtomic, Effect.cond, beq_self_eq_true, if_true, Effect.propositional?]
      exact conflictsLoop_ok es _ _ h'

/-- C33: if the call returns, the effects are unconditional adds and deletes, and an atom is reported iff the list
contains both an add and a delete of it. -/
theorem C33_conflicts (es : List Effect) (conf : List Formula) (h : effectConflicts es = .ok conf) :
    UnconditionalAddDel es ∧ ∀ a, a ∈ conf ↔ AddsAtom es a ∧ DelsAtom es a := by
  have := conflictsLoop_spec es [] [] [] conf (by simp [dlookup])
    (by intro a _ b; cases b <;> simp [Seen, AddsAtom, DelsAtom]) (by simp [Seen, AddsAtom]) h
  simpa [Seen] using this

/-- C33: the call returns exactly on lists of unconditional add and delete effects. -/
theorem C33_returns (es : List Effect) : (∃ conf, effectConflicts es = .ok conf) ↔ UnconditionalAddDel es :=
  ⟨fun ⟨conf, h⟩ => (C33_conflicts es conf h).1, fun h => conflictsLoop_ok es [] [] h⟩

/-- C33: `is_strips_effect_set` accepts exactly the lists of unconditional add and delete effects in which no atom is
both added and deleted. -/
theorem C33_strips (es : List Effect) :
    isStripsEffectSet es = true ↔ UnconditionalAddDel es ∧ ¬ ∃ a, AddsAtom es a ∧ DelsAtom es a := by
  unfold isStripsEffectSet
  cases h : effectConflicts es with
  | error e =>
    simp only [Bool.false_eq_true, false_iff, not_and]
    intro hu
    obtain ⟨conf, hc⟩ := (C33_returns es).2 hu
    rw [h] at hc; simp at hc
  | ok conf =>
    obtain ⟨h1, h2⟩ := C33_conflicts es conf h
    simp only [beq_iff_eq, List.length_eq_zero_iff]
    constructor
    · rintro rfl
      exact ⟨h1, fun ⟨a, ha⟩ => by simpa using (h2 a).2 ha⟩
    · rintro ⟨_, hno⟩
      exact List.eq_nil_iff_forall_not_mem.2 (fun a ha => hno ⟨a, (h2 a).1 ha⟩)

/-- For ground effects the verdict has a semantic reading: on an accepted list the order of effects does not
matter and no atom is asked to be both true and false. -/
theorem C33_ground (L : MLang) (dom : Domains) (r : MState) (es : List Effect)
    (hes : ∀ e ∈ es, ∃ p pt, e = addEff p pt ∨ e = delEff p pt) (h : isStripsEffectSet es = true) :
    NoConflict L dom r es := by
  obtain ⟨_, hno⟩ := (C33_strips es).1 h
  refine ⟨?_, ?_⟩
  · intro p pt e he e' he' hp hp'
    refine hno ⟨.atom (.user p) (pt.map Const.toTerm), ⟨_, _, rfl, ?_⟩, ⟨_, _, rfl, ?_⟩⟩
    · obtain ⟨q, qt, rfl | rfl⟩ := hes e' he'
      · rw [produces_addEff] at hp'
        simp only [Change.add.injEq] at hp'
        obtain ⟨⟨rfl, rfl⟩, _⟩ := hp'
        exact he'
      · rw [produces_delEff] at hp'; simp at hp'
    · obtain ⟨q, qt, rfl | rfl⟩ := hes e he
      · rw [produces_addEff] at hp; simp at hp
      · rw [produces_delEff] at hp
        simp only [Change.del.injEq] at hp
        obtain ⟨rfl, rfl⟩ := hp
        exact he
  · intro f pt c d e he e' _ hp
    obtain ⟨q, qt, rfl | rfl⟩ := hes e he
    · rw [produces_addEff] at hp; simp at hp
    · rw [produces_delEff] at hp; simp at hp

/-- On lifted effects the verdict does not carry over to instances: `{ADD p(x), DEL p(y)}` is accepted, but the
instance with `x = y` has a conflict. -/
theorem C33_lifted_refuted :
    let x : Var := ⟨"x", "block"⟩
    let y : Var := ⟨"y", "block"⟩
    let es := [Effect.add .top (.user "p") [.var x], .del .top (.user "p") [.var y]]
    let s := createSubst [.var x, .var y] [exB1.toTerm, exB1.toTerm]
    isStripsEffectSet es = true ∧ isStripsEffectSet (subEs s es) = false := by
  decide

/-! Non-vacuity -/
example : isStripsEffectSet [addEff "p" [exB1], delEff "p" [exB2], addEff "q" [exB1]] = true ∧
    isStripsEffectSet [addEff "p" [exB1], delEff "p" [exB2], delEff "p" [exB1]] = false ∧
    effectConflicts [addEff "p" [exB1], delEff "p" [exB2], delEff "p" [exB1]] =
      .ok [.atom (.user "p") [exB1.toTerm]] := by decide

end Tarski

import Mathlib.Tactic.Common
import Verif.Relaxation
import Verif.Props.Effects
/-! C29: expansion of universal effects. -/
namespace Tarski

/-- The effect is a universal effect. -/
def Effect.IsUniv : Effect → Prop
  | .univ _ _ _ => True
  | _ => False

/-- A universal effect of the list has no delete among its (direct) sub-effects. -/
def NoDelUnderUniv (es : List Effect) : Prop :=
  ∀ c vs sub, Effect.univ c vs sub ∈ es → ∀ e ∈ sub, e.isDel = false

/-- C29, full statement, on one action: the expansion has the same successor in every state and contains no universal
effect. -/
def C29_full : Prop := ∀ (L : MLang) (dom : Domains) (es es' : List Effect), ConstDoms dom → expandAll dom es = .ok es' →
  (∀ e ∈ es', ¬ e.IsUniv) ∧
  ∀ m m1, progress L dom m es = .ok m1 → ∃ m2, progress L dom m es' = .ok m2 ∧ ObsEq L m1 m2

theorem expandAll_append {dom : Domains} : ∀ {es : List Effect} {es'}, expandAll dom es = .ok es' →
    ∀ e', e' ∈ es' ↔ ∃ e ∈ es, ∃ r, expandUniversal dom e = .ok r ∧ e' ∈ r
  | [], es', h => by simp only [expandAll, Except.ok.injEq] at h; subst h; simp
  | e :: es, es', h => by
    simp only [expandAll] at h
    cases h1 : expandUniversal dom e with
    | error er => simp [h1] at h
    | ok r =>
      cases h2 : expandAll dom es with
      | error er => simp [h1, h2] at h
      | ok rs =>
        simp only [h1, h2, Except.ok.injEq] at h
        subst h
        intro e'
        simp only [List.mem_append, expandAll_append h2 e', List.mem_cons, exists_eq_or_imp, h1, Except.ok.injEq,
          exists_eq_left']

theorem expandUniversal_cases {dom : Domains} {e : Effect} {r} (h : expandUniversal dom e = .ok r) :
    (r = [e] ∧ ¬ e.IsUniv) ∨ ∃ vs sub ss, e = .univ .top vs sub ∧ enumSubsts dom vs = .ok ss ∧
      r = ss.flatMap (fun s => sub.map (subE s)) := by
  cases e with
  | univ c vs sub =>
    simp only [expandUniversal] at h
    split at h
    · rename_i hc
      split at h
      · simp at h
      · rename_i ss hss
        simp only [Except.ok.injEq] at h
        exact .inr ⟨vs, sub, ss, by rw [hc], hss, h.symm⟩
    · simp at h
  | _ => simp only [expandUniversal, Except.ok.injEq] at h; exact .inl ⟨h.symm, by simp [Effect.IsUniv]⟩

theorem subE_isDel (s : Subst) (e : Effect) : (subE s e).isDel = e.isDel := by cases e <;> rfl
theorem subE_isUniv (s : Subst) (e : Effect) : (subE s e).IsUniv ↔ e.IsUniv := by cases e <;> exact Iff.rfl

/-- Applying the expansion of an effect is applying the effect. -/
theorem apply_expand {L : MLang} {dom : Domains} {e : Effect} {r} (h : expandUniversal dom e = .ok r) (m : MState) :
    seqApply (applyEffect L dom) m r = applyEffect L dom m e := by
  rcases expandUniversal_cases h with ⟨rfl, _⟩ | ⟨vs, sub, ss, rfl, hss, rfl⟩
  · simp only [seqApply]
    cases applyEffect L dom m e <;> rfl
  · rw [seqApply_flatMap, applyEffect_univ]
    simp only [evFormula, hss, seqApply_map]

theorem applyAll_expand {L : MLang} {dom : Domains} : ∀ {es es'}, expandAll dom es = .ok es' → ∀ m,
    seqApply (applyEffect L dom) m es' = seqApply (applyEffect L dom) m es
  | [], es', h, m => by simp only [expandAll, Except.ok.injEq] at h; subst h; rfl
  | e :: es, es', h, m => by
    simp only [expandAll] at h
    cases h1 : expandUniversal dom e with
    | error er => simp [h1] at h
    | ok r =>
      cases h2 : expandAll dom es with
      | error er => simp [h1, h2] at h
      | ok rs =>
        simp only [h1, h2, Except.ok.injEq] at h
        subst h
        rw [seqApply_append, apply_expand h1 m]
        simp only [seqApply]
        cases applyEffect L dom m e with
        | error er => rfl
        | ok m1 => exact applyAll_expand h2 m1

theorem expand_filter {dom : Domains} : ∀ {es es'}, expandAll dom es = .ok es' → NoDelUnderUniv es →
    es'.filter (·.isDel) = es.filter (·.isDel) ∧
    expandAll dom (es.filter (fun e => !e.isDel)) = .ok (es'.filter (fun e => !e.isDel))
  | [], es', h, _ => by simp only [expandAll, Except.ok.injEq] at h; subst h; simp [expandAll]
  | e :: es, es', h, hn => by
    simp only [expandAll] at h
    cases h1 : expandUniversal dom e with
    | error er => simp [h1] at h
    | ok r =>
      cases h2 : expandAll dom es with
      | error er => simp [h1, h2] at h
      | ok rs =>
        simp only [h1, h2, Except.ok.injEq] at h
        subst h
        obtain ⟨i1, i2⟩ := expand_filter h2 (fun c vs sub hm => hn c vs sub (by simp [hm]))
        rcases expandUniversal_cases h1 with ⟨rfl, hu⟩ | ⟨vs, sub, ss, rfl, hss, rfl⟩
        · cases hd : e.isDel with
          | true => simp [List.filter_cons, hd, i1, i2]
          | false => simp [List.filter_cons, hd, i1, i2, expandAll, h1]
        · have hnd : ∀ e' ∈ ss.flatMap (fun s => sub.map (subE s)), e'.isDel = false := by
            intro e' he'
            obtain ⟨s, _, he'⟩ := List.mem_flatMap.1 he'
            obtain ⟨e0, he0, rfl⟩ := List.mem_map.1 he'
            rw [subE_isDel]
            exact hn .top vs sub (by simp) e0 he0
          have f1 : (ss.flatMap (fun s => sub.map (subE s))).filter (·.isDel) = [] :=
            List.filter_eq_nil_iff.2 (fun e he => by simp [hnd e he])
          have f2 : (ss.flatMap (fun s => sub.map (subE s))).filter (fun e => !e.isDel) =
              ss.flatMap (fun s => sub.map (subE s)) := List.filter_eq_self.2 (fun e he => by simp [hnd e he])
          rw [List.filter_append, List.filter_append, i1, f1, f2]
          have g1 : (Effect.univ .top vs sub :: es).filter (·.isDel) = es.filter (·.isDel) := rfl
          have g2 : (Effect.univ .top vs sub :: es).filter (fun e => !e.isDel) =
            .univ .top vs sub :: es.filter (fun e => !e.isDel) := rfl
          rw [g1, g2]
          exact ⟨rfl, by simp only [expandAll, h1, i2]⟩

/-- C29: if no universal effect has a delete among its sub-effects, the action with the expanded effects behaves
exactly like the original one in every state (including exceptions). -/
theorem C29_successor_partial (L : MLang) (dom : Domains) (es es' : List Effect) (h : expandAll dom es = .ok es')
    (hn : NoDelUnderUniv es) (m : MState) : progress L dom m es' = progress L dom m es := by
  obtain ⟨h1, h2⟩ := expand_filter h hn
  unfold progress delsFirst
  rw [h1, seqApply_append, seqApply_append]
  split
  · rfl
  · exact applyAll_expand h2 _

/-- C29: without nested universal effects the expansion contains no universal effect. -/
theorem C29_eliminated_partial (dom : Domains) (es es' : List Effect) (h : expandAll dom es = .ok es')
    (hn : ∀ c vs sub, Effect.univ c vs sub ∈ es → ∀ e ∈ sub, ¬ e.IsUniv) : ∀ e ∈ es', ¬ e.IsUniv := by
  intro e' he'
  obtain ⟨e, he, r, hr, hm⟩ := (expandAll_append h e').1 he'
  rcases expandUniversal_cases hr with ⟨rfl, hu⟩ | ⟨vs, sub, ss, rfl, hss, rfl⟩
  · rw [List.mem_singleton.1 hm]; exact hu
  · obtain ⟨s, _, hm⟩ := List.mem_flatMap.1 hm
    obtain ⟨e0, he0, rfl⟩ := List.mem_map.1 hm
    rw [subE_isUniv]
    exact hn .top vs sub he e0 he0

/-- C29: the expansion returns exactly if all universal effects are unconditional and range over sorts whose domain can
be listed. -/
theorem C29_returns (dom : Domains) (es : List Effect) : (∃ es', expandAll dom es = .ok es') ↔
    ∀ c vs sub, Effect.univ c vs sub ∈ es → c = .top ∧ ∀ v ∈ vs, ∃ d, dom v.sort = .ok d := by
  have hdom : ∀ vs, (∃ ss, enumSubsts dom vs = .ok ss) ↔ ∀ v ∈ vs, ∃ d, dom v.sort = .ok d := by
    intro vs
    have : (∃ ss, enumSubsts dom vs = .ok ss) ↔ ∃ ds, domainsOf dom vs = .ok ds := by
      simp only [enumSubsts]
      cases domainsOf dom vs <;> simp
    rw [this]
    induction vs with
    | nil => simp [domainsOf]
    | cons v vs ih =>
      simp only [domainsOf, List.forall_mem_cons, ← ih (by
        simp only [enumSubsts]
        cases domainsOf dom vs <;> simp)]
      cases dom v.sort with
      | error e => simp
      | ok d => cases domainsOf dom vs <;> simp
  have one : ∀ e, (∃ r, expandUniversal dom e = .ok r) ↔
      ∀ c vs sub, e = .univ c vs sub → c = .top ∧ ∀ v ∈ vs, ∃ d, dom v.sort = .ok d := by
    intro e
    cases e with
    | univ c vs sub =>
      have hr : (∀ c' vs' sub', Effect.univ c vs sub = .univ c' vs' sub' →
          c' = Formula.top ∧ ∀ v ∈ vs', ∃ d, dom v.sort = .ok d) ↔ c = .top ∧ ∃ ss, enumSubsts dom vs = .ok ss := by
        rw [hdom]
        constructor
        · intro h; exact h c vs sub rfl
        · rintro h c' vs' sub' he
          simp only [Effect.univ.injEq] at he
          obtain ⟨rfl, rfl, rfl⟩ := he
          exact h
      rw [hr]
      simp only [expandUniversal]
      by_cases hc : c = .top
      · simp only [hc, if_true, true_and]
        cases enumSubsts dom vs <;> simp
      · simp [hc]
    | _ => simp [expandUniversal]
  induction es with
  | nil => simp [expandAll]
  | cons e es ih =>
    have h1 : (∃ es', expandAll dom (e :: es) = .ok es') ↔
        (∃ r, expandUniversal dom e = .ok r) ∧ ∃ es', expandAll dom es = .ok es' := by
      simp only [expandAll]
      cases expandUniversal dom e with
      | error er => simp
      | ok r => cases expandAll dom es <;> simp
    have ih' : _ ↔ _ := ih
    rw [h1, one, ih']
    constructor
    · rintro ⟨a, b⟩ c vs sub hm
      rcases List.mem_cons.1 hm with rfl | hm
      · exact a c vs sub rfl
      · exact b c vs sub hm
    · intro a
      exact ⟨fun c vs sub h => a c vs sub (by simp [h]), fun c vs sub h => a c vs sub (by simp [h])⟩

/-! ### With deletes under universal effects: non-interfering effects -/

theorem expand_produces {L : MLang} {dom : Domains} {r : MState} {es es' : List Effect} (h : expandAll dom es = .ok es')
    (ch : Change) : (∃ e ∈ es', Produces L dom r e ch) ↔ ∃ e ∈ es, Produces L dom r e ch := by
  constructor
  · rintro ⟨e', he', hp⟩
    obtain ⟨e, he, rr, hr, hm⟩ := (expandAll_append h e').1 he'
    rcases expandUniversal_cases hr with ⟨rfl, hu⟩ | ⟨vs, sub, ss, rfl, hss, rfl⟩
    · rw [List.mem_singleton.1 hm] at hp; exact ⟨e, he, hp⟩
    · obtain ⟨s, hs, hm⟩ := List.mem_flatMap.1 hm
      obtain ⟨e0, he0, rfl⟩ := List.mem_map.1 hm
      exact ⟨_, he, .univ (by simp [evFormula]) hss hs he0 hp⟩
  · rintro ⟨e, he, hp⟩
    -- the expansion of `e` returned
    have : ∃ rr, expandUniversal dom e = .ok rr := by
      clear hp
      induction es generalizing es' with
      | nil => simp at he
      | cons x es ih =>
        simp only [expandAll] at h
        cases h1 : expandUniversal dom x with
        | error er => simp [h1] at h
        | ok r =>
          cases h2 : expandAll dom es with
          | error er => simp [h1, h2] at h
          | ok rs =>
            rcases List.mem_cons.1 he with rfl | he
            · exact ⟨r, h1⟩
            · exact ih h2 he
    obtain ⟨rr, hr⟩ := this
    rcases expandUniversal_cases hr with ⟨rfl, hu⟩ | ⟨vs, sub, ss, rfl, hss, rfl⟩
    · exact ⟨e, (expandAll_append h e).2 ⟨e, he, _, hr, by simp⟩, hp⟩
    · cases hp with
      | univ _ hss' hs he0 hp =>
        rw [hss, Except.ok.injEq] at hss'
        subst hss'
        exact ⟨_, (expandAll_append h _).2 ⟨_, he, _, hr, List.mem_flatMap.2 ⟨_, hs, List.mem_map.2 ⟨_, he0, rfl⟩⟩⟩, hp⟩

/-- Each element of the expansion of an effect reads and writes at most what the effect does. -/
theorem expand_flow {dom : Domains} (hd : ConstDoms dom) {e : Effect} {r} (h : expandUniversal dom e = .ok r) {e'}
    (he' : e' ∈ r) : (∀ x, e'.Writes x → e.Writes x) ∧ (∀ x, e'.Reads x → e.Reads x) := by
  rcases expandUniversal_cases h with ⟨rfl, hu⟩ | ⟨vs, sub, ss, rfl, hss, rfl⟩
  · rw [List.mem_singleton.1 he']; exact ⟨fun _ h => h, fun _ h => h⟩
  · obtain ⟨s, hs, hm⟩ := List.mem_flatMap.1 he'
    obtain ⟨e0, he0, rfl⟩ := List.mem_map.1 hm
    refine ⟨fun x hx => ?_, fun x hx => ?_⟩
    · rw [writes_subE] at hx
      exact writesAny_iff.2 ⟨e0, he0, hx⟩
    · exact .inr (readsAny_iff.2 ⟨e0, he0, reads_subE (enumSubsts_vals hd hss s hs) x e0 hx⟩)

theorem expand_pairwise {dom : Domains} (hd : ConstDoms dom) : ∀ {es es' : List Effect}, expandAll dom es = .ok es' →
    es.Pairwise (fun a b => NoFlow a b ∧ NoFlow b a) → (∀ e ∈ es, SelfContained e) →
    es'.Pairwise (fun a b => NoFlow a b ∧ NoFlow b a) ∧ ∀ e ∈ es', SelfContained e
  | [], es', h, _, _ => by simp only [expandAll, Except.ok.injEq] at h; subst h; simp
  | e :: es, es', h, hp, hs => by
    simp only [expandAll] at h
    cases h1 : expandUniversal dom e with
    | error er => simp [h1] at h
    | ok r =>
      cases h2 : expandAll dom es with
      | error er => simp [h1, h2] at h
      | ok rs =>
        simp only [h1, h2, Except.ok.injEq] at h
        subst h
        rw [List.pairwise_cons] at hp
        obtain ⟨i1, i2⟩ := expand_pairwise hd h2 hp.2 (fun e he => hs e (by simp [he]))
        have hself : ∀ a ∈ r, SelfContained a := by
          intro a ha
          rcases expandUniversal_cases h1 with ⟨rfl, hu⟩ | ⟨vs, sub, ss, rfl, hss, hr⟩
          · rw [List.mem_singleton.1 ha]; exact hs e (by simp)
          · have hse : NoFlow (.univ .top vs sub) (.univ .top vs sub) := hs (.univ .top vs sub) (by simp)
            have hf := expand_flow hd h1 ha
            cases a with
            | univ c ws sub' => exact fun x hw hrd => hse x (hf.1 x hw) (hf.2 x hrd)
            | _ => trivial
        refine ⟨List.pairwise_append.2 ⟨?_, i1, ?_⟩, ?_⟩
        · rcases expandUniversal_cases h1 with ⟨rfl, hu⟩ | ⟨vs, sub, ss, rfl, hss, hr⟩
          · exact List.pairwise_singleton ..
          · have hse : NoFlow (.univ .top vs sub) (.univ .top vs sub) := hs (.univ .top vs sub) (by simp)
            refine List.pairwise_of_forall_mem_list (fun a ha b hb => ?_)
            have ha := expand_flow hd h1 ha
            have hb := expand_flow hd h1 hb
            exact ⟨fun x hw hrd => hse x (ha.1 x hw) (hb.2 x hrd), fun x hw hrd => hse x (hb.1 x hw) (ha.2 x hrd)⟩
        · intro a ha b hb
          obtain ⟨e2, he2, r2, hr2, hb⟩ := (expandAll_append h2 b).1 hb
          have ha := expand_flow hd h1 ha
          have hb := expand_flow hd hr2 hb
          have := hp.1 e2 he2
          exact ⟨fun x hw hrd => this.1 x (ha.1 x hw) (hb.2 x hrd), fun x hw hrd => this.2 x (hb.1 x hw) (ha.2 x hrd)⟩
        · intro a ha
          rcases List.mem_append.1 ha with ha | ha
          · exact hself a ha
          · exact i2 a ha

/-- C29 with deletes under universal effects: if no effect reads what another one (or another instance of the same
universal effect) writes and no atom is both added and deleted, the expansion has the same successor. -/
theorem C29_noninterfering_partial (L : MLang) (dom : Domains) (hd : ConstDoms dom) (es es' : List Effect)
    (h : expandAll dom es = .ok es') (hflow : es.Pairwise (fun a b => NoFlow a b ∧ NoFlow b a))
    (hself : ∀ e ∈ es, SelfContained e) (r m1 : MState) (hc : NoConflict L dom r es)
    (h1 : progress L dom r es = .ok m1) : ∃ m2, progress L dom r es' = .ok m2 ∧ ObsEq L m1 m2 := by
  obtain ⟨hflow', hself'⟩ := expand_pairwise hd h hflow hself
  have hsym : ∀ {a b : Effect}, (NoFlow a b ∧ NoFlow b a) → (NoFlow b a ∧ NoFlow a b) := fun h => h.symm
  have hf1 : (delsFirst es).Pairwise NoFlow := ((delsFirst_perm es).symm.pairwise hflow hsym).imp (fun h => h.1)
  have hf2 : (delsFirst es').Pairwise NoFlow := ((delsFirst_perm es').symm.pairwise hflow' hsym).imp (fun h => h.1)
  have hc' : NoConflict L dom r es' := by
    refine ⟨fun p pt e he e' he' hp hp' => ?_, fun f pt c d e he e' he' hp hp' => ?_⟩
    · obtain ⟨a, ha, ha'⟩ := (expand_produces h _).1 ⟨e, he, hp⟩
      obtain ⟨b, hb, hb'⟩ := (expand_produces h _).1 ⟨e', he', hp'⟩
      exact hc.1 p pt a ha b hb ha' hb'
    · obtain ⟨a, ha, ha'⟩ := (expand_produces h _).1 ⟨e, he, hp⟩
      obtain ⟨b, hb, hb'⟩ := (expand_produces h _).1 ⟨e', he', hp'⟩
      exact hc.2 f pt c d a ha b hb ha' hb'
  have hret : ∀ e' ∈ es', ∃ m', applyEffect L dom r e' = .ok m' := by
    have hall := (C25_returns_partial L dom r es hd hf1 hself).1 ⟨m1, h1⟩
    intro e' he'
    obtain ⟨e, he, rr, hr, hm⟩ := (expandAll_append h e').1 he'
    rcases expandUniversal_cases hr with ⟨rfl, hu⟩ | ⟨vs, sub, ss, rfl, hss, rfl⟩
    · rw [List.mem_singleton.1 hm]; exact hall e he
    · have hl : ∀ c : Except Err (List Change), (∃ m', liftChanges L r c = .ok m') ↔ ∃ cs, c = .ok cs := by
        intro c; cases c <;> simp [liftChanges]
      obtain ⟨s, hs, hm⟩ := List.mem_flatMap.1 hm
      obtain ⟨e0, he0, rfl⟩ := List.mem_map.1 hm
      obtain ⟨m', hm'⟩ := hall _ he
      have e1 := applyFuel_changes (L := L) hd r (edepth (.univ .top vs sub)) r (.univ .top vs sub)
        (fun x _ => SameOn.refl L r x) (hself _ he)
      rw [applyEffect, e1] at hm'
      obtain ⟨cs, hcs⟩ := (hl _).1 ⟨m', hm'⟩
      rw [edepth, changesFuel] at hcs
      simp only [Effect.cond, evFormula, hss] at hcs
      obtain ⟨cs1, hcs1⟩ := collectAll_ok.1 ⟨cs, hcs⟩ s hs
      obtain ⟨cs2, hcs2⟩ := collectAll_ok.1 ⟨cs1, hcs1⟩ e0 he0
      have e2 := applyFuel_changes (L := L) hd r (edepths sub) r (subE s e0) (fun x _ => SameOn.refl L r x)
        (hself' _ he')
      rw [applyFuel_eq L dom (edepths sub) r (subE s e0) (by rw [subE_depth]; exact edepth_le he0)] at e2
      rw [e2, hcs2]
      exact ⟨_, rfl⟩
  obtain ⟨m2, h2⟩ := (C25_returns_partial L dom r es' hd hf2 hself').2 hret
  refine ⟨m2, h2, ?_⟩
  have s1 := C25_simultaneous_partial L dom r m1 es hd hf1 hself (fun p pt e he e' he' _ => hc.1 p pt e he e' he') hc.2 h1
  have s2 := C25_simultaneous_partial L dom r m2 es' hd hf2 hself' (fun p pt e he e' he' _ => hc'.1 p pt e he e' he') hc'.2 h2
  have hset : ∀ f pt, (∃ e ∈ es', ∃ d, Produces L dom r e (.set f pt d)) ↔ ∃ e ∈ es, ∃ d, Produces L dom r e (.set f pt d) := by
    intro f pt
    constructor
    · rintro ⟨e, he, d, hp⟩
      obtain ⟨a, ha, hp⟩ := (expand_produces h _).1 ⟨e, he, hp⟩
      exact ⟨a, ha, d, hp⟩
    · rintro ⟨e, he, d, hp⟩
      obtain ⟨a, ha, hp⟩ := (expand_produces h _).2 ⟨e, he, hp⟩
      exact ⟨a, ha, d, hp⟩
  intro x
  cases x with
  | pred p => intro pt; rw [Bool.eq_iff_iff, s1.1, s2.1, expand_produces h, expand_produces h]
  | fn f =>
    intro pt
    refine value_ext (fun c => ?_)
    rw [s1.2, s2.2, expand_produces h, hset]

/-! ### Refutations -/

/-- `{ADD p(b1), forall x DEL p(x)}` -/
def exUnivDel : List Effect :=
  [addEff "p" [exB1], .univ .top [⟨"x", "block"⟩] [.del .top (.user "p") [.var ⟨"x", "block"⟩]]]

/-- A delete that comes out of a universal effect is moved to the front: the successor changes. -/
theorem C29_refuted : ¬ C29_full := by
  intro h
  have hexp : expandAll twoDom exUnivDel = .ok [addEff "p" [exB1], delEff "p" [exB1], delEff "p" [exB2]] := rfl
  obtain ⟨m1, h1, hf⟩ : ∃ m1, progress exLang twoDom MState.empty exUnivDel = .ok m1 ∧ m1.holds exLang "p" [exB1] = false :=
    ⟨_, rfl, by decide⟩
  obtain ⟨m2, h2, ht⟩ : ∃ m2, progress exLang twoDom MState.empty
      [addEff "p" [exB1], delEff "p" [exB1], delEff "p" [exB2]] = .ok m2 ∧ m2.holds exLang "p" [exB1] = true :=
    ⟨_, rfl, by decide⟩
  obtain ⟨m3, h3, heq⟩ := (h exLang twoDom _ _ twoDom_const hexp).2 MState.empty m1 h1
  rw [h2, Except.ok.injEq] at h3
  subst h3
  have : m1.holds exLang "p" [exB1] = m2.holds exLang "p" [exB1] := heq (.pred "p") [exB1]
  rw [hf, ht] at this
  simp at this

/-- Nested universal effects are not eliminated. -/
theorem C29_nested_refuted :
    ∃ es', expandAll twoDom [.univ .top [⟨"x", "block"⟩] [.univ .top [⟨"y", "block"⟩]
      [.add .top (.user "r") [.var ⟨"x", "block"⟩, .var ⟨"y", "block"⟩]]]] = .ok es' ∧ ∃ e ∈ es', e.IsUniv :=
  ⟨_, rfl, _, .head _, trivial⟩

/-! Non-vacuity -/
example : ∃ es', expandAll twoDom [addEff "q" [exB1], .univ .top [⟨"x", "block"⟩]
      [.add (.atom (.user "q") [.var ⟨"x", "block"⟩]) (.user "p") [.var ⟨"x", "block"⟩]]] = .ok es' ∧ es'.length = 3 ∧
    NoDelUnderUniv [addEff "q" [exB1], .univ .top [⟨"x", "block"⟩]
      [.add (.atom (.user "q") [.var ⟨"x", "block"⟩]) (.user "p") [.var ⟨"x", "block"⟩]]] := by
  refine ⟨_, rfl, rfl, ?_⟩
  intro c vs sub hm
  simp only [addEff, List.mem_cons, reduceCtorEq, Effect.univ.injEq, List.not_mem_nil, or_false, false_or] at hm
  obtain ⟨_, _, rfl⟩ := hm
  simp [Effect.isDel]

/-- `{ADD q(b1), forall x DEL p(x)}` meets the conditions of the non-interference theorem. -/
def exUnivDel2 : List Effect :=
  [addEff "q" [exB1], .univ .top [⟨"x", "block"⟩] [.del (.atom (.user "s") [.var ⟨"x", "block"⟩]) (.user "p") [.var ⟨"x", "block"⟩]]]
example : exUnivDel2.Pairwise (fun a b => NoFlow a b ∧ NoFlow b a) ∧ (∀ e ∈ exUnivDel2, SelfContained e) ∧
    (∃ es', expandAll twoDom exUnivDel2 = .ok es') ∧ (∃ m', progress exLang twoDom exEffState exUnivDel2 = .ok m') ∧
    NoConflict exLang twoDom exEffState exUnivDel2 := by
  refine ⟨?_, ?_, ⟨_, rfl⟩, ⟨_, rfl⟩, ?_⟩
  · simp [exUnivDel2, addEff, NoFlow, Effect.Writes, Effect.Reads, UsesF, UsesTs, UsesT, WritesAny, ReadsAny]
  · simp [exUnivDel2, addEff, SelfContained, NoFlow, Effect.Writes, Effect.Reads, UsesF, UsesTs, UsesT, WritesAny, ReadsAny]
  · have hw : ∀ e ∈ exUnivDel2, ∀ ch, Produces exLang twoDom exEffState e ch →
        (∃ pt, ch = .add "q" pt) ∨ ∃ pt, ch = .del "p" pt := by
      intro e he ch hp
      simp only [exUnivDel2, List.mem_cons, List.not_mem_nil, or_false] at he
      rcases he with rfl | rfl
      · rw [produces_addEff] at hp; exact .inl ⟨_, hp.1⟩
      · cases hp with
        | univ _ _ _ he0 hp =>
          simp only [List.mem_singleton] at he0
          subst he0
          simp only [subE] at hp
          cases hp with
          | del _ _ => exact .inr ⟨_, rfl⟩
    refine ⟨fun p pt e he e' he' hp hp' => ?_, fun f pt c d e he e' _ hp => ?_⟩
    · rcases hw e he _ hp with ⟨x, h⟩ | ⟨x, h⟩ <;> rcases hw e' he' _ hp' with ⟨y, h'⟩ | ⟨y, h'⟩ <;> simp_all
    · rcases hw e he _ hp with ⟨x, h⟩ | ⟨x, h⟩ <;> simp at h

end Tarski

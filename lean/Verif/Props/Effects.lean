import Mathlib.Data.List.Perm.Subperm
import Mathlib.Data.List.Pairwise
import Verif.ChangesLemmas
/-! C24, C25, C26: successor states. -/
namespace Tarski

/-! ### The general computation -/

theorem mem_delsFirst {es : List Effect} {e} : e ∈ delsFirst es ↔ e ∈ es := by
  simp only [delsFirst, List.mem_append, List.mem_filter]
  cases e.isDel <;> simp

theorem seq_changes {L : MLang} {dom : Domains} (hd : ConstDoms dom) (r : MState) (es : List Effect)
    (hp : es.Pairwise NoFlow) (hs : ∀ e ∈ es, SelfContained e) :
    ∀ m, (∀ e ∈ es, ∀ x, e.Reads x → SameOn L m r x) →
      seqApply (applyEffect L dom) m es =
        liftChanges L m (collectAll (fun e => changesFuel L dom r (edepth e) e) es) := by
  induction es with
  | nil => intro m _; rfl
  | cons e es ih =>
    intro m hm
    rw [List.pairwise_cons] at hp
    have h1 := applyFuel_changes hd r (edepth e) m e (hm e (by simp)) (hs e (by simp))
    simp only [seqApply, collectAll, applyEffect, h1]
    cases hc : changesFuel L dom r (edepth e) e with
    | error er => rfl
    | ok cs =>
      simp only [liftChanges]
      have h2 := ih hp.2 (fun e' he' => hs e' (by simp [he'])) (applyChanges L m cs) (by
        intro e' he' x hx
        refine (sameOn_changes (fun ch hch heq => ?_)).trans (hm e' (by simp [he']) x hx)
        exact hp.1 e' he' x (heq ▸ changesFuel_writes L dom r _ e cs hc ch hch) hx)
      rw [h2]
      cases collectAll (fun e => changesFuel L dom r (edepth e) e) es with
      | error er => rfl
      | ok ds => simp [liftChanges, applyChanges_append]

/-! ### C25 -/

/-- What simultaneous application asks for: an atom is true afterwards iff some effect adds it, or it was true and
no effect deletes it; a term has a value afterwards iff some effect assigns it, or it had it and no effect assigns
the term. All effects are read in the original state `r`. -/
def Simultaneous (L : MLang) (dom : Domains) (r : MState) (es : List Effect) (m' : MState) : Prop :=
  (∀ p pt, m'.holds L p pt = true ↔
    (∃ e ∈ es, Produces L dom r e (.add p pt)) ∨
    (r.holds L p pt = true ∧ ¬ ∃ e ∈ es, Produces L dom r e (.del p pt))) ∧
  (∀ f pt c, m'.value L f pt = .ok c ↔
    (∃ e ∈ es, Produces L dom r e (.set f pt c)) ∨
    (r.value L f pt = .ok c ∧ ¬ ∃ e ∈ es, ∃ d, Produces L dom r e (.set f pt d)))

/-- No atom is both added and deleted, no term is assigned two values. -/
def NoConflict (L : MLang) (dom : Domains) (r : MState) (es : List Effect) : Prop :=
  (∀ p pt, ∀ e ∈ es, ∀ e' ∈ es, Produces L dom r e (.del p pt) → ¬ Produces L dom r e' (.add p pt)) ∧
  (∀ f pt c d, ∀ e ∈ es, ∀ e' ∈ es, Produces L dom r e (.set f pt c) → Produces L dom r e' (.set f pt d) → c = d)

/-- C25, full statement. -/
def C25_full : Prop := ∀ (L : MLang) (dom : Domains) (r m' : MState) (es : List Effect), ConstDoms dom →
  NoConflict L dom r es → progress L dom r es = .ok m' → Simultaneous L dom r es m'

theorem produced_split {L : MLang} {dom : Domains} {r : MState} {es : List Effect} {cs : List Change}
    (h : collectAll (fun e => changesFuel L dom r (edepth e) e) es = .ok cs) (ch : Change) :
    ch ∈ cs ↔ ∃ e ∈ es, Produces L dom r e ch := by
  rw [collectAll_mem h]
  constructor
  · rintro ⟨e, he, cs', hcs, hch⟩
    exact ⟨e, he, (changesFuel_produces r _ e cs' (Nat.le_refl _) hcs ch).1 hch⟩
  · rintro ⟨e, he, hp⟩
    obtain ⟨cs', hcs⟩ := collectAll_ok.1 ⟨cs, h⟩ e he
    exact ⟨e, he, cs', hcs, (changesFuel_produces r _ e cs' (Nat.le_refl _) hcs ch).2 hp⟩

theorem collectAll_append {α} (f : α → Except Err (List Change)) (as bs : List α) {cs}
    (h : collectAll f (as ++ bs) = .ok cs) :
    ∃ c1 c2, collectAll f as = .ok c1 ∧ collectAll f bs = .ok c2 ∧ cs = c1 ++ c2 := by
  induction as generalizing cs with
  | nil => exact ⟨[], cs, rfl, h, rfl⟩
  | cons a as ih =>
    simp only [List.cons_append, collectAll] at h
    cases h1 : f a with
    | error e => simp [h1] at h
    | ok c =>
      cases h2 : collectAll f (as ++ bs) with
      | error e => simp [h1, h2] at h
      | ok c' =>
        simp only [h1, h2, Except.ok.injEq] at h
        obtain ⟨c1, c2, h3, h4, rfl⟩ := ih h2
        exact ⟨c ++ c1, c2, by simp [collectAll, h1, h3], h4, by simp [← h]⟩

/-- C25 for effect lists in which, in the order of application (plain deletes first), no effect writes a symbol that a
later one reads, and the instances of a universal effect do not influence each other. An add and a delete of the same
atom are allowed if the delete is not inside a universal effect: the add wins. -/
theorem C25_simultaneous_partial (L : MLang) (dom : Domains) (r m' : MState) (es : List Effect) (hd : ConstDoms dom)
    (hflow : (delsFirst es).Pairwise NoFlow) (hself : ∀ e ∈ es, SelfContained e)
    (hdel : ∀ p pt, ∀ e ∈ es, ∀ e' ∈ es, e.isDel = false → Produces L dom r e (.del p pt) → ¬ Produces L dom r e' (.add p pt))
    (hset : ∀ f pt c d, ∀ e ∈ es, ∀ e' ∈ es, Produces L dom r e (.set f pt c) → Produces L dom r e' (.set f pt d) → c = d)
    (h : progress L dom r es = .ok m') : Simultaneous L dom r es m' := by
  unfold progress at h
  rw [seq_changes hd r (delsFirst es) hflow (fun e he => hself e (mem_delsFirst.1 he)) r
    (fun _ _ x _ => SameOn.refl L r x)] at h
  cases hc : collectAll (fun e => changesFuel L dom r (edepth e) e) (delsFirst es) with
  | error er => simp [hc, liftChanges] at h
  | ok cs =>
    simp only [hc, liftChanges, Except.ok.injEq] at h
    subst h
    have hmem : ∀ ch, ch ∈ cs ↔ ∃ e ∈ es, Produces L dom r e ch := by
      intro ch; rw [produced_split hc]; simp only [mem_delsFirst]
    constructor
    · intro p pt
      rw [holds_changes, ← hmem, ← hmem]
      constructor
      · rintro (⟨pre, post, rfl, _⟩ | ⟨h1, h2⟩)
        · exact .inl (by simp)
        · exact .inr ⟨h1, h2⟩
      · rintro (h1 | ⟨h1, h2⟩)
        · left
          -- plain deletes come first, so no delete of the atom follows the add
          obtain ⟨c1, c2, hc1, hc2, rfl⟩ := collectAll_append _ _ _ hc
          have hadd1 : Change.add p pt ∉ c1 := by
            intro hm
            obtain ⟨e, he, hp⟩ := (produced_split hc1 _).1 hm
            have := (List.mem_filter.1 he).2
            cases hp <;> simp [Effect.isDel] at this
          have hadd2 : Change.add p pt ∈ c2 := (List.mem_append.1 h1).resolve_left hadd1
          obtain ⟨pre, post, rfl⟩ := List.append_of_mem hadd2
          refine ⟨c1 ++ pre, post, by simp, fun hpost => ?_⟩
          obtain ⟨e, he, hp⟩ := (produced_split hc2 (.del p pt)).1 (by simp [hpost])
          obtain ⟨e', he', hp'⟩ := (hmem (.add p pt)).1 h1
          have := List.mem_filter.1 he
          exact hdel p pt e this.1 e' he' (by simpa using this.2) hp hp'
        · exact .inr ⟨h1, h2⟩
    · intro f pt c
      rw [value_changes]
      constructor
      · rintro (⟨pre, post, rfl, _⟩ | ⟨h1, h2⟩)
        · exact .inl ((hmem _).1 (by simp))
        · exact .inr ⟨h1, fun ⟨e, he, d, hp⟩ => h2 d ((hmem _).2 ⟨e, he, hp⟩)⟩
      · rintro (h1 | ⟨h1, h2⟩)
        · left
          obtain ⟨e, he, hp⟩ := h1
          have hm := (hmem _).2 ⟨e, he, hp⟩
          -- the last assignment to the term assigns the same value
          suffices hl : ∀ l : List Change, Change.set f pt c ∈ l → (∀ d, Change.set f pt d ∈ l → d = c) →
              ∃ pre post, l = pre ++ .set f pt c :: post ∧ ∀ d, .set f pt d ∉ post by
            refine hl cs hm (fun d hdm => ?_)
            obtain ⟨e', he', hp'⟩ := (hmem _).1 hdm
            exact hset f pt d c e' he' e he hp' hp
          intro l
          induction l with
          | nil => intro h; simp at h
          | cons ch l ih =>
            intro hm hu
            by_cases hin : ∃ d, Change.set f pt d ∈ l
            · obtain ⟨d, hin⟩ := hin
              have : d = c := hu d (by simp [hin])
              subst this
              obtain ⟨pre, post, rfl, hp⟩ := ih hin (fun d' hd' => hu d' (by simp [hd']))
              exact ⟨ch :: pre, post, rfl, hp⟩
            · rcases List.mem_cons.1 hm with rfl | hm
              · exact ⟨[], l, rfl, fun d hd => hin ⟨d, hd⟩⟩
              · exact absurd ⟨c, hm⟩ hin
        · exact .inr ⟨h1, fun d hm => h2 (by obtain ⟨e, he, hp⟩ := (hmem _).1 hm; exact ⟨e, he, d, hp⟩)⟩

/-- Under the same conditions the call returns exactly if each effect, on its own, can be applied to the original
state. -/
theorem C25_returns_partial (L : MLang) (dom : Domains) (r : MState) (es : List Effect) (hd : ConstDoms dom)
    (hflow : (delsFirst es).Pairwise NoFlow) (hself : ∀ e ∈ es, SelfContained e) :
    (∃ m', progress L dom r es = .ok m') ↔ ∀ e ∈ es, ∃ m', applyEffect L dom r e = .ok m' := by
  unfold progress
  rw [seq_changes hd r (delsFirst es) hflow (fun e he => hself e (mem_delsFirst.1 he)) r
    (fun _ _ x _ => SameOn.refl L r x)]
  have hl : ∀ c : Except Err (List Change), (∃ m', liftChanges L r c = .ok m') ↔ ∃ cs, c = .ok cs := by
    intro c; cases c <;> simp [liftChanges]
  rw [hl, collectAll_ok]
  constructor
  · intro h e he
    have := applyFuel_changes hd r (edepth e) r e (fun x _ => SameOn.refl L r x) (hself e he)
    rw [applyEffect, this, hl]
    exact h e (mem_delsFirst.2 he)
  · intro h e he
    have := applyFuel_changes hd r (edepth e) r e (fun x _ => SameOn.refl L r x) (hself e (mem_delsFirst.1 he))
    rw [← hl, ← this]
    exact h e (mem_delsFirst.1 he)

theorem delsFirst_perm (es : List Effect) : (delsFirst es).Perm es := by
  unfold delsFirst
  have := List.filter_append_perm (fun e : Effect => e.isDel) es
  simpa using this

/-- C25, order independence: listing the same non-conflicting effects in another order gives the same successor. -/
theorem C25_order_partial (L : MLang) (dom : Domains) (r m1 : MState) (es es' : List Effect) (hd : ConstDoms dom)
    (hflow : es.Pairwise (fun a b => NoFlow a b ∧ NoFlow b a)) (hself : ∀ e ∈ es, SelfContained e)
    (hc : NoConflict L dom r es) (hperm : es.Perm es') (h : progress L dom r es = .ok m1) :
    ∃ m2, progress L dom r es' = .ok m2 ∧ ObsEq L m1 m2 := by
  have hsym : ∀ {a b : Effect}, (NoFlow a b ∧ NoFlow b a) → (NoFlow b a ∧ NoFlow a b) := fun h => h.symm
  have hf1 : (delsFirst es).Pairwise NoFlow :=
    ((delsFirst_perm es).symm.pairwise hflow hsym).imp (fun h => h.1)
  have hf2 : (delsFirst es').Pairwise NoFlow :=
    (((hperm.trans (delsFirst_perm es').symm)).pairwise hflow hsym).imp (fun h => h.1)
  have hs2 : ∀ e ∈ es', SelfContained e := fun e he => hself e (hperm.mem_iff.2 he)
  obtain ⟨m2, h2⟩ := (C25_returns_partial L dom r es' hd hf2 hs2).2 (fun e he =>
    (C25_returns_partial L dom r es hd hf1 hself).1 ⟨m1, h⟩ e (hperm.mem_iff.2 he))
  refine ⟨m2, h2, ?_⟩
  have s1 := C25_simultaneous_partial L dom r m1 es hd hf1 hself
    (fun p pt e he e' he' _ => hc.1 p pt e he e' he') hc.2 h
  have s2 := C25_simultaneous_partial L dom r m2 es' hd hf2 hs2
    (fun p pt e he e' he' _ => hc.1 p pt e (hperm.mem_iff.2 he) e' (hperm.mem_iff.2 he'))
    (fun f pt c d e he e' he' => hc.2 f pt c d e (hperm.mem_iff.2 he) e' (hperm.mem_iff.2 he')) h2
  have hex : ∀ P : Effect → Prop, (∃ e ∈ es, P e) ↔ ∃ e ∈ es', P e := by
    intro P; simp only [hperm.mem_iff]
  intro x
  cases x with
  | pred p =>
    intro pt
    rw [Bool.eq_iff_iff, s1.1, s2.1, hex, hex]
  | fn f =>
    intro pt
    refine value_ext (fun c => ?_)
    rw [s1.2, s2.2, hex, hex]

/-! ### C24 -/

/-- The constant as a term. -/
def Const.toTerm (c : Const) : Term := .const c.name c.sort

/-- The unconditional ground effects `ADD p(pt)` and `DEL p(pt)`. -/
def addEff (p : String) (pt : List Const) : Effect := .add .top (.user p) (pt.map Const.toTerm)
def delEff (p : String) (pt : List Const) : Effect := .del .top (.user p) (pt.map Const.toTerm)

/-- The tuple matches the declared sorts of the predicate. -/
def WellTyped (L : MLang) (p : String) (pt : List Const) : Prop :=
  List.Forall₂ (fun c s => L.isSub c.sort s = true) pt (L.psorts p)

theorem termArg_toTerm (pt : List Const) : (pt.map Const.toTerm).map termArg = pt.map Arg.const := by
  simp [Function.comp_def, Const.toTerm, termArg]

theorem pointDenotes_consts {L : MLang} {pt : List Const} {ss : List String} {qt : List Const} :
    PointDenotes L (pt.map Arg.const) ss qt ↔ qt = pt ∧ List.Forall₂ (fun c s => L.isSub c.sort s = true) pt ss := by
  constructor
  · intro h
    generalize ha : pt.map Arg.const = as at h
    induction h generalizing pt with
    | nil =>
      have : pt = [] := by simpa using ha
      subst this; simp
    | cons hd ht ih =>
      cases pt with
      | nil => simp at ha
      | cons c pt =>
        simp only [List.map_cons, List.cons.injEq] at ha
        obtain ⟨rfl, ha⟩ := ha
        obtain ⟨rfl, h2⟩ := ih ha
        cases hd with
        | const h => exact ⟨rfl, .cons h h2⟩
  · rintro ⟨rfl, h⟩
    induction h with
    | nil => exact .nil
    | cons h _ ih => exact .cons (.const h) ih

theorem refersTo_consts {pt qt : List Const} : RefersTo (pt.map Arg.const) qt ↔ qt = pt := by
  induction pt generalizing qt with
  | nil => exact ⟨fun h => by cases h; rfl, fun h => by subst h; exact .nil⟩
  | cons c pt ih =>
    constructor
    · intro h
      cases h with | const h => rw [ih.1 h]
    · rintro rfl
      exact .const (ih.2 rfl)

theorem produces_addEff {L dom r p pt ch} : Produces L dom r (addEff p pt) ch ↔ ch = .add p pt ∧ WellTyped L p pt := by
  constructor
  · intro h
    cases h with
    | add _ h =>
      rw [termArg_toTerm, pointDenotes_consts] at h
      exact ⟨by rw [h.1], h.2⟩
  · rintro ⟨rfl, h⟩
    exact .add (by simp [evFormula]) (by rw [termArg_toTerm, pointDenotes_consts]; exact ⟨rfl, h⟩)

theorem produces_delEff {L dom r p pt ch} : Produces L dom r (delEff p pt) ch ↔ ch = .del p pt := by
  constructor
  · intro h
    cases h with
    | del _ h => rw [termArg_toTerm, refersTo_consts] at h; rw [h]
  · rintro rfl
    exact .del (by simp [evFormula]) (by rw [termArg_toTerm, refersTo_consts])

theorem toTerm_inj {pt qt : List Const} (h : pt.map Const.toTerm = qt.map Const.toTerm) : pt = qt := by
  refine List.map_injective_iff.2 (fun a b h => ?_) h
  cases a; cases b
  simpa [Const.toTerm] using h

theorem addEff_inj {p q pt qt} : addEff p pt = addEff q qt ↔ p = q ∧ pt = qt :=
  ⟨fun h => by simp only [addEff, Effect.add.injEq, PSym.user.injEq] at h; exact ⟨h.2.1, toTerm_inj h.2.2⟩,
   fun ⟨h1, h2⟩ => by rw [h1, h2]⟩
theorem delEff_inj {p q pt qt} : delEff p pt = delEff q qt ↔ p = q ∧ pt = qt :=
  ⟨fun h => by simp only [delEff, Effect.del.injEq, PSym.user.injEq] at h; exact ⟨h.2.1, toTerm_inj h.2.2⟩,
   fun ⟨h1, h2⟩ => by rw [h1, h2]⟩

theorem applyEffect_addEff (L : MLang) (dom : Domains) (m : MState) (p pt) :
    (∃ m', applyEffect L dom m (addEff p pt) = .ok m') ↔ WellTyped L p pt := by
  unfold applyEffect applyFuel addEff
  simp only [Effect.cond, evFormula, termArg_toTerm, MState.add]
  cases hc : checkAssignment L (L.psorts p) (pt.map Arg.const) with
  | error e =>
    simp only [raising, reduceCtorEq, exists_false, false_iff]
    intro h
    rw [(checkAssignment_iff ..).2 (pointDenotes_consts.2 ⟨rfl, h⟩)] at hc
    cases hc
  | ok cs =>
    simp only [raising, Except.ok.injEq, exists_eq', true_iff]
    exact (pointDenotes_consts.1 ((checkAssignment_iff ..).1 hc)).2

theorem applyEffect_delEff (L : MLang) (dom : Domains) (m : MState) (p pt) :
    ∃ m', applyEffect L dom m (delEff p pt) = .ok m' := by
  unfold applyEffect applyFuel delEff
  simp only [Effect.cond, evFormula, MState.discardP, MState.discard]
  obtain ⟨w, hw⟩ := wrapTuple_terms (pt.map Const.toTerm)
  rw [hw]
  cases dlookup m.preds (L.psig p) with
  | none => exact ⟨_, rfl⟩
  | some ext => cases w <;> exact ⟨_, rfl⟩

/-- C24: for ground unconditional add/delete effects, in any order, `progress` makes an atom true iff it is added, or
it was true and is not deleted; function values persist. -/
theorem C24_progress (L : MLang) (dom : Domains) (m m' : MState) (es : List Effect)
    (hes : ∀ e ∈ es, ∃ p pt, e = addEff p pt ∨ e = delEff p pt) (h : progress L dom m es = .ok m') :
    (∀ p pt, m'.holds L p pt = true ↔ addEff p pt ∈ es ∨ (m.holds L p pt = true ∧ delEff p pt ∉ es)) ∧
    (∀ f pt, m'.value L f pt = m.value L f pt) := by
  have hread : ∀ e ∈ es, ∀ x, ¬ e.Reads x := by
    intro e he x
    obtain ⟨p, pt, rfl | rfl⟩ := hes e he <;> simp [addEff, delEff, Effect.Reads, UsesF]
  have hself : ∀ e ∈ es, SelfContained e := by
    intro e he
    obtain ⟨p, pt, rfl | rfl⟩ := hes e he <;> simp [addEff, delEff, SelfContained]
  have hpw : (delsFirst es).Pairwise NoFlow := by
    refine List.pairwise_of_forall_mem_list (fun a _ b hb x _ => hread b (mem_delsFirst.1 hb) x)
  -- no sort has to be enumerated
  have hex : ∀ d e, e ∈ es → ∀ m, applyEffect L d m e = applyEffect L dom m e := by
    intro d e he m
    obtain ⟨p, pt, rfl | rfl⟩ := hes e he <;> rfl
  have hprod : ∀ d e, e ∈ es → ∀ ch, Produces L d m e ch ↔ Produces L dom m e ch := by
    intro d e he ch
    obtain ⟨p, pt, rfl | rfl⟩ := hes e he
    · rw [produces_addEff, produces_addEff]
    · rw [produces_delEff, produces_delEff]
  have h' : progress L (fun _ => .ok []) m es = .ok m' := by
    rw [← h]; unfold progress
    exact seqApply_congr (fun e he m => hex _ e (mem_delsFirst.1 he) m) m
  have s := C25_simultaneous_partial L (fun _ => .ok []) m m' es
    (by intro s cs h; simp only [Except.ok.injEq] at h; subst h; simp) hpw hself (by
      intro p pt e he e' he' hnd hp
      obtain ⟨q, qt, rfl | rfl⟩ := hes e he
      · rw [produces_addEff] at hp; simp at hp
      · simp [delEff, Effect.isDel] at hnd) (by
      intro f pt c d e he e' he' hp
      obtain ⟨q, qt, rfl | rfl⟩ := hes e he
      · rw [produces_addEff] at hp; simp at hp
      · rw [produces_delEff] at hp; simp at hp) h'
  have hok := (C25_returns_partial L (fun _ => .ok []) m es
    (by intro s cs h; simp only [Except.ok.injEq] at h; subst h; simp) hpw hself).1 ⟨m', h'⟩
  constructor
  · intro p pt
    rw [s.1]
    have h1 : (∃ e ∈ es, Produces L (fun _ => .ok []) m e (.add p pt)) ↔ addEff p pt ∈ es := by
      constructor
      · rintro ⟨e, he, hp⟩
        obtain ⟨q, qt, rfl | rfl⟩ := hes e he
        · rw [produces_addEff] at hp
          have := hp.1; simp only [Change.add.injEq] at this
          rw [this.1, this.2]; exact he
        · rw [produces_delEff] at hp; simp at hp
      · intro he
        exact ⟨_, he, produces_addEff.2 ⟨rfl, (applyEffect_addEff ..).1 (hok _ he)⟩⟩
    have h2 : (∃ e ∈ es, Produces L (fun _ => .ok []) m e (.del p pt)) ↔ delEff p pt ∈ es := by
      constructor
      · rintro ⟨e, he, hp⟩
        obtain ⟨q, qt, rfl | rfl⟩ := hes e he
        · rw [produces_addEff] at hp; simp at hp
        · rw [produces_delEff] at hp
          simp only [Change.del.injEq] at hp
          rw [hp.1, hp.2]; exact he
      · intro he
        exact ⟨_, he, produces_delEff.2 rfl⟩
    rw [h1, h2]
  · intro f pt
    refine value_ext (fun c => ?_)
    rw [s.2]
    have : ∀ c, ¬ ∃ e ∈ es, Produces L (fun _ => .ok []) m e (.set f pt c) := by
      rintro c ⟨e, he, hp⟩
      obtain ⟨q, qt, rfl | rfl⟩ := hes e he
      · rw [produces_addEff] at hp; simp at hp
      · rw [produces_delEff] at hp; simp at hp
    constructor
    · rintro (h | h)
      · exact absurd h (this c)
      · exact h.1
    · exact fun h => .inr ⟨h, fun ⟨e, he, d, hp⟩ => this d ⟨e, he, hp⟩⟩

/-- C24: the call returns exactly if every added atom is well-typed (deleting an ill-typed atom is not an error). -/
theorem C24_returns (L : MLang) (dom : Domains) (m : MState) (es : List Effect)
    (hes : ∀ e ∈ es, ∃ p pt, e = addEff p pt ∨ e = delEff p pt) :
    (∃ m', progress L dom m es = .ok m') ↔ ∀ p pt, addEff p pt ∈ es → WellTyped L p pt := by
  have key : ∀ (l : List Effect) (m : MState), (∀ e ∈ l, ∃ p pt, e = addEff p pt ∨ e = delEff p pt) →
      ((∃ m', seqApply (applyEffect L dom) m l = .ok m') ↔ ∀ p pt, addEff p pt ∈ l → WellTyped L p pt) := by
    intro l
    induction l with
    | nil => intro m _; simp [seqApply]
    | cons e l ih =>
      intro m hl
      have ih' := fun m => ih m (fun e he => hl e (by simp [he]))
      simp only [seqApply]
      obtain ⟨p, pt, rfl | rfl⟩ := hl e (by simp)
      · cases hae : applyEffect L dom m (addEff p pt) with
        | error er =>
          simp only [reduceCtorEq, exists_false, false_iff]
          intro hw
          obtain ⟨m', hm'⟩ := (applyEffect_addEff L dom m p pt).2 (hw p pt (by simp))
          rw [hm'] at hae; cases hae
        | ok m1 =>
          have hw := (applyEffect_addEff L dom m p pt).1 ⟨m1, hae⟩
          simp only [ih']
          constructor
          · intro h q qt hq
            rcases List.mem_cons.1 hq with he | hq
            · obtain ⟨rfl, rfl⟩ := addEff_inj.1 he; exact hw
            · exact h q qt hq
          · intro h q qt hq; exact h q qt (by simp [hq])
      · obtain ⟨m1, hm1⟩ := applyEffect_delEff L dom m p pt
        simp only [hm1, ih']
        constructor
        · intro h q qt hq
          rcases List.mem_cons.1 hq with he | hq
          · simp [addEff, delEff] at he
          · exact h q qt hq
        · intro h q qt hq; exact h q qt (by simp [hq])
  unfold progress
  rw [key _ m (fun e he => hes e (mem_delsFirst.1 he))]
  simp only [mem_delsFirst]


/-! ### C26 -/

mutual
theorem affectedE_spec : ∀ e ps fs, affectedE e = .ok (ps, fs) →
    (∀ p, PSym.user p ∈ ps ↔ e.Writes (.pred p)) ∧ (∀ f, f ∈ fs ↔ e.Writes (.fn f))
  | .add _ q _, ps, fs, h => by
    simp only [affectedE, Except.ok.injEq, Prod.mk.injEq] at h
    obtain ⟨rfl, rfl⟩ := h
    constructor
    · intro p; cases q <;> simp [Effect.Writes, eq_comm]
    · intro f; cases q <;> simp [Effect.Writes]
  | .del _ q _, ps, fs, h => by
    simp only [affectedE, Except.ok.injEq, Prod.mk.injEq] at h
    obtain ⟨rfl, rfl⟩ := h
    constructor
    · intro p; cases q <;> simp [Effect.Writes, eq_comm]
    · intro f; cases q <;> simp [Effect.Writes]
  | .lit _ _, ps, fs, h => by simp [affectedE] at h
  | .assign _ g _ _, ps, fs, h => by
    simp only [affectedE, Except.ok.injEq, Prod.mk.injEq] at h
    obtain ⟨rfl, rfl⟩ := h
    simp [Effect.Writes]
  | .univ _ _ es, ps, fs, h => by
    simp only [Effect.Writes]
    exact affectedEs_spec es ps fs (by simpa [affectedE] using h)
theorem affectedEs_spec : ∀ es ps fs, affectedEs es = .ok (ps, fs) →
    (∀ p, PSym.user p ∈ ps ↔ WritesAny (.pred p) es) ∧ (∀ f, f ∈ fs ↔ WritesAny (.fn f) es)
  | [], ps, fs, h => by
    simp only [affectedEs, Except.ok.injEq, Prod.mk.injEq] at h
    obtain ⟨rfl, rfl⟩ := h
    simp [WritesAny]
  | e :: es, ps, fs, h => by
    simp only [affectedEs] at h
    cases h1 : affectedE e with
    | error er => simp [h1] at h
    | ok r1 =>
      obtain ⟨ps1, fs1⟩ := r1
      cases h2 : affectedEs es with
      | error er => simp [h1, h2] at h
      | ok r2 =>
        obtain ⟨ps2, fs2⟩ := r2
        simp only [h1, h2, Except.ok.injEq, Prod.mk.injEq] at h
        obtain ⟨rfl, rfl⟩ := h
        have i1 := affectedE_spec e ps1 fs1 h1
        have i2 := affectedEs_spec es ps2 fs2 h2
        simp [WritesAny, i1.1, i1.2, i2.1, i2.2]
end

theorem single_frame (L : MLang) (dom : Domains) (x : Sym) (e : Effect) (h0 : edepth e = 0)
    (hu : ∀ c vs es, e ≠ .univ c vs es) (hw : ¬ e.Writes x) (m m' : MState) (h : applyEffect L dom m e = .ok m') :
    SameOn L m m' x := by
  have hd : ConstDoms (fun _ => .ok []) := by intro s cs h; simp only [Except.ok.injEq] at h; subst h; simp
  have hs : SelfContained e := by
    cases e with
    | univ c vs es => exact absurd rfl (hu c vs es)
    | _ => trivial
  have h1 := applyFuel_changes (dom := fun _ => .ok []) hd m 0 m e (fun x _ => SameOn.refl L m x) hs
  have h2 : applyFuel L dom 0 m e = applyFuel L (fun _ => .ok []) 0 m e := by
    cases e with
    | univ c vs es => exact absurd rfl (hu c vs es)
    | _ => unfold applyFuel; rfl
  rw [applyEffect, h0, h2, h1] at h
  cases hc : changesFuel L (fun _ => .ok []) m 0 e with
  | error er => simp [hc, liftChanges] at h
  | ok cs =>
    simp only [hc, liftChanges, Except.ok.injEq] at h
    subst h
    exact (sameOn_changes (x := x) (fun ch hch heq => hw (heq ▸ changesFuel_writes L _ m 0 e cs hc ch hch))).symm

/-- Applying an effect leaves every symbol it does not write unchanged. -/
theorem apply_frame (L : MLang) (dom : Domains) (x : Sym) :
    ∀ e, ¬ e.Writes x → ∀ m m', applyEffect L dom m e = .ok m' → SameOn L m m' x := by
  intro e
  induction e using Effect.induct with
  | huniv c vs es ih _ =>
    intro hw m m' h
    rw [applyEffect_univ] at h
    split at h
    · simp at h
    · simp only [Except.ok.injEq] at h; subst h; exact SameOn.refl ..
    · split at h
      · simp at h
      · refine seqApply_rel (fun a b => SameOn L a b x) (fun m => SameOn.refl ..) (fun a b c => SameOn.trans)
          (fun s _ => seqApply_rel (fun a b => SameOn L a b x) (fun m => SameOn.refl ..) (fun a b c => SameOn.trans)
            (fun e he => ih e he s ?_)) m m' h
        rw [writes_subE]
        intro hx
        exact hw (by simp only [Effect.Writes, writesAny_iff]; exact ⟨e, he, hx⟩)
  | hadd c p ts => exact single_frame L dom x _ rfl (fun c vs es => by simp)
  | hdel c p ts => exact single_frame L dom x _ rfl (fun c vs es => by simp)
  | hlit c l => exact single_frame L dom x _ rfl (fun c vs es => by simp)
  | hassign c f ts r => exact single_frame L dom x _ rfl (fun c vs es => by simp)

/-- C26: in every state reached by executing ground instances of the actions, the symbols that are not among the
affected symbols of the actions have the denotation they had initially. -/
theorem C26_static (L : MLang) (dom : Domains) (acts : List Schema) (ps : List PSym) (fs : List String)
    (haff : affectedEs (acts.flatMap (·.effs)) = .ok (ps, fs))
    (plan : List Operator) (hplan : ∀ o ∈ plan, ∃ a ∈ acts, ∃ s, groundSchema a s = .ok o)
    (m m' : MState) (h : execPlan L dom m plan = .ok (some m')) :
    (∀ p, PSym.user p ∉ ps → ∀ pt, m'.holds L p pt = m.holds L p pt) ∧
    (∀ f, f ∉ fs → ∀ pt, m'.value L f pt = m.value L f pt) := by
  have hsp := affectedEs_spec _ _ _ haff
  have key : ∀ x, ¬ WritesAny x (acts.flatMap (·.effs)) → ∀ (plan : List Operator),
      (∀ o ∈ plan, ∃ a ∈ acts, ∃ s, groundSchema a s = .ok o) →
      ∀ m m', execPlan L dom m plan = .ok (some m') → SameOn L m m' x := by
    intro x hx plan
    induction plan with
    | nil => intro _ m m' h; simp only [execPlan, Except.ok.injEq, Option.some.injEq] at h; subst h; exact SameOn.refl ..
    | cons o os ih =>
      intro hpl m m' h
      simp only [execPlan] at h
      split at h
      · simp at h
      · simp at h
      · split at h
        · simp at h
        · rename_i m1 hm1
          refine SameOn.trans ?_ (ih (fun o ho => hpl o (by simp [ho])) m1 m' h)
          obtain ⟨a, ha, s, hg⟩ := hpl o (by simp)
          have he : o.effs = a.effs.map (subE s) := by
            simp only [groundSchema] at hg
            split at hg
            · simp at hg
            · split at hg
              · simp at hg
              · simp only [Except.ok.injEq] at hg; subst hg; exact subEs_eq_map ..
          refine seqApply_rel (fun a b => SameOn L a b x) (fun m => SameOn.refl ..) (fun a b c => SameOn.trans)
            (fun e he' => apply_frame L dom x e ?_) m m1 hm1
          rw [mem_delsFirst, he, List.mem_map] at he'
          obtain ⟨e0, he0, rfl⟩ := he'
          rw [writes_subE]
          intro hw
          exact hx (writesAny_iff.2 ⟨e0, List.mem_flatMap.2 ⟨a, ha, he0⟩, hw⟩)
  constructor
  · intro p hp pt
    exact (key (.pred p) (fun hw => hp ((hsp.1 p).2 hw)) plan hplan m m' h pt).symm
  · intro f hf pt
    exact (key (.fn f) (fun hw => hf ((hsp.2 f).2 hw)) plan hplan m m' h pt).symm

/-- C26, exactness of the classification: a symbol is listed iff it heads some add, delete or functional effect, at any
nesting depth; the call raises exactly on effects of other classes. -/
theorem C26_affected (es : List Effect) (ps : List PSym) (fs : List String) (h : affectedEs es = .ok (ps, fs)) :
    (∀ p, PSym.user p ∈ ps ↔ ∃ e ∈ es, e.Writes (.pred p)) ∧ (∀ f, f ∈ fs ↔ ∃ e ∈ es, e.Writes (.fn f)) := by
  simpa only [writesAny_iff] using affectedEs_spec es ps fs h


/-! ### Refutations -/

/-- No sort has elements to enumerate. -/
def noDom : Domains := fun _ => .ok []
/-- The domain of every sort is `b1, b2`. -/
def twoDom : Domains := fun _ => .ok [exB1.toTerm, exB2.toTerm]

theorem noDom_const : ConstDoms noDom := by intro s cs h; simp only [noDom, Except.ok.injEq] at h; subst h; simp
theorem twoDom_const : ConstDoms twoDom := by
  intro s cs h; simp only [twoDom, Except.ok.injEq] at h; subst h
  simp [exB1, exB2, Const.toTerm]

/-- `{ADD q(b1), q(b1) -> ADD s(b1)}` -/
def chainEffs : List Effect :=
  [addEff "q" [exB1], .add (.atom (.user "q") [exB1.toTerm]) (.user "s") [exB1.toTerm]]

/-- The condition of the second effect is read after the first one has been applied. -/
theorem C25_refuted : ¬ C25_full := by
  intro h
  obtain ⟨m', hm', hs⟩ : ∃ m', progress exLang noDom MState.empty chainEffs = .ok m' ∧
      m'.holds exLang "s" [exB1] = true := ⟨_, rfl, by decide⟩
  have hcond : evFormula exLang MState.empty noSigma (.atom (.user "q") [exB1.toTerm]) = .ok false := by
    rfl
  have hno : ∀ p pt, ∀ e ∈ chainEffs, ¬ Produces exLang noDom MState.empty e (.del p pt) := by
    intro p pt e he hp
    simp only [chainEffs, List.mem_cons, List.not_mem_nil, or_false] at he
    rcases he with rfl | rfl <;> cases hp
  have hc : NoConflict exLang noDom MState.empty chainEffs := by
    refine ⟨fun p pt e he e' _ hp => absurd hp (hno p pt e he), fun f pt c d e he e' _ hp => ?_⟩
    simp only [chainEffs, List.mem_cons, List.not_mem_nil, or_false] at he
    rcases he with rfl | rfl <;> cases hp
  have := ((h exLang noDom MState.empty m' chainEffs noDom_const hc hm').1 "s" [exB1]).1 hs
  rcases this with ⟨e, he, hp⟩ | ⟨hh, _⟩
  · simp only [chainEffs, List.mem_cons, List.not_mem_nil, or_false] at he
    rcases he with rfl | rfl
    · rw [produces_addEff] at hp; simp at hp
    · cases hp with
      | add h _ => rw [hcond] at h; simp at h
  · exact absurd hh (by decide)

/-- Hence the order in which effects are listed matters. -/
theorem C25_order_refuted :
    (∃ m1, progress exLang noDom MState.empty chainEffs = .ok m1 ∧ m1.holds exLang "s" [exB1] = true) ∧
    (∃ m2, progress exLang noDom MState.empty chainEffs.reverse = .ok m2 ∧ m2.holds exLang "s" [exB1] = false) :=
  ⟨⟨_, rfl, by decide⟩, ⟨_, rfl, by decide⟩⟩

/-- `{loc(b1) := loc(b2), loc(b2) := loc(b1)}` does not swap the two values. -/
theorem C25_swap_refuted :
    let r := MState.empty.run exLang [.set "loc" false [.const exB1] (.const exB1), .set "loc" false [.const exB2] (.const exB2)]
    let es := [Effect.assign .top "loc" [exB1.toTerm] (.app "loc" [exB2.toTerm]),
               Effect.assign .top "loc" [exB2.toTerm] (.app "loc" [exB1.toTerm])]
    ∃ m', progress exLang noDom r es = .ok m' ∧ m'.value exLang "loc" [exB1] = .ok exB2 ∧
      m'.value exLang "loc" [exB2] = .ok exB2 :=
  ⟨_, rfl, by decide, by decide⟩

/-- A delete inside a universal effect is not moved to the front: with `{ADD p(b1), forall x DEL p(x)}` the delete wins,
with the plain delete `{ADD p(b1), DEL p(b1)}` the add wins (as C24 says). -/
theorem C24_universal_refuted :
    (∃ m', progress exLang twoDom MState.empty
        [addEff "p" [exB1], .univ .top [⟨"x", "block"⟩] [.del .top (.user "p") [.var ⟨"x", "block"⟩]]] = .ok m' ∧
      m'.holds exLang "p" [exB1] = false) ∧
    (∃ m', progress exLang twoDom MState.empty [addEff "p" [exB1], delEff "p" [exB1]] = .ok m' ∧
      m'.holds exLang "p" [exB1] = true) :=
  ⟨⟨_, rfl, by decide⟩, ⟨_, rfl, by decide⟩⟩

/-! ### Non-vacuity -/

example : ∀ e ∈ [addEff "p" [exB1], delEff "q" [exB1], delEff "p" [exB1]], ∃ p pt, e = addEff p pt ∨ e = delEff p pt := by
  simp only [List.mem_cons, List.not_mem_nil, or_false, forall_eq_or_imp, forall_eq]
  exact ⟨⟨_, _, .inl rfl⟩, ⟨_, _, .inr rfl⟩, ⟨_, _, .inr rfl⟩⟩

/-- Effects that satisfy the conditions of the C25 theorems: a conditional universal effect, a delete of the same
predicate, and an assignment reading another function. -/
def exEffs : List Effect :=
  [.univ (.atom (.user "q") [exB1.toTerm]) [⟨"x", "block"⟩]
      [.add (.atom (.user "q") [.var ⟨"x", "block"⟩]) (.user "p") [.var ⟨"x", "block"⟩]],
   delEff "p" [exB2], .assign .top "loc" [exB1.toTerm] (.app "home" [exB1.toTerm])]

def exEffState : MState := MState.empty.run exLang
  [.add (.user "q") [.const exB1], .add (.user "p") [.const exB2], .set "home" false [.const exB1] (.const exB2)]

example : (delsFirst exEffs).Pairwise NoFlow ∧ exEffs.Pairwise (fun a b => NoFlow a b ∧ NoFlow b a) ∧
    (∀ e ∈ exEffs, SelfContained e) ∧
    (∃ m', progress exLang twoDom exEffState exEffs = .ok m' ∧ m'.holds exLang "p" [exB1] = true ∧
      m'.holds exLang "p" [exB2] = false ∧ m'.value exLang "loc" [exB1] = .ok exB2) := by
  refine ⟨?_, ?_, ?_, ⟨_, rfl, by decide, by decide, by decide⟩⟩
  · simp [delsFirst, exEffs, Effect.isDel, delEff, NoFlow, Effect.Writes, Effect.Reads, UsesF, UsesT, UsesTs,
      WritesAny, ReadsAny, Const.toTerm]
  · simp [exEffs, delEff, NoFlow, Effect.Writes, Effect.Reads, UsesF, UsesT, UsesTs,
      WritesAny, ReadsAny, Const.toTerm]
  · simp [exEffs, delEff, SelfContained, NoFlow, Effect.Writes, Effect.Reads, UsesF, UsesTs, UsesT,
      WritesAny, ReadsAny, Const.toTerm]

/-- An action schema and a plan made of an instance of it. -/
def exSchema : Schema where
  params := [⟨"x", "block"⟩]
  pre := .atom (.user "q") [.var ⟨"x", "block"⟩]
  effs := [.add .top (.user "p") [.var ⟨"x", "block"⟩]]

example : affectedEs ([exSchema].flatMap (·.effs)) = .ok ([.user "p"], []) ∧
    groundSchema exSchema (createSubst [.var ⟨"x", "block"⟩] [exB1.toTerm]) =
      .ok ⟨.atom (.user "q") [exB1.toTerm], [addEff "p" [exB1]]⟩ ∧
    ∃ m', execPlan exLang noDom exEffState [⟨.atom (.user "q") [exB1.toTerm], [addEff "p" [exB1]]⟩] = .ok (some m') :=
  ⟨rfl, rfl, _, rfl⟩

end Tarski

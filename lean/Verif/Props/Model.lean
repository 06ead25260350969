import Mathlib.Data.List.Forall2
import Verif.ModelLemmas
/-! C18, C46: a model behaves as a set of ground atoms plus a finite map. -/
namespace Tarski

/-! ### Specification -/

/-- What an argument denotes at a position of sort `s`: a constant of a subsort denotes itself; a literal of the sort
denotes the constant of that name. (The last three cases are the code's treatment of variables and compound terms.) -/
inductive ArgDenotes (L : MLang) : Arg → String → Const → Prop
  | const {c s} : L.isSub c.sort s = true → ArgDenotes L (.const c) s c
  | lit {n s} : L.contains s n = true → L.isSub s s = true → ArgDenotes L (.lit n) s ⟨n, s⟩
  | varIn {v : Var} {s} : L.interval s = false → L.isSub s s = true → L.contains s (.str v.sym) = true →
      ArgDenotes L (.var v) s ⟨.str v.sym, s⟩
  | varOut {v : Var} {s} : L.interval s = false → L.isSub s s = true → L.contains s (.str v.sym) = false →
      ArgDenotes L (.var v) s ⟨.pyNone, s⟩
  | term {s} : L.interval s = false → L.isSub s s = true → ArgDenotes L .term s ⟨.pyNone, s⟩

/-- Argument lists denote points, one argument per sort. -/
inductive PointDenotes (L : MLang) : List Arg → List String → List Const → Prop
  | nil : PointDenotes L [] [] []
  | cons {a s c as ss cs} : ArgDenotes L a s c → PointDenotes L as ss cs → PointDenotes L (a :: as) (s :: ss) (c :: cs)

/-- The argument list is made of exactly these constants. -/
inductive RefersTo : List Arg → List Const → Prop
  | nil : RefersTo [] []
  | const {c as cs} : RefersTo as cs → RefersTo (.const c :: as) (c :: cs)
  | foreign {c as cs} : RefersTo as cs → RefersTo (.foreign c :: as) (c :: cs)

/-- The call adds the ground atom `p(pt)`. -/
def MOp.Adds (L : MLang) (o : MOp) (p : String) (pt : List Const) : Prop :=
  ∃ args, o = .add (.user p) args ∧ PointDenotes L args (L.psorts p) pt

/-- The call removes the ground atom `p(pt)`, if present. -/
def MOp.Clears (o : MOp) (p : String) (pt : List Const) : Prop :=
  (∃ args, (o = .remove p args ∨ o = .discard p args) ∧ RefersTo args pt) ∨ o = .removePred p

/-- The call sets the value of `f` at `pt` to `c`. -/
def MOp.Sets (L : MLang) (o : MOp) (f : String) (pt : List Const) (c : Const) : Prop :=
  ∃ args v, o = .set f false args v ∧ (∀ a ∈ args, a.isConst = true) ∧ v ≠ .lit .pyNone ∧
    PointDenotes L (args ++ [v]) (L.fsorts f) (pt ++ [c])

/-- The call writes or removes the value of `f` at `pt`. -/
def MOp.Overwrites (L : MLang) (o : MOp) (f : String) (pt : List Const) : Prop :=
  (∃ c, o.Sets L f pt c) ∨ o = .removeFun f

/-- Predicate / function names used by a call. -/
def MOp.predName : MOp → Option String
  | .add (.user p) _ => some p
  | .remove p _ => some p
  | .discard p _ => some p
  | .removePred p => some p
  | _ => none
def MOp.funName : MOp → Option String
  | .set f _ _ _ => some f
  | .removeFun f => some f
  | _ => none

/-- No name is used both as a predicate and as a function (this is what C19 guarantees of a language). -/
def NamesApart (ops : List MOp) : Prop :=
  ∀ o ∈ ops, ∀ o' ∈ ops, ∀ p f, o.predName = some p → o'.funName = some f → p ≠ f

/-! ### Checking arguments -/

theorem checkElement_iff (L : MLang) (a : Arg) (s : String) (c : Const) :
    checkElement L a s = .ok c ↔ ArgDenotes L a s c := by
  constructor
  · intro h
    cases a with
    | const d => simp only [checkElement] at h; split at h <;> simp at h; subst h; exact .const ‹_›
    | foreign d => simp [checkElement] at h
    | lit n =>
      simp only [checkElement] at h
      split at h
      · split at h <;> simp at h; subst h; exact .lit ‹_› ‹_›
      · simp at h
    | var v =>
      simp only [checkElement] at h
      split at h
      · simp at h
      · rename_i hi
        split at h
        · split at h <;> simp at h <;> subst h
          · exact .varIn (by simpa using hi) ‹_› ‹_›
          · exact .varOut (by simpa using hi) ‹_› (by simp_all)
        · simp at h
    | term =>
      simp only [checkElement] at h
      split at h
      · simp at h
      · rename_i hi
        split at h <;> simp at h
        subst h
        exact .term (by simpa using hi) ‹_›
  · intro h
    cases h with
    | term h1 h2 => simp [checkElement, h1, h2]
    | const h => simp [checkElement, h]
    | lit h1 h2 => simp [checkElement, h1, h2]
    | varIn h1 h2 h3 => simp [checkElement, h1, h2, h3]
    | varOut h1 h2 h3 => simp [checkElement, h1, h2, h3]

theorem checkElements_iff (L : MLang) (as : List Arg) (ss : List String) (cs : List Const) (hl : ss.length = as.length) :
    checkElements L as ss = .ok cs ↔ PointDenotes L as ss cs := by
  induction as generalizing ss cs with
  | nil =>
    have : ss = [] := by simpa using hl
    subst this
    simp only [checkElements, Except.ok.injEq]
    exact ⟨fun h => h ▸ .nil, fun h => by cases h; rfl⟩
  | cons a as ih =>
    cases ss with
    | nil => simp at hl
    | cons s ss =>
      have hl' : ss.length = as.length := by simpa using hl
      simp only [checkElements]
      constructor
      · intro h
        cases h1 : checkElement L a s with
        | error e => simp [h1] at h
        | ok c =>
          cases h2 : checkElements L as ss with
          | error e => simp [h1, h2] at h
          | ok ds =>
            simp [h1, h2] at h
            subst h
            exact .cons ((checkElement_iff ..).1 h1) ((ih ss ds hl').1 h2)
      · intro h
        cases h with
        | cons h1 h2 => simp [(checkElement_iff ..).2 h1, (ih _ _ hl').2 h2]

theorem PointDenotes.length {L : MLang} {as ss cs} (h : PointDenotes L as ss cs) :
    ss.length = as.length ∧ cs.length = as.length := by
  induction h <;> simp_all

theorem checkAssignment_iff (L : MLang) (as : List Arg) (ss : List String) (cs : List Const) :
    checkAssignment L ss as = .ok cs ↔ PointDenotes L as ss cs := by
  simp only [checkAssignment]
  by_cases hl : ss.length = as.length
  · simp [hl, checkElements_iff L as ss cs hl]
  · simp [hl]; exact fun h => hl h.length.1

theorem wrapTuple_iff (args : List Arg) (pt : List Const) : wrapTuple args = .ok (some pt) ↔ RefersTo args pt := by
  induction args generalizing pt with
  | nil => simp only [wrapTuple, Except.ok.injEq, Option.some.injEq]; exact ⟨fun h => h ▸ .nil, fun h => by cases h; rfl⟩
  | cons a as ih =>
    cases a with
    | lit n => simp only [wrapTuple]; exact ⟨fun h => by simp at h, fun h => by cases h⟩
    | var v =>
      simp only [wrapTuple]
      refine ⟨fun h => ?_, fun h => by cases h⟩
      split at h <;> simp at h
    | term =>
      simp only [wrapTuple]
      refine ⟨fun h => ?_, fun h => by cases h⟩
      split at h <;> simp at h
    | const c =>
      simp only [wrapTuple]
      constructor
      · intro h
        split at h
        · simp at h
        · rename_i r hr
          cases r with
          | none => simp at h
          | some r => simp at h; subst h; exact .const ((ih r).1 hr)
      · intro h
        cases h with | const h => rw [(ih _).2 h]; rfl
    | foreign c =>
      simp only [wrapTuple]
      constructor
      · intro h
        split at h
        · simp at h
        · rename_i r hr
          cases r with
          | none => simp at h
          | some r => simp at h; subst h; exact .foreign ((ih r).1 hr)
      · intro h
        cases h with | foreign h => rw [(ih _).2 h]; rfl

/-! ### One step -/

/-- Invariant: predicate extensions are stored under signatures of predicates (names outside `F`), function extensions
under signatures of functions (names in `F`). -/
structure MInv (L : MLang) (F : String → Prop) (m : MState) : Prop where
  preds : ∀ k, (dlookup m.preds k).isSome → ∃ p, ¬ F p ∧ k = L.psig p
  fns : ∀ k, (dlookup m.fns k).isSome → ∃ f, F f ∧ k = L.fsig f

def MOp.okFor (F : String → Prop) (o : MOp) : Prop :=
  (∀ p, o.predName = some p → ¬ F p) ∧ (∀ f, o.funName = some f → F f)

theorem minv_step {L F m o} (h : MInv L F m) (ho : MOp.okFor F o) : MInv L F (m.step L o).1 := by
  cases o with
  | add p args =>
    cases p with
    | cmp c => exact h
    | user n =>
      simp only [MState.step, MState.add]
      split
      · exact h
      · refine ⟨fun k hk => ?_, h.fns⟩
        simp only [dlookup_dinsert] at hk
        split at hk
        · rename_i hk'; exact ⟨n, ho.1 n rfl, hk'.symm⟩
        · exact h.preds k hk
  | remove p args =>
    simp only [MState.step, MState.remove]
    split
    · exact h
    · split
      · exact h
      · exact h
      · split
        · refine ⟨fun k hk => ?_, h.fns⟩
          simp only [dlookup_dinsert] at hk
          split at hk
          · rename_i hk'; exact ⟨p, ho.1 p rfl, hk'.symm⟩
          · exact h.preds k hk
        · exact h
  | discard p args =>
    simp only [MState.step, MState.discard]
    split
    · exact h
    · split
      · exact h
      · exact h
      · refine ⟨fun k hk => ?_, h.fns⟩
        simp only [dlookup_dinsert] at hk
        split at hk
        · rename_i hk'; exact ⟨p, ho.1 p rfl, hk'.symm⟩
        · exact h.preds k hk
  | set f b args v =>
    simp only [MState.step, MState.set]
    split
    · exact h
    · split
      · exact h
      · generalize checkAssignment _ _ _ = r
        cases r with
        | error e => exact h
        | ok cs =>
          by_cases hv : v = .lit .pyNone
          · simp only [hv, if_true]; exact h
          · simp only [hv, if_false]
            refine ⟨h.preds, fun k hk => ?_⟩
            simp only [dlookup_dinsert] at hk
            split at hk
            · rename_i hk'; exact ⟨f, ho.2 f rfl, hk'.symm⟩
            · exact h.fns k hk
  | removePred p =>
    simp only [MState.step, MState.removeSymbol]
    split
    · refine ⟨h.preds, fun k hk => h.fns k ?_⟩
      simp only [dlookup_ddelete] at hk
      split at hk <;> simp_all
    · split
      · refine ⟨fun k hk => h.preds k ?_, h.fns⟩
        simp only [dlookup_ddelete] at hk
        split at hk <;> simp_all
      · exact h
  | removeFun p =>
    simp only [MState.step, MState.removeSymbol]
    split
    · refine ⟨h.preds, fun k hk => h.fns k ?_⟩
      simp only [dlookup_ddelete] at hk
      split at hk <;> simp_all
    · split
      · refine ⟨fun k hk => h.preds k ?_, h.fns⟩
        simp only [dlookup_ddelete] at hk
        split at hk <;> simp_all
      · exact h

theorem holds_step {L F m o} (h : MInv L F m) (ho : MOp.okFor F o) (p : String) (pt : List Const) :
    (m.step L o).1.holds L p pt = true ↔ o.Adds L p pt ∨ (m.holds L p pt = true ∧ ¬ o.Clears p pt) := by
  cases o with
  | add q args =>
    have hc : ¬ (MOp.add q args).Clears p pt := by simp [MOp.Clears]
    simp only [hc, not_false_eq_true, and_true]
    cases q with
    | cmp c =>
      have : ¬ (MOp.add (.cmp c) args).Adds L p pt := by simp [MOp.Adds]
      simp [MState.step, MState.add, this]
    | user n =>
      cases hr : checkAssignment L (L.psorts n) args with
      | error e =>
        have : ¬ (MOp.add (.user n) args).Adds L p pt := by
          rintro ⟨args', he, hd⟩
          cases he
          rw [(checkAssignment_iff ..).2 hd] at hr
          cases hr
        simp [MState.step, MState.add, this, hr]
      | ok pt' =>
        have hA : (MOp.add (.user n) args).Adds L p pt ↔ n = p ∧ pt' = pt := by
          constructor
          · rintro ⟨args', he, hd⟩
            cases he
            rw [(checkAssignment_iff ..).2 hd] at hr
            cases hr
            exact ⟨rfl, rfl⟩
          · rintro ⟨rfl, rfl⟩
            exact ⟨args, rfl, (checkAssignment_iff ..).1 hr⟩
        rw [hA]
        simp only [MState.step, MState.add, hr, holds_iff, dlookup_dinsert]
        by_cases hn : n = p
        · subst hn
          simp only [if_true, Option.some.injEq, exists_eq_left', mem_ptAdd, true_and]
          cases hl : dlookup m.preds (L.psig n) with
          | none => simp [eq_comm]
          | some e => simp [eq_comm]
        · have : L.psig n ≠ L.psig p := fun hh => hn (psig_inj.1 hh)
          simp [this, hn]
  | remove q args =>
    have hA : ¬ (MOp.remove q args).Adds L p pt := by simp [MOp.Adds]
    have hC : (MOp.remove q args).Clears p pt ↔ q = p ∧ RefersTo args pt := by
      constructor
      · rintro (⟨args', (he | he), hr⟩ | he) <;> cases he
        exact ⟨rfl, hr⟩
      · rintro ⟨rfl, hr⟩
        exact .inl ⟨args, .inl rfl, hr⟩
    rw [hC]
    simp only [hA, false_or, MState.step, MState.remove]
    cases hl : dlookup m.preds (L.psig q) with
    | none =>
      simp only [holds_iff]
      refine ⟨fun ⟨e, he, hm⟩ => ⟨⟨e, he, hm⟩, fun ⟨hq, _⟩ => by subst hq; simp [hl] at he⟩, fun hh => hh.1⟩
    | some ext =>
      cases hw : wrapTuple args with
      | error e =>
        have : ¬ RefersTo args pt := fun hh => by rw [(wrapTuple_iff ..).2 hh] at hw; cases hw
        simp [this]
      | ok r =>
        cases r with
        | none =>
          have : ¬ RefersTo args pt := fun hh => by rw [(wrapTuple_iff ..).2 hh] at hw; cases hw
          simp [this]
        | some pt' =>
          have hR : RefersTo args pt ↔ pt' = pt := by
            rw [← wrapTuple_iff, hw]; simp
          rw [hR]
          by_cases hm : pt' ∈ ext
          · simp only [hm, if_true, holds_iff, dlookup_dinsert]
            by_cases hq : q = p
            · subst hq
              simp [hl, mem_ptDiscard, eq_comm]
            · have : L.psig q ≠ L.psig p := fun hh => hq (psig_inj.1 hh)
              simp [this, hq]
          · simp only [hm, if_false, holds_iff]
            refine ⟨fun ⟨e, he, hme⟩ => ⟨⟨e, he, hme⟩, ?_⟩, fun hh => hh.1⟩
            rintro ⟨rfl, rfl⟩
            rw [hl] at he; cases he
            exact hm hme
  | discard q args =>
    have hA : ¬ (MOp.discard q args).Adds L p pt := by simp [MOp.Adds]
    have hC : (MOp.discard q args).Clears p pt ↔ q = p ∧ RefersTo args pt := by
      constructor
      · rintro (⟨args', (he | he), hr⟩ | he) <;> cases he
        exact ⟨rfl, hr⟩
      · rintro ⟨rfl, hr⟩
        exact .inl ⟨args, .inr rfl, hr⟩
    rw [hC]
    simp only [hA, false_or, MState.step, MState.discard]
    cases hl : dlookup m.preds (L.psig q) with
    | none =>
      simp only [holds_iff]
      refine ⟨fun ⟨e, he, hm⟩ => ⟨⟨e, he, hm⟩, fun ⟨hq, _⟩ => by subst hq; simp [hl] at he⟩, fun hh => hh.1⟩
    | some ext =>
      cases hw : wrapTuple args with
      | error e =>
        have : ¬ RefersTo args pt := fun hh => by rw [(wrapTuple_iff ..).2 hh] at hw; cases hw
        simp [this]
      | ok r =>
        cases r with
        | none =>
          have : ¬ RefersTo args pt := fun hh => by rw [(wrapTuple_iff ..).2 hh] at hw; cases hw
          simp [this]
        | some pt' =>
          have hR : RefersTo args pt ↔ pt' = pt := by
            rw [← wrapTuple_iff, hw]; simp
          rw [hR]
          simp only [holds_iff, dlookup_dinsert]
          by_cases hq : q = p
          · subst hq
            simp [hl, mem_ptDiscard, eq_comm]
          · have : L.psig q ≠ L.psig p := fun hh => hq (psig_inj.1 hh)
            simp [this, hq]
  | set f b args v =>
    have hA : ¬ (MOp.set f b args v).Adds L p pt := by simp [MOp.Adds]
    have hC : ¬ (MOp.set f b args v).Clears p pt := by simp [MOp.Clears]
    simp only [hA, hC, false_or, not_false_eq_true, and_true, MState.step, MState.set]
    split
    · rfl
    · split
      · rfl
      · generalize checkAssignment _ _ _ = r
        cases r with
        | error e => rfl
        | ok cs => by_cases hv : v = .lit .pyNone <;> simp [hv, MState.holds]
  | removePred q =>
    have hA : ¬ (MOp.removePred q).Adds L p pt := by simp [MOp.Adds]
    have hC : (MOp.removePred q).Clears p pt ↔ q = p := by simp [MOp.Clears]
    rw [hC]
    simp only [hA, false_or, MState.step, MState.removeSymbol]
    have hf : dlookup m.fns (L.psig q) = none := by
      cases hh : dlookup m.fns (L.psig q) with
      | none => rfl
      | some d =>
        obtain ⟨f, hf, he⟩ := h.fns (L.psig q) (by simp [hh])
        exact absurd (psig_fsig he ▸ hf) (ho.1 q rfl)
    simp only [hf, Option.isSome_none, Bool.false_eq_true, if_false]
    cases hl : dlookup m.preds (L.psig q) with
    | none =>
      simp only [Option.isSome_none, Bool.false_eq_true, if_false, holds_iff]
      refine ⟨fun ⟨e, he, hm⟩ => ⟨⟨e, he, hm⟩, fun hq => by subst hq; simp [hl] at he⟩, fun hh => hh.1⟩
    | some ext =>
      simp only [Option.isSome_some, if_true, holds_iff, dlookup_ddelete]
      by_cases hq : q = p
      · subst hq; simp
      · have : L.psig p ≠ L.psig q := fun hh => hq (psig_inj.1 hh).symm
        simp [this, hq]
  | removeFun f =>
    have hA : ¬ (MOp.removeFun f).Adds L p pt := by simp [MOp.Adds]
    have hC : ¬ (MOp.removeFun f).Clears p pt := by simp [MOp.Clears]
    simp only [hA, hC, false_or, not_false_eq_true, and_true, MState.step, MState.removeSymbol]
    have hf : dlookup m.preds (L.fsig f) = none := by
      cases hh : dlookup m.preds (L.fsig f) with
      | none => rfl
      | some d =>
        obtain ⟨q, hq, he⟩ := h.preds (L.fsig f) (by simp [hh])
        exact absurd (ho.2 f rfl) (psig_fsig he.symm ▸ hq)
    split
    · simp [MState.holds]
    · simp [hf]

theorem value_step {L F m o} (h : MInv L F m) (ho : MOp.okFor F o) (f : String) (pt : List Const) (c : Const) :
    (m.step L o).1.value L f pt = .ok c ↔ o.Sets L f pt c ∨ (m.value L f pt = .ok c ∧ ¬ o.Overwrites L f pt) := by
  have noset : ∀ o : MOp, (∀ g b args v, o ≠ .set g b args v) → ∀ c, ¬ o.Sets L f pt c := by
    rintro o ho c ⟨args, v, he, _⟩
    exact ho _ _ _ _ he
  cases o with
  | set g b args v =>
    have hSpec : (∀ cs, checkAssignment L (L.fsorts g) (args ++ [v]) = .ok cs → b = false → args.all Arg.isConst = true →
        v ≠ .lit .pyNone → ∀ pt c, (MOp.set g b args v).Sets L f pt c ↔ g = f ∧ cs.dropLast = pt ∧ cs.getLastD default = c) := by
      intro cs hcs hb hall hv pt c
      have hd := (checkAssignment_iff ..).1 hcs
      have hl := hd.length.2
      constructor
      · rintro ⟨args', v', he, _, _, hp⟩
        cases he
        have := (checkAssignment_iff ..).2 hp
        rw [hcs] at this
        cases this
        exact ⟨rfl, by simp, by simp⟩
      · rintro ⟨rfl, rfl, rfl⟩
        refine ⟨args, v, by rw [hb], by simpa using hall, hv, ?_⟩
        have hne : cs ≠ [] := by rintro rfl; simp at hl
        have : cs.dropLast ++ [cs.getLastD default] = cs := by
          rw [List.getLastD_eq_getLast?, List.getLast?_eq_some_getLast hne]
          simpa using List.dropLast_concat_getLast hne
        rw [this]; exact hd
    simp only [MState.step, MState.set]
    by_cases hb : b = true
    · have : ∀ c, ¬ (MOp.set g b args v).Sets L f pt c := by
        rintro c ⟨_, _, he, _⟩; cases he; simp at hb
      simp [hb, MOp.Overwrites]
      simp [hb] at this
      simp [this]
    · have hb' : b = false := by simpa using hb
      subst hb'
      simp only [Bool.false_eq_true, if_false]
      cases hall : args.all Arg.isConst with
      | false =>
        have : ∀ c, ¬ (MOp.set g false args v).Sets L f pt c := by
          rintro c ⟨_, _, he, hh, _⟩; cases he
          simp only [List.all_eq_false] at hall
          obtain ⟨x, hx, hx'⟩ := hall
          exact hx' (hh x hx)
        simp [MOp.Overwrites, this]
      | true =>
        simp only [Bool.true_eq_false, if_false]
        by_cases hv : v = .lit .pyNone
        · have : ∀ c, ¬ (MOp.set g false args v).Sets L f pt c := by
            rintro c ⟨_, _, he, _, hn, _⟩; cases he; exact hn hv
          simp only [hv, if_true]
          rw [hv] at this
          cases checkAssignment L (L.fsorts g) args <;> simp [MOp.Overwrites, this]
        · simp only [hv, if_false]
          cases hr : checkAssignment L (L.fsorts g) (args ++ [v]) with
          | error e =>
            have : ∀ c, ¬ (MOp.set g false args v).Sets L f pt c := by
              rintro c ⟨_, _, he, _, _, hp⟩; cases he
              rw [(checkAssignment_iff ..).2 hp] at hr; cases hr
            simp [MOp.Overwrites, this]
          | ok cs =>
            have hs := hSpec cs hr rfl hall hv
            simp only [MOp.Overwrites, hs, value_iff, dlookup_dinsert]
            by_cases hg : g = f
            · subst hg
              simp only [if_true, Option.some.injEq, exists_eq_left', dlookup_dinsert, true_and]
              by_cases hp : cs.dropLast = pt
              · simp [hp]
              · simp only [hp, if_false, false_and, exists_false, false_or, reduceCtorEq, not_false_eq_true, and_true]
                cases hl : dlookup m.fns (L.fsig g) <;> simp [dlookup]
            · have : L.fsig g ≠ L.fsig f := fun hh => hg (fsig_inj.1 hh)
              simp [this, hg]
  | add q args =>
    have hs := noset (.add q args) (by simp)
    have : (MState.step L m (.add q args)).1.fns = m.fns := by
      cases q with
      | cmp _ => rfl
      | user n => simp only [MState.step, MState.add]; split <;> rfl
    simp [MOp.Overwrites, hs, MState.value, this]
  | remove q args =>
    have hs := noset (.remove q args) (by simp)
    have : (MState.step L m (.remove q args)).1.fns = m.fns := by
      simp only [MState.step, MState.remove]
      split
      · rfl
      · split
        · rfl
        · rfl
        · split <;> rfl
    simp [MOp.Overwrites, hs, MState.value, this]
  | discard q args =>
    have hs := noset (.discard q args) (by simp)
    have : (MState.step L m (.discard q args)).1.fns = m.fns := by
      simp only [MState.step, MState.discard]
      split
      · rfl
      · split <;> rfl
    simp [MOp.Overwrites, hs, MState.value, this]
  | removePred q =>
    have hs := noset (.removePred q) (by simp)
    have hf : dlookup m.fns (L.psig q) = none := by
      cases hh : dlookup m.fns (L.psig q) with
      | none => rfl
      | some d =>
        obtain ⟨f, hf, he⟩ := h.fns (L.psig q) (by simp [hh])
        exact absurd (psig_fsig he ▸ hf) (ho.1 q rfl)
    have : (MState.step L m (.removePred q)).1.fns = m.fns := by
      simp only [MState.step, MState.removeSymbol, hf, Option.isSome_none, Bool.false_eq_true, if_false]
      split <;> rfl
    simp [MOp.Overwrites, hs, MState.value, this]
  | removeFun g =>
    have hs := noset (.removeFun g) (by simp)
    have hO : (MOp.removeFun g).Overwrites L f pt ↔ g = f := by simp [MOp.Overwrites, hs]
    rw [hO]
    simp only [hs, false_or, MState.step, MState.removeSymbol]
    have hp : dlookup m.preds (L.fsig g) = none := by
      cases hh : dlookup m.preds (L.fsig g) with
      | none => rfl
      | some d =>
        obtain ⟨q, hq, he⟩ := h.preds (L.fsig g) (by simp [hh])
        exact absurd (ho.2 g rfl) (psig_fsig he.symm ▸ hq)
    cases hl : dlookup m.fns (L.fsig g) with
    | none =>
      simp only [Option.isSome_none, Bool.false_eq_true, if_false, hp, value_iff]
      refine ⟨fun ⟨e, he, hm⟩ => ⟨⟨e, he, hm⟩, fun hq => by subst hq; simp [hl] at he⟩, fun hh => hh.1⟩
    | some d =>
      simp only [Option.isSome_some, if_true, value_iff, dlookup_ddelete]
      by_cases hq : g = f
      · subst hq; simp
      · have : L.fsig f ≠ L.fsig g := fun hh => hq (fsig_inj.1 hh).symm
        simp [this, hq]

/-! ### C18 -/

theorem namesApart_ok {ops : List MOp} (h : NamesApart ops) :
    ∀ o ∈ ops, MOp.okFor (fun f => ∃ o' ∈ ops, o'.funName = some f) o :=
  fun o ho => ⟨fun p hp ⟨o', ho', hf⟩ => h o ho o' ho' p p hp hf rfl, fun _ hf => ⟨o, ho, hf⟩⟩

theorem minv_empty (L : MLang) (F : String → Prop) : MInv L F MState.empty :=
  ⟨fun k hk => by simp [MState.empty, dlookup] at hk, fun k hk => by simp [MState.empty, dlookup] at hk⟩

/-- C18, predicates: after any history of calls, failed ones included, `holds(p, pt)` is true iff some call added
`p(pt)` and no later call removed it. In particular calls on other atoms do not matter. -/
theorem C18_holds (L : MLang) (ops : List MOp) (h : NamesApart ops) (p : String) (pt : List Const) :
    (MState.empty.run L ops).holds L p pt = true ↔
      ∃ pre o post, ops = pre ++ o :: post ∧ o.Adds L p pt ∧ ∀ x ∈ post, ¬ x.Clears p pt := by
  have := last_write (fun m o => (MState.step L m o).1) (fun m => m.holds L p pt = true)
    (MInv L (fun f => ∃ o' ∈ ops, o'.funName = some f)) (fun o => o.Adds L p pt) (fun o => o.Clears p pt)
    (MOp.okFor (fun f => ∃ o' ∈ ops, o'.funName = some f))
    (fun m o hm ho => minv_step hm ho) (fun m o hm ho => holds_step hm ho p pt)
    ops MState.empty (minv_empty L _) (namesApart_ok h)
  have he : ¬ MState.empty.holds L p pt = true := by simp [MState.holds, MState.empty, dlookup]
  simpa [he, MState.run] using this

/-- C18, functions: `value(f, pt)` is the value of the last `set` on `f(pt)` not followed by the removal of `f`. -/
theorem C18_value (L : MLang) (ops : List MOp) (h : NamesApart ops) (f : String) (pt : List Const) (c : Const) :
    (MState.empty.run L ops).value L f pt = .ok c ↔
      ∃ pre o post, ops = pre ++ o :: post ∧ o.Sets L f pt c ∧ ∀ x ∈ post, ¬ x.Overwrites L f pt := by
  have := last_write (fun m o => (MState.step L m o).1) (fun m => m.value L f pt = .ok c)
    (MInv L (fun f => ∃ o' ∈ ops, o'.funName = some f)) (fun o => o.Sets L f pt c) (fun o => o.Overwrites L f pt)
    (MOp.okFor (fun f => ∃ o' ∈ ops, o'.funName = some f))
    (fun m o hm ho => minv_step hm ho) (fun m o hm ho => value_step hm ho f pt c)
    ops MState.empty (minv_empty L _) (namesApart_ok h)
  have he : ¬ MState.empty.value L f pt = .ok c := by simp [MState.value, MState.empty, dlookup]
  simpa [he, MState.run] using this

/-- C18, undefined points: `value` fails (KeyError) exactly at the points without a value. -/
theorem C18_value_error (L : MLang) (m : MState) (f : String) (pt : List Const) :
    (∀ c, m.value L f pt ≠ .ok c) ↔ m.value L f pt = .error .keyError := by
  simp only [MState.value]
  split
  · simp
  · split <;> simp

/-- C18, failed calls change nothing. -/
theorem C18_atomic (L : MLang) (m : MState) (o : MOp) (e : Err) (h : (m.step L o).2 = some e) : (m.step L o).1 = m := by
  cases o with
  | add q args =>
    cases q with
    | cmp _ => rfl
    | user n => simp only [MState.step, MState.add] at h ⊢; split <;> simp_all
  | remove q args =>
    simp only [MState.step, MState.remove] at h ⊢
    split <;> try rfl
    split <;> try rfl
    split <;> simp_all
  | discard q args =>
    simp only [MState.step, MState.discard] at h ⊢
    split <;> try rfl
    split <;> simp_all
  | set f b args v =>
    simp only [MState.step, MState.set] at h ⊢
    split <;> try rfl
    split <;> try rfl
    split <;> try rfl
    split <;> simp_all
  | removePred q => simp [MState.step] at h
  | removeFun q => simp [MState.step] at h

/-- C18, `remove` on a tuple of constants succeeds iff the atom is true; otherwise it raises KeyError. -/
theorem C18_remove (L : MLang) (m : MState) (p : String) (args : List Arg) (pt : List Const) (h : RefersTo args pt) :
    ((m.step L (.remove p args)).2 = none ↔ m.holds L p pt = true) ∧
    ((m.step L (.remove p args)).2 = some .keyError ↔ m.holds L p pt = false) := by
  simp only [MState.step, MState.remove, MState.holds, (wrapTuple_iff ..).2 h]
  cases dlookup m.preds (L.psig p) with
  | none => simp
  | some ext => by_cases hm : pt ∈ ext <;> simp [hm]

/-- C18, `discard` on a tuple of constants never raises. -/
theorem C18_discard (L : MLang) (m : MState) (p : String) (args : List Arg) (pt : List Const) (h : RefersTo args pt) :
    (m.step L (.discard p args)).2 = none := by
  simp only [MState.step, MState.discard, (wrapTuple_iff ..).2 h]
  split <;> rfl

/-- C18, `add` is accepted iff the predicate is not builtin and the arguments denote a point of its sorts; `set` likewise. -/
theorem C18_accepts (L : MLang) (m : MState) :
    (∀ p args, (m.step L (.add (.user p) args)).2 = none ↔ ∃ pt, PointDenotes L args (L.psorts p) pt) ∧
    (∀ c args, (m.step L (.add (.cmp c) args)).2 = some .semantic) ∧
    (∀ f args v, (m.step L (.set f true args v)).2 = some .semantic) ∧
    (∀ f args v, (∀ a ∈ args, a.isConst = true) → v ≠ .lit .pyNone →
      ((m.step L (.set f false args v)).2 = none ↔ ∃ pt, PointDenotes L (args ++ [v]) (L.fsorts f) pt)) := by
  refine ⟨fun p args => ?_, fun _ _ => rfl, fun _ _ _ => rfl, fun f args v ha hv => ?_⟩
  · simp only [MState.step, MState.add]
    cases hr : checkAssignment L (L.psorts p) args with
    | error e =>
      simp only [reduceCtorEq, false_iff]
      rintro ⟨pt, hp⟩
      rw [(checkAssignment_iff ..).2 hp] at hr; cases hr
    | ok pt => exact ⟨fun _ => ⟨pt, (checkAssignment_iff ..).1 hr⟩, fun _ => rfl⟩
  · have hall : args.all Arg.isConst = true := by simpa using ha
    simp only [MState.step, MState.set, hall, hv, if_false, Bool.false_eq_true, Bool.true_eq_false]
    cases hr : checkAssignment L (L.fsorts f) (args ++ [v]) with
    | error e =>
      simp only [reduceCtorEq, false_iff]
      rintro ⟨pt, hp⟩
      rw [(checkAssignment_iff ..).2 hp] at hr; cases hr
    | ok pt => exact ⟨fun _ => ⟨pt, (checkAssignment_iff ..).1 hr⟩, fun _ => rfl⟩

/-! ### C46: only well-typed ground atoms enter a model -/

theorem PointDenotes.sorted {L : MLang} {as ss cs} (h : PointDenotes L as ss cs) :
    List.Forall₂ (fun (c : Const) s => L.isSub c.sort s = true) cs ss := by
  induction h with
  | nil => exact .nil
  | cons h _ ih =>
    refine .cons ?_ ih
    cases h <;> assumption

/-- C46: every atom of a reachable model has the declared arity and its arguments belong to subsorts of the
declared sorts; likewise the points and values of functions. -/
theorem C46_welltyped (L : MLang) (ops : List MOp) (h : NamesApart ops) :
    (∀ p pt, (MState.empty.run L ops).holds L p pt = true →
      List.Forall₂ (fun (c : Const) s => L.isSub c.sort s = true) pt (L.psorts p)) ∧
    (∀ f pt c, (MState.empty.run L ops).value L f pt = .ok c →
      List.Forall₂ (fun (c : Const) s => L.isSub c.sort s = true) (pt ++ [c]) (L.fsorts f)) := by
  constructor
  · intro p pt hp
    obtain ⟨pre, o, post, _, ⟨args, _, hd⟩, _⟩ := (C18_holds L ops h p pt).1 hp
    exact hd.sorted
  · intro f pt c hp
    obtain ⟨pre, o, post, _, ⟨args, v, _, _, _, hd⟩, _⟩ := (C18_value L ops h f pt c).1 hp
    exact hd.sorted

/-- A call whose arguments are constants or literals (no variables, no compound terms). -/
def MOp.ground : MOp → Prop
  | .add _ args => Arg.term ∉ args ∧ ∀ v, Arg.var v ∉ args
  | .set _ _ args v => (Arg.term ∉ args ∧ ∀ w, Arg.var w ∉ args) ∧ v ≠ .term ∧ ∀ w, v ≠ .var w
  | _ => True

/-- C46, full statement of the second half: a call with a variable or a compound term among its arguments is rejected. -/
def C46_full : Prop := ∀ (L : MLang) (m : MState) (o : MOp), ¬ o.ground → (m.step L o).2 ≠ none

/-- A language with sorts `object`, `block`, a unary predicate `clear`, a binary predicate `on`, a unary function
`loc`, a constant `b1`. -/
def exLang : MLang where
  psorts := fun p => if p = "on" then ["block", "block"] else ["block"]
  fsorts := fun _ => ["block", "object"]
  isSub := fun a b => a == b || b == "object"
  contains := fun _ n => n == .str "b1" || n == .str "b2"
  interval := fun _ => false

/-- The code violates it: `model.add(clear, x)` for a variable `x` is accepted and makes `clear(None)` true
(model.py:21-23, sorts.py:43-52). -/
theorem C46_refuted : ¬ C46_full ∧
    (MState.empty.run exLang [.add (.user "clear") [.var ⟨"x", "block"⟩]]).holds exLang "clear" [⟨.pyNone, "block"⟩] = true := by
  refine ⟨fun h => ?_, by decide⟩
  refine h exLang MState.empty (.add (.user "clear") [.var ⟨"x", "block"⟩]) ?_ ?_
  · intro hg; exact hg.2 ⟨"x", "block"⟩ (by simp)
  · decide

/-- C46 for ground histories: every constant of a true atom was passed to an `add` as that constant or as a literal
contained in the declared sort. -/
theorem C46_ground_partial (L : MLang) (ops : List MOp) (h : NamesApart ops) (hg : ∀ o ∈ ops, o.ground)
    (p : String) (pt : List Const)
    (hh : (MState.empty.run L ops).holds L p pt = true) :
    ∀ c ∈ pt, (∃ args, MOp.add (.user p) args ∈ ops ∧ Arg.const c ∈ args) ∨
      (∃ args, MOp.add (.user p) args ∈ ops ∧ Arg.lit c.name ∈ args ∧ L.contains c.sort c.name = true) := by
  obtain ⟨pre, o, post, he, ⟨args, ho, hd⟩, _⟩ := (C18_holds L ops h p pt).1 hh
  have hmem : MOp.add (.user p) args ∈ ops := by rw [he, ← ho]; simp
  have hgr : Arg.term ∉ args ∧ ∀ v, Arg.var v ∉ args := hg _ hmem
  suffices hs : ∀ {as ss cs}, PointDenotes L as ss cs → (Arg.term ∉ as ∧ ∀ v, Arg.var v ∉ as) →
      ∀ c ∈ cs, Arg.const c ∈ as ∨ (Arg.lit c.name ∈ as ∧ L.contains c.sort c.name = true) by
    intro c hcm
    rcases hs hd hgr c hcm with h | h
    · exact .inl ⟨args, hmem, h⟩
    · exact .inr ⟨args, hmem, h⟩
  intro as ss cs hp
  induction hp with
  | nil => intro _ c hc; simp at hc
  | cons ha _ ih =>
    intro hv c hcm
    rcases List.mem_cons.1 hcm with rfl | hcm
    · cases ha with
      | const h => exact .inl (by simp)
      | lit h1 h2 => exact .inr ⟨by simp, h1⟩
      | varIn => exact absurd (List.mem_cons_self) (hv.2 _)
      | varOut => exact absurd (List.mem_cons_self) (hv.2 _)
      | term => exact absurd (List.mem_cons_self) hv.1
    · rcases ih ⟨fun hh => hv.1 (List.mem_cons_of_mem _ hh), fun v hh => hv.2 v (List.mem_cons_of_mem _ hh)⟩ c hcm with h | h
      · exact .inl (List.mem_cons_of_mem _ h)
      · exact .inr ⟨List.mem_cons_of_mem _ h.1, h.2⟩

/-! ### Non-vacuity -/

def exB1 : Const := ⟨.str "b1", "block"⟩
def exB2 : Const := ⟨.str "b2", "block"⟩

/-- A history with successful, failing, overwriting and removing calls. -/
def exHist : List MOp :=
  [.add (.user "clear") [.const exB1], .add (.user "clear") [.lit (.str "b2")], .remove "clear" [.const exB1],
   .add (.user "on") [.const exB1], .set "loc" false [.const exB1] (.const exB2), .set "loc" false [.const exB1] (.const exB1),
   .discard "on" [.const exB1, .const exB2], .remove "on" [.const exB1, .const exB2], .add (.cmp .eq) []]

example : NamesApart exHist ∧ (∀ o ∈ exHist, o.ground) := by
  constructor
  · intro o ho o' ho' p f hp hf
    simp [exHist] at ho ho'
    rcases ho with rfl | rfl | rfl | rfl | rfl | rfl | rfl | rfl | rfl <;>
    rcases ho' with rfl | rfl | rfl | rfl | rfl | rfl | rfl | rfl | rfl <;>
    simp [MOp.predName, MOp.funName] at hp hf <;> subst hp <;> subst hf <;> decide
  · intro o ho
    simp [exHist] at ho
    rcases ho with rfl | rfl | rfl | rfl | rfl | rfl | rfl | rfl | rfl <;> simp [MOp.ground]

example : (MState.empty.run exLang exHist).holds exLang "clear" [exB1] = false ∧
    (MState.empty.run exLang exHist).holds exLang "clear" [exB2] = true ∧
    (MState.empty.run exLang exHist).value exLang "loc" [exB1] = .ok exB1 ∧
    ((MState.empty.run exLang exHist).step exLang (.remove "clear" [.const exB1])).2 = some .keyError ∧
    ((MState.empty.run exLang exHist).step exLang (.remove "clear" [.const exB2])).2 = none ∧
    ((MState.empty.run exLang exHist).step exLang (.add (.user "on") [.const exB1])).2 = some .arity := by
  refine ⟨?_, ?_, ?_, ?_, ?_, ?_⟩ <;> decide

example : RefersTo [.const exB1, .foreign exB2] [exB1, exB2] := .const (.foreign .nil)
example : PointDenotes exLang [.const exB1, .lit (.str "b2")] (exLang.psorts "on") [exB1, exB2] :=
  .cons (.const (by decide)) (.cons (.lit (by decide) (by decide)) .nil)

end Tarski

import Verif.ModelTextLemmas
/-! C83: reading a whole model, and equality of models. -/
namespace Tarski

/-! ### Specification -/

/-- A name that is not empty and has none of the characters that texts of atoms are punctuated with. -/
def Legible (s : String) : Prop := s ≠ "" ∧ ∀ c ∈ s.toList, c ≠ '(' ∧ c ≠ ')' ∧ c ≠ ',' ∧ c ≠ ' '

/-- The symbols, the constants that occur as arguments, and the constants that occur as values of functions can be told
apart by what is printed: the names are legible, no two arguments are printed alike, and no two values are printed
alike together with their sorts. -/
structure ToldApart (N : String → Prop) (K V : Const → Prop) : Prop where
  symbols : ∀ s, N s → Legible s
  args : ∀ c, K c → Legible c.name.render
  vals : ∀ c, V c → Legible c.name.render ∧ Legible c.sort
  argsApart : ∀ c, K c → ∀ d, K d → c.name.render = d.name.render → c = d
  valsApart : ∀ c, V c → ∀ d, V d → c.name.render = d.name.render → c.sort = d.sort → c = d

/-- The state is made of these symbols, arguments and values. -/
structure MadeOf (L : MLang) (N : String → Prop) (K V : Const → Prop) (m : MState) : Prop where
  preds : ∀ p pt, m.holds L p pt = true → N p ∧ ∀ c ∈ pt, K c
  funs : ∀ f pt v, m.value L f pt = .ok v → N f ∧ (∀ c ∈ pt, K c) ∧ V v

/-- The call that makes an atom true. -/
def assertAtom : TrueAtom → MOp
  | (p, pt, none) => .add (.user p) (pt.map .const)
  | (f, pt, some v) => .set f false (pt.map .const) (.const v)

/-! ### Texts -/

/-- What the text of an atom shows. -/
def shown : TrueAtom → String × List String × Option (String × String)
  | (p, pt, v) => (p, pt.map (fun c => c.name.render), v.map fun c => (c.name.render, c.sort))

def LegibleAtom : TrueAtom → Prop
  | (p, pt, v) => Legible p ∧ (∀ c ∈ pt, Legible c.name.render) ∧ ∀ c, v = some c → Legible c.name.render ∧ Legible c.sort

theorem Legible.no {s : String} (h : Legible s) {c : Char} (hc : c = '(' ∨ c = ')' ∨ c = ',' ∨ c = ' ') : c ∉ s.toList := by
  intro hm
  have := h.2 c hm
  rcases hc with rfl | rfl | rfl | rfl <;> simp at this

theorem Legible.nil {s : String} (h : Legible s) : s.toList ≠ [] := fun e => h.1 (String.toList_injective (by simpa using e))

theorem mem_strJoin {sep : String} {c : Char} : ∀ {l : List String}, c ∈ (strJoin sep l).toList → c ∈ sep.toList ∨ ∃ x ∈ l, c ∈ x.toList
  | [], h => by simp [strJoin] at h
  | [x], h => .inr ⟨x, by simp, by simpa [strJoin] using h⟩
  | x :: y :: l, h => by
    simp only [strJoin, String.toList_append, List.mem_append] at h
    rcases h with (h | h) | h
    · exact .inr ⟨x, by simp, h⟩
    · exact .inl h
    · rcases mem_strJoin h with h | ⟨z, hz, h⟩
      · exact .inl h
      · exact .inr ⟨z, by simp only [List.mem_cons] at hz ⊢; tauto, h⟩

theorem legible_join_inj {sep : String} {s0 : List Char} (hs : sep.toList = ',' :: s0) : ∀ {xs ys : List String},
    (∀ x ∈ xs, Legible x) → (∀ y ∈ ys, Legible y) → strJoin sep xs = strJoin sep ys → xs = ys
  | [], [], _, _, _ => rfl
  | [], [y], _, hy, h => absurd h.symm (by simpa [strJoin] using (hy y (by simp)).1)
  | [], y :: z :: ys, _, hy, h => by
    have := congrArg String.toList h
    simp [strJoin, hs] at this
  | [x], [], hx, _, h => absurd h (by simpa [strJoin] using (hx x (by simp)).1)
  | x :: z :: xs, [], hx, _, h => by
    have := congrArg String.toList h
    simp [strJoin, hs] at this
  | [x], [y], _, _, h => by simpa [strJoin] using h
  | [x], y :: z :: ys, hx, _, h => by
    have := (hx x (by simp)).no (c := ',') (by simp)
    have h' := congrArg String.toList h
    simp only [strJoin, String.toList_append, hs] at h'
    rw [h'] at this; simp at this
  | x :: z :: xs, [y], _, hy, h => by
    have := (hy y (by simp)).no (c := ',') (by simp)
    have h' := congrArg String.toList h
    simp only [strJoin, String.toList_append, hs] at h'
    rw [← h'] at this; simp at this
  | x :: x' :: xs, y :: y' :: ys, hx, hy, h => by
    have h' := congrArg String.toList h
    simp only [strJoin, String.toList_append, hs, List.append_assoc, List.cons_append] at h'
    obtain ⟨h1, h2⟩ := split_at_char ((hx x (by simp)).no (by simp)) ((hy y (by simp)).no (by simp)) h'
    have ih := legible_join_inj hs (xs := x' :: xs) (ys := y' :: ys) (fun a ha => hx a (by simp only [List.mem_cons] at ha ⊢; tauto))
      (fun a ha => hy a (by simp only [List.mem_cons] at ha ⊢; tauto)) (String.toList_injective (List.append_cancel_left h2))
    rw [String.toList_injective h1, ih]

theorem join_no_close {sep : String} (hs : ')' ∉ sep.toList) {xs : List String} (hx : ∀ x ∈ xs, Legible x) :
    ')' ∉ (strJoin sep xs).toList := by
  intro h
  rcases mem_strJoin h with h | ⟨x, hm, h⟩
  · exact hs h
  · exact (hx x hm).no (by simp) h

theorem head_text {a : TrueAtom} (h : LegibleAtom a) : ∃ c r, (trueAtomText a).toList = c :: r ∧ (c = '(' ↔ a.2.2 ≠ none) := by
  obtain ⟨p, pt, v⟩ := a
  cases v with
  | none =>
    cases hp : p.toList with
    | nil => exact absurd hp h.1.nil
    | cons c r =>
      refine ⟨c, _, by simp [trueAtomText, hp]; rfl, ?_⟩
      have := h.1.no (c := '(') (by simp)
      rw [hp] at this
      simp only [List.mem_cons, not_or] at this
      simpa using fun e => this.1 e.symm
  | some v => exact ⟨'(', _, by simp [trueAtomText]; rfl, by simp⟩

/-- The text of an atom, and where it ends, can be read off any text that begins with it. -/
theorem text_prefix {a b : TrueAtom} (ha : LegibleAtom a) (hb : LegibleAtom b) {r s : List Char}
    (h : (trueAtomText a).toList ++ r = (trueAtomText b).toList ++ s) : shown a = shown b ∧ r = s := by
  obtain ⟨c, t, e1, e2⟩ := head_text ha
  obtain ⟨d, u, f1, f2⟩ := head_text hb
  have hcd : c = d := by rw [e1, f1] at h; simpa using (List.cons.inj h).1
  subst hcd
  have hab := e2.symm.trans f2
  obtain ⟨p, pt, v⟩ := a
  obtain ⟨q, qt, w⟩ := b
  have hpt : ∀ x ∈ pt.map (fun c => c.name.render), Legible x := by
    intro x hx; obtain ⟨c, hc, rfl⟩ := List.mem_map.1 hx; exact ha.2.1 c hc
  have hqt : ∀ x ∈ qt.map (fun c => c.name.render), Legible x := by
    intro x hx; obtain ⟨c, hc, rfl⟩ := List.mem_map.1 hx; exact hb.2.1 c hc
  have k1 : ("(" : String).toList = ['('] := by decide
  have k2 : (")" : String).toList = [')'] := by decide
  have k3 : ("," : String).toList = [','] := by decide
  have k4 : (", " : String).toList = [',', ' '] := by decide
  have k5 : (" (" : String).toList = [' ', '('] := by decide
  cases v with
  | none =>
    cases w with
    | some w => simp at hab
    | none =>
      simp only [trueAtomText, String.toList_append, k1, k2, List.append_assoc, List.cons_append, List.nil_append] at h
      obtain ⟨h1, h2⟩ := split_at_char (ha.1.no (by simp)) (hb.1.no (by simp)) h
      obtain ⟨h3, h4⟩ := split_at_char (join_no_close (by simp [k3]) hpt) (join_no_close (by simp [k3]) hqt) h2
      have h5 := legible_join_inj k3 hpt hqt (String.toList_injective h3)
      exact ⟨by simp only [shown, String.toList_injective h1, h5, Option.map_none], h4⟩
  | some v =>
    cases w with
    | none => simp at hab
    | some w =>
      obtain ⟨hv1, hv2⟩ := ha.2.2 v rfl
      obtain ⟨hw1, hw2⟩ := hb.2.2 w rfl
      simp only [trueAtomText, String.toList_append, k1, k2, k4, k5, List.append_assoc, List.cons_append, List.nil_append, List.cons.injEq, true_and] at h
      obtain ⟨h1, h2⟩ := split_at_char (ha.1.no (by simp)) (hb.1.no (by simp)) h
      obtain ⟨h3, h4⟩ := split_at_char (join_no_close (by simp [k4]) hpt) (join_no_close (by simp [k4]) hqt) h2
      have h5 := legible_join_inj k4 hpt hqt (String.toList_injective h3)
      simp only [List.cons.injEq, true_and] at h4
      obtain ⟨h6, h7⟩ := split_at_char (hv1.no (by simp)) (hw1.no (by simp)) h4
      simp only [List.cons.injEq, true_and] at h7
      obtain ⟨h8, h9⟩ := split_at_char (hv2.no (by simp)) (hw2.no (by simp)) h7
      simp only [List.cons.injEq, true_and] at h9
      exact ⟨by simp only [shown, String.toList_injective h1, h5, Option.map_some, String.toList_injective h6, String.toList_injective h8], h9⟩

theorem shown_of_text {a b : TrueAtom} (ha : LegibleAtom a) (hb : LegibleAtom b) (h : trueAtomText a = trueAtomText b) :
    shown a = shown b := (text_prefix ha hb (r := []) (s := []) (by rw [h])).1

theorem text_of_shown {a b : TrueAtom} (h : shown a = shown b) : trueAtomText a = trueAtomText b := by
  obtain ⟨p, pt, v⟩ := a
  obtain ⟨q, qt, w⟩ := b
  simp only [shown, Prod.mk.injEq] at h
  obtain ⟨rfl, h2, h3⟩ := h
  cases v <;> cases w <;> simp_all [trueAtomText]

/-- A list of atoms can be read off its text. -/
theorem texts_inj : ∀ {ts us : List String}, (∀ t ∈ ts, ∃ a, LegibleAtom a ∧ t = trueAtomText a) →
    (∀ t ∈ us, ∃ a, LegibleAtom a ∧ t = trueAtomText a) → strJoin ", " ts = strJoin ", " us → ts = us := by
  have k4 : (", " : String).toList = [',', ' '] := by decide
  have ne : ∀ {t : String}, (∃ a, LegibleAtom a ∧ t = trueAtomText a) → t.toList ≠ [] := by
    rintro t ⟨a, ha, rfl⟩ e
    obtain ⟨c, r, h, _⟩ := head_text ha
    rw [h] at e; cases e
  have pre : ∀ {t u : String} {r s : List Char}, (∃ a, LegibleAtom a ∧ t = trueAtomText a) →
      (∃ a, LegibleAtom a ∧ u = trueAtomText a) → t.toList ++ r = u.toList ++ s → t = u ∧ r = s := by
    rintro t u r s ⟨a, ha, rfl⟩ ⟨b, hb, rfl⟩ h
    obtain ⟨h1, h2⟩ := text_prefix ha hb h
    exact ⟨text_of_shown h1, h2⟩
  intro ts
  induction ts with
  | nil =>
    intro us _ hu h
    cases us with
    | nil => rfl
    | cons u us =>
      have h' := congrArg String.toList h
      cases us with
      | nil => exact absurd (by simpa [strJoin] using h'.symm) (ne (hu u (by simp)))
      | cons _ _ => simp [strJoin, k4] at h'
  | cons t ts ih =>
    intro us ht hu h
    have h' := congrArg String.toList h
    cases us with
    | nil =>
      cases ts with
      | nil => exact absurd (by simpa [strJoin] using h') (ne (ht t (by simp)))
      | cons _ _ => simp [strJoin, k4] at h'
    | cons u us =>
      have hrest : ∀ (x : String) (xs : List String), (strJoin ", " (x :: xs)).toList =
          x.toList ++ (if xs = [] then [] else ',' :: ' ' :: (strJoin ", " xs).toList) := by
        intro x xs
        cases xs with
        | nil => simp [strJoin]
        | cons y ys => simp [strJoin, k4]
      rw [hrest, hrest] at h'
      obtain ⟨e, h2⟩ := pre (ht t (by simp)) (hu u (by simp)) h'
      subst e
      congr 1
      refine ih (fun x hx => ht x (by simp [hx])) (fun x hx => hu x (by simp [hx])) ?_
      by_cases h3 : ts = [] <;> by_cases h4 : us = [] <;> simp [h3, h4] at h2 ⊢
      exact String.toList_injective h2

/-! ### C83 -/

/-- C83: after every history of calls, `as_atoms` returns; it lists every true atom and every value of a function,
each once, and nothing else. -/
theorem C83_as_atoms (L : MLang) (ops : List MOp) :
    ∃ l, asAtoms L (MState.empty.run L ops) = .ok l ∧ l.Nodup ∧
      (∀ p pt, (p, pt, none) ∈ l ↔ (MState.empty.run L ops).holds L p pt = true) ∧
      (∀ f pt v, (f, pt, some v) ∈ l ↔ (MState.empty.run L ops).value L f pt = .ok v) := by
  have ht := (Tidy.empty L).run ops
  exact ⟨_, asAtoms_eq ht, nodup_rawAtoms ht, mem_rawAtoms_pred ht, mem_rawAtoms_fun ht⟩

theorem raising_assert {L : MLang} {m : MState} (ht : Tidy L m) {a : TrueAtom} (ha : a ∈ rawAtoms m) (r : MState) :
    ∃ ch : Change, r.step L (assertAtom a) = (ch.apply L r, none) ∧
      ch = (match a with | (p, pt, none) => .add p pt | (f, pt, some v) => .set f pt v) := by
  obtain ⟨p, pt, v⟩ := a
  cases v with
  | none =>
    refine ⟨.add p pt, ?_, rfl⟩
    have hh := (mem_rawAtoms_pred ht p pt).1 ha
    obtain ⟨ext, he, hp⟩ := (holds_iff ..).1 hh
    simp only [assertAtom, MState.step, MState.add, (checkAssignment_iff ..).2 (pointDenotes_of_fit ((ht.ext he).2 pt hp)), Change.apply]
  | some v =>
    refine ⟨.set p pt v, ?_, rfl⟩
    have hh := (mem_rawAtoms_fun ht p pt v).1 ha
    obtain ⟨d, he, hp⟩ := (value_iff ..).1 hh
    have hf := (ht.fext he).2 _ (dlookup_some hp)
    have hc := (checkAssignment_iff ..).2 (pointDenotes_of_fit hf)
    simp only [List.map_append, List.map_cons, List.map_nil] at hc
    have hall : (pt.map Arg.const).all Arg.isConst = true := by simp [Arg.isConst]
    have hv : Arg.const v ≠ .lit .pyNone := by simp
    simp only [assertAtom, MState.step, MState.set, hall, hv, if_false, Bool.false_eq_true, Bool.true_eq_false, hc, Change.apply]
    simp

/-- C83: asserting the listed atoms one by one, in any order, on an empty model raises nothing and yields a model that
answers every query in the same way. -/
theorem C83_rebuild (L : MLang) (ops : List MOp) (l : List TrueAtom) (hl : asAtoms L (MState.empty.run L ops) = .ok l)
    (l' : List TrueAtom) (hp : l'.Perm l) :
    ObsEq L (MState.empty.run L (l'.map assertAtom)) (MState.empty.run L ops) ∧
    ∀ pre a post, l' = pre ++ a :: post → ((MState.empty.run L (pre.map assertAtom)).step L (assertAtom a)).2 = none := by
  have ht := (Tidy.empty L).run ops
  rw [asAtoms_eq ht] at hl
  cases hl
  obtain ⟨m, hm⟩ : ∃ m, m = MState.empty.run L ops := ⟨_, rfl⟩
  rw [← hm] at ht hp ⊢
  have hsub : ∀ a ∈ l', a ∈ rawAtoms m := fun a ha => hp.mem_iff.1 ha
  have key : ∀ (k : List TrueAtom) (r : MState), (∀ a ∈ k, a ∈ rawAtoms m) →
      (∀ p pt, (r.run L (k.map assertAtom)).holds L p pt = true ↔ (p, pt, none) ∈ k ∨ r.holds L p pt = true) ∧
      (∀ f pt v, (∀ w, r.value L f pt = .ok w → m.value L f pt = .ok w) →
        ((r.run L (k.map assertAtom)).value L f pt = .ok v ↔ (f, pt, some v) ∈ k ∨ r.value L f pt = .ok v)) := by
    intro k
    induction k with
    | nil => intro r _; simp [MState.run]
    | cons a k ih =>
      intro r hk
      obtain ⟨ch, hstep, hch⟩ := raising_assert ht (hk a (by simp)) r
      have e : r.run L ((a :: k).map assertAtom) = (ch.apply L r).run L (k.map assertAtom) := by
        simp [MState.run, hstep]
      rw [e]
      obtain ⟨ih1, ih2⟩ := ih (ch.apply L r) fun b hb => hk b (by simp [hb])
      obtain ⟨q, qt, w⟩ := a
      cases w with
      | none =>
        subst hch
        refine ⟨fun p pt => ?_, fun f pt v hv => ?_⟩
        · rw [ih1, holds_change]
          have e1 : (q = p ∧ qt = pt) ↔ (p = q ∧ pt = qt) := ⟨fun h => ⟨h.1.symm, h.2.symm⟩, fun h => ⟨h.1.symm, h.2.symm⟩⟩
          simp only [Change.add.injEq, reduceCtorEq, ne_eq, not_false_iff, and_true, List.mem_cons, Prod.mk.injEq, e1]
          tauto
        · have h1 : ∀ w, (Change.apply L r (.add q qt)).value L f pt = .ok w ↔ r.value L f pt = .ok w := by
            intro w; rw [value_change]; simp
          rw [ih2 f pt v fun w hw => hv w ((h1 w).1 hw), h1]; simp
      | some w =>
        subst hch
        have hw := (mem_rawAtoms_fun ht q qt w).1 (hk _ (by simp))
        refine ⟨fun p pt => ?_, fun f pt v hv => ?_⟩
        · rw [ih1, holds_change]; simp
        · rw [ih2 f pt v, value_change]
          · simp only [List.mem_cons, Prod.mk.injEq, Option.some.injEq, Change.set.injEq]
            constructor
            · rintro (h | ⟨rfl, rfl, rfl⟩ | ⟨h, _⟩)
              · exact .inl (.inr h)
              · exact .inl (.inl ⟨rfl, rfl, rfl⟩)
              · exact .inr h
            · rintro ((⟨rfl, rfl, rfl⟩ | h) | h)
              · exact .inr (.inl ⟨rfl, rfl, rfl⟩)
              · exact .inl h
              · by_cases hc : f = q ∧ pt = qt
                · obtain ⟨rfl, rfl⟩ := hc
                  have := hv v h
                  rw [hw] at this; cases this
                  exact .inr (.inl ⟨rfl, rfl, rfl⟩)
                · refine .inr (.inr ⟨h, ?_⟩)
                  rintro d ⟨rfl, rfl, rfl⟩
                  exact hc ⟨rfl, rfl⟩
          · intro u hu
            rw [value_change] at hu
            rcases hu with hu | hu
            · cases hu; exact hw
            · exact hv u hu.1
  constructor
  · obtain ⟨k1, k2⟩ := key l' MState.empty hsub
    intro x
    cases x with
    | pred p =>
      intro pt
      rw [Bool.eq_iff_iff, k1, hp.mem_iff, mem_rawAtoms_pred ht]
      simp [MState.holds, MState.empty, dlookup]
    | fn f =>
      intro pt
      apply value_ext
      intro c
      rw [k2 f pt c (by simp [MState.value, MState.empty, dlookup]), hp.mem_iff, mem_rawAtoms_fun ht]
      simp [MState.value, MState.empty, dlookup]
  · intro pre a post e
    obtain ⟨ch, hstep, _⟩ := raising_assert ht (hsub a (by simp [e])) (MState.empty.run L (pre.map assertAtom))
    rw [hstep]

/-- C83: the text of a model never fails, whatever the history. -/
theorem C83_text (L : MLang) (ops : List MOp) : ∃ s, modelText L (MState.empty.run L ops) = .ok s := by
  obtain ⟨l, hl, _⟩ := C83_as_atoms L ops
  exact ⟨_, by simp only [modelText, hl]; rfl⟩

/-- All true atoms and values of the state belong to `A`. -/
structure Within (L : MLang) (A : TrueAtom → Prop) (m : MState) : Prop where
  preds : ∀ p pt, m.holds L p pt = true → A (p, pt, none)
  funs : ∀ f pt v, m.value L f pt = .ok v → A (f, pt, some v)

/-- The atoms have legible names, and no two of them are printed alike. -/
structure Distinct (A : TrueAtom → Prop) : Prop where
  legible : ∀ p pt v, A (p, pt, v) → Legible p ∧ (∀ c ∈ pt, Legible c.name.render) ∧
    ∀ c, v = some c → Legible c.name.render ∧ Legible c.sort
  apart : ∀ a, A a → ∀ b, A b → trueAtomText a = trueAtomText b → a = b

theorem Within.mem {L : MLang} {A : TrueAtom → Prop} {m : MState} (ht : Tidy L m) (hm : Within L A m) : ∀ a ∈ rawAtoms m, A a := by
  rintro ⟨p, pt, v⟩ ha
  cases v with
  | none => exact hm.preds p pt ((mem_rawAtoms_pred ht p pt).1 ha)
  | some v => exact hm.funs p pt v ((mem_rawAtoms_fun ht p pt v).1 ha)

theorem same_perm {L : MLang} {m m' : MState} (ht : Tidy L m) (ht' : Tidy L m') (h : ObsEq L m m') : (rawAtoms m).Perm (rawAtoms m') := by
  rw [List.perm_ext_iff_of_nodup (nodup_rawAtoms ht) (nodup_rawAtoms ht')]
  rintro ⟨p, pt, v⟩
  cases v with
  | none => rw [mem_rawAtoms_pred ht, mem_rawAtoms_pred ht', h (.pred p) pt]
  | some v => rw [mem_rawAtoms_fun ht, mem_rawAtoms_fun ht', h (.fn p) pt]

theorem tidy_text {L : MLang} {m : MState} (ht : Tidy L m) :
    modelText L m = .ok ("Model[" ++ strJoin ", " (sortTexts ((rawAtoms m).map trueAtomText)) ++ "]") := by
  simp only [modelText, asAtoms_eq ht]

theorem within_eq {L : MLang} {A : TrueAtom → Prop} (hA : Distinct A) {m m' : MState}
    (ht : Tidy L m) (ht' : Tidy L m') (hm : Within L A m) (hm' : Within L A m') :
    modelText L m = modelText L m' ↔ ObsEq L m m' := by
  rw [tidy_text ht, tidy_text ht', Except.ok.injEq]
  constructor
  · intro h
    have h1 : strJoin ", " (sortTexts ((rawAtoms m).map trueAtomText)) = strJoin ", " (sortTexts ((rawAtoms m').map trueAtomText)) := by
      have := congrArg String.toList h
      simp only [String.toList_append] at this
      exact String.toList_injective (List.append_cancel_left (List.append_cancel_right this))
    have hr : ∀ {m : MState}, Tidy L m → Within L A m → ∀ t ∈ sortTexts ((rawAtoms m).map trueAtomText), ∃ a, LegibleAtom a ∧ t = trueAtomText a := by
      intro m ht hm t h
      obtain ⟨a, ha, rfl⟩ := List.mem_map.1 ((sortTexts_perm _).mem_iff.1 h)
      exact ⟨a, hA.legible _ _ _ (hm.mem ht a ha), rfl⟩
    have h2 := texts_inj (hr ht hm) (hr ht' hm') h1
    have h3 : ((rawAtoms m).map trueAtomText).Perm ((rawAtoms m').map trueAtomText) := by
      have := (sortTexts_perm ((rawAtoms m).map trueAtomText)).symm
      rw [h2] at this
      exact this.trans (sortTexts_perm _)
    have half : ∀ {m m' : MState}, Tidy L m → Within L A m → Tidy L m' → Within L A m' →
        ((rawAtoms m).map trueAtomText).Perm ((rawAtoms m').map trueAtomText) → ∀ a, a ∈ rawAtoms m → a ∈ rawAtoms m' := by
      intro m m' ht hm ht' hm' hp a ha
      obtain ⟨b, hb, e⟩ := List.mem_map.1 (hp.mem_iff.1 (List.mem_map_of_mem ha))
      rw [hA.apart a (hm.mem ht a ha) b (hm'.mem ht' b hb) e.symm]
      exact hb
    have hiff : ∀ a, a ∈ rawAtoms m ↔ a ∈ rawAtoms m' := fun a => ⟨half ht hm ht' hm' h3 a, half ht' hm' ht hm h3.symm a⟩
    intro x
    cases x with
    | pred p => intro pt; rw [Bool.eq_iff_iff, ← mem_rawAtoms_pred ht, ← mem_rawAtoms_pred ht', hiff]
    | fn f => intro pt; apply value_ext; intro c; rw [← mem_rawAtoms_fun ht, ← mem_rawAtoms_fun ht', hiff]
  · intro h
    rw [sortTexts_eq ((same_perm ht ht' h).map _)]

theorem ToldApart.distinct {N : String → Prop} {K V : Const → Prop} (hu : ToldApart N K V) :
    Distinct fun a => N a.1 ∧ (∀ c ∈ a.2.1, K c) ∧ ∀ v, a.2.2 = some v → V v := by
  have leg : ∀ a : TrueAtom, (N a.1 ∧ (∀ c ∈ a.2.1, K c) ∧ ∀ v, a.2.2 = some v → V v) → LegibleAtom a := by
    rintro ⟨p, pt, v⟩ ⟨h1, h2, h3⟩
    exact ⟨hu.symbols p h1, fun c hc => hu.args c (h2 c hc), fun c e => hu.vals c (h3 c e)⟩
  refine ⟨fun p pt v h => leg _ h, fun a ha b hb e' => ?_⟩
  have e := shown_of_text (leg a ha) (leg b hb) e'
  clear e'
  obtain ⟨p, pt, v⟩ := a
  obtain ⟨q, qt, w⟩ := b
  obtain ⟨n1, h1, h2⟩ := ha
  obtain ⟨n2, h3, h4⟩ := hb
  simp only [shown, Prod.mk.injEq] at e
  obtain ⟨rfl, e1, e2⟩ := e
  have e3 : pt = qt := by
    dsimp only at h1 h3
    clear h2 h4 e2 n1 n2
    induction pt generalizing qt with
    | nil => cases qt with
      | nil => rfl
      | cons _ _ => simp at e1
    | cons c pt ih => cases qt with
      | nil => simp at e1
      | cons d qt =>
        simp only [List.map_cons, List.cons.injEq] at e1
        rw [hu.argsApart c (h1 c (by simp)) d (h3 d (by simp)) e1.1,
          ih qt (fun x hx => h1 x (by simp [hx])) (fun x hx => h3 x (by simp [hx])) e1.2]
  subst e3
  cases v <;> cases w <;> simp at e2 ⊢
  exact hu.valsApart _ (h2 _ rfl) _ (h4 _ rfl) e2.1 e2.2

theorem MadeOf.within {L : MLang} {N : String → Prop} {K V : Const → Prop} {m : MState} (h : MadeOf L N K V m) :
    Within L (fun a => N a.1 ∧ (∀ c ∈ a.2.1, K c) ∧ ∀ v, a.2.2 = some v → V v) m :=
  ⟨fun p pt hp => ⟨(h.preds p pt hp).1, (h.preds p pt hp).2, by simp⟩,
   fun f pt v hf => ⟨(h.funs f pt v hf).1, (h.funs f pt v hf).2.1, fun w e => by cases e; exact (h.funs f pt v hf).2.2⟩⟩

/-- C83: models that agree on every query compare equal, whatever their names and histories. -/
theorem C83_equal_of_same (L : MLang) (ops ops' : List MOp)
    (h : ObsEq L (MState.empty.run L ops) (MState.empty.run L ops')) :
    modelEq L (MState.empty.run L ops) (MState.empty.run L ops') = .ok true := by
  have ht := (Tidy.empty L).run ops
  have ht' := (Tidy.empty L).run ops'
  simp only [modelEq, tidy_text ht, tidy_text ht', sortTexts_eq ((same_perm ht ht' h).map trueAtomText), decide_true]

/-- C83: when everything that occurs in two models can be told apart by what is printed, they compare equal exactly
if they agree on every query. -/
theorem C83_equal_partial (L : MLang) (N : String → Prop) (K V : Const → Prop) (hu : ToldApart N K V) (ops ops' : List MOp)
    (h : MadeOf L N K V (MState.empty.run L ops)) (h' : MadeOf L N K V (MState.empty.run L ops')) :
    ∃ b, modelEq L (MState.empty.run L ops) (MState.empty.run L ops') = .ok b ∧
      (b = true ↔ ∀ x, SameOn L (MState.empty.run L ops) (MState.empty.run L ops') x) := by
  have ht := (Tidy.empty L).run ops
  have ht' := (Tidy.empty L).run ops'
  have key := within_eq hu.distinct ht ht' h.within h'.within
  rw [tidy_text ht, tidy_text ht', Except.ok.injEq] at key
  refine ⟨_, by simp only [modelEq, tidy_text ht, tidy_text ht']; rfl, ?_⟩
  rw [decide_eq_true_iff]
  exact key

/-! ### `list_all_extensions` -/

theorem foldl_default {L : MLang} (sig : String → List String) (ns : List String) (d : List (List String × List (List Const)))
    (k : List String) :
    dlookup (ns.foldl (fun d p => if (dlookup d (sig p)).isSome then d else dinsert d (sig p) []) d) k =
      (match dlookup d k with
        | some e => some e
        | none => if k ∈ ns.map sig then some [] else none) := by
  induction ns generalizing d with
  | nil => simp only [List.foldl_nil, List.map_nil, List.not_mem_nil, if_false]; cases dlookup d k <;> rfl
  | cons n ns ih =>
    simp only [List.foldl_cons]
    rw [ih]
    by_cases h : (dlookup d (sig n)).isSome
    · simp only [h, if_true]
      cases hk : dlookup d k with
      | some e => rfl
      | none =>
        have : k ≠ sig n := by rintro rfl; simp [hk] at h
        simp [this]
    · simp only [h, if_false, Bool.false_eq_true]
      rw [dlookup_dinsert]
      by_cases e : sig n = k
      · subst e
        have : dlookup d (sig n) = none := by simpa using h
        simp [this]
      · have : k ≠ sig n := fun h => e h.symm
        simp [e, this]

theorem foldl_insert {β γ : Type} (g : β → γ) (l : List (List String × β)) (hn : (l.map Prod.fst).Nodup) (d : List (List String × γ)) (k : List String) :
    dlookup (l.foldl (fun d kv => dinsert d kv.1 (g kv.2)) d) k =
      (match dlookup l k with
        | some e => some (g e)
        | none => dlookup d k) := by
  induction l generalizing d with
  | nil => rfl
  | cons x l ih =>
    obtain ⟨a, b⟩ := x
    simp only [List.map_cons, List.nodup_cons] at hn
    simp only [List.foldl_cons]
    rw [ih hn.2]
    simp only [dlookup]
    by_cases e : a = k
    · subst e
      have : dlookup l a = none := (dlookup_none l a).2 hn.1
      simp [this, dlookup_dinsert]
    · simp [e, dlookup_dinsert]

/-- C83: the table of extensions, for predicates and functions with different names. The entry of a predicate lists the
points where it holds, the entry of a function its points followed by their values, each once. Every declared symbol
has an entry, except `total-cost` if it has no value yet. -/
theorem C83_extensions (L : MLang) (preds funs : List String) (hdis : ∀ p ∈ preds, p ∉ funs) (ops : List MOp)
    (hp : ∀ o ∈ ops, (∀ p, o.predName = some p → p ∈ preds) ∧ ∀ f, o.funName = some f → f ∈ funs) :
    (∀ p ∈ preds, ∀ ext, dlookup (listAllExtensions L preds funs (MState.empty.run L ops)) (L.psig p) = some ext →
      ext.Nodup ∧ ∀ pt, pt ∈ ext ↔ (MState.empty.run L ops).holds L p pt = true) ∧
    (∀ f ∈ funs, ∀ ext, dlookup (listAllExtensions L preds funs (MState.empty.run L ops)) (L.fsig f) = some ext →
      ext.Nodup ∧ ∀ x, x ∈ ext ↔ ∃ pt v, x = pt ++ [v] ∧ (MState.empty.run L ops).value L f pt = .ok v) ∧
    (∀ p ∈ preds, p ≠ "total-cost" → (dlookup (listAllExtensions L preds funs (MState.empty.run L ops)) (L.psig p)).isSome) ∧
    (∀ f ∈ funs, f ≠ "total-cost" ∨ (∃ pt v, (MState.empty.run L ops).value L f pt = .ok v) →
      (dlookup (listAllExtensions L preds funs (MState.empty.run L ops)) (L.fsig f)).isSome) := by
  have ht := (Tidy.empty L).run ops
  have hinv : MInv L (· ∈ funs) (MState.empty.run L ops) := by
    have : ∀ (ops : List MOp) (m : MState), MInv L (· ∈ funs) m →
        (∀ o ∈ ops, (∀ p, o.predName = some p → p ∈ preds) ∧ ∀ f, o.funName = some f → f ∈ funs) →
        MInv L (· ∈ funs) (m.run L ops) := by
      intro ops
      induction ops with
      | nil => intro m h _; exact h
      | cons o ops ih =>
        intro m h ho
        exact ih _ (minv_step h ⟨fun p hp => hdis p ((ho o (by simp)).1 p hp), (ho o (by simp)).2⟩) fun x hx => ho x (by simp [hx])
    exact this ops _ (minv_empty L _) hp
  obtain ⟨m, hm⟩ : ∃ m, m = MState.empty.run L ops := ⟨_, rfl⟩
  rw [← hm] at ht hinv ⊢
  have look : ∀ k, dlookup (listAllExtensions L preds funs m) k =
      (match dlookup m.fns k with
        | some d => some (d.map fun pv => pv.1 ++ [pv.2])
        | none => match dlookup m.preds k with
          | some e => some e
          | none => if k ∈ (preds.filter (· ≠ "total-cost")).map L.psig ∨ k ∈ (funs.filter (· ≠ "total-cost")).map L.fsig
            then some [] else none) := by
    intro k
    simp only [listAllExtensions]
    rw [foldl_default (L := L) L.fsig, foldl_default (L := L) L.psig]
    rw [foldl_insert (fun d : List (List Const × Const) => d.map fun pv => pv.1 ++ [pv.2]) m.fns ht.fkeys]
    cases dlookup m.fns k with
    | some d => rfl
    | none =>
      cases dlookup m.preds k with
      | some e => rfl
      | none =>
        dsimp only
        by_cases h1 : k ∈ (preds.filter (· ≠ "total-cost")).map L.psig
        · simp only [h1, if_true, true_or]
        · simp only [h1, if_false, false_or]
  have nof : ∀ p ∈ preds, dlookup m.fns (L.psig p) = none := by
    intro p hp
    cases h : dlookup m.fns (L.psig p) with
    | none => rfl
    | some d =>
      obtain ⟨f, hf, e⟩ := hinv.fns _ (by rw [h]; rfl)
      have := psig_fsig e
      subst this
      exact absurd hf (hdis p hp)
  have nop : ∀ f ∈ funs, dlookup m.preds (L.fsig f) = none := by
    intro f hf
    cases h : dlookup m.preds (L.fsig f) with
    | none => rfl
    | some d =>
      obtain ⟨p, hp, e⟩ := hinv.preds _ (by rw [h]; rfl)
      have := psig_fsig e.symm
      subst this
      exact absurd hf hp
  refine ⟨fun p hp ext he => ?_, fun f hf ext he => ?_, fun p hp hne => ?_, fun f hf h => ?_⟩
  · rw [look, nof p hp] at he
    cases hd : dlookup m.preds (L.psig p) with
    | some e =>
      rw [hd] at he; cases he
      refine ⟨(ht.ext hd).1, fun pt => ?_⟩
      rw [holds_iff, hd]; simp
    | none =>
      rw [hd] at he
      dsimp only at he
      split at he
      · cases he
        refine ⟨.nil, fun pt => ?_⟩
        rw [holds_iff, hd]; simp
      · cases he
  · rw [look] at he
    cases hd : dlookup m.fns (L.fsig f) with
    | some d =>
      rw [hd] at he; cases he
      refine ⟨?_, fun x => ?_⟩
      · refine (List.Nodup.of_map _ (ht.fext hd).1).map ?_
        intro a b e
        have := List.append_inj' e rfl
        exact Prod.ext this.1 (by simpa using this.2)
      · simp only [List.mem_map, value_iff, hd, Option.some.injEq, exists_eq_left']
        constructor
        · rintro ⟨pv, h, rfl⟩
          exact ⟨pv.1, pv.2, rfl, dlookup_mem_nodup (ht.fext hd).1 h⟩
        · rintro ⟨pt, v, rfl, h⟩
          exact ⟨(pt, v), dlookup_some h, rfl⟩
    | none =>
      rw [hd, nop f hf] at he
      dsimp only at he
      split at he
      · cases he
        refine ⟨.nil, fun x => ?_⟩
        simp [value_iff, hd]
      · cases he
  · rw [look, nof p hp]
    cases hd : dlookup m.preds (L.psig p) with
    | some e => rfl
    | none =>
      dsimp only
      rw [if_pos]
      · rfl
      · exact .inl (List.mem_map.2 ⟨p, List.mem_filter.2 ⟨hp, by simpa using hne⟩, rfl⟩)
  · rw [look]
    cases hd : dlookup m.fns (L.fsig f) with
    | some d => rfl
    | none =>
      rw [nop f hf]
      dsimp only
      rw [if_pos]
      · rfl
      · refine .inr (List.mem_map.2 ⟨f, List.mem_filter.2 ⟨hf, ?_⟩, rfl⟩)
        rcases h with h | ⟨pt, v, h⟩
        · simpa using h
        · rw [value_iff, hd] at h; simp at h

/-! ### Refutation and examples -/

/-- A language with numbers: `Natural` is a subsort of `Integer`. -/
def readLang : MLang where
  psorts := fun p => if p = "p" then ["Integer"] else if p = "r" then ["object", "object"] else []
  fsorts := fun f => if f = "f" then ["object", "Integer"] else if f = "total-cost" then ["Integer"] else []
  isSub := fun s t => decide (s = t) || (decide (s = "Natural") && decide (t = "Integer"))
  contains := fun _ _ => true
  interval := fun _ => false

/-- C83: in general, models that compare equal may disagree on queries: `p` of the integer 1 and `p` of the natural 1
are printed alike, and so are `r` of `a,b` and `c`, and `r` of `a` and `b,c`. -/
theorem C83_equal_refuted :
    ¬ (∀ (L : MLang) (ops ops' : List MOp), modelEq L (MState.empty.run L ops) (MState.empty.run L ops') = .ok true →
      ∀ x, SameOn L (MState.empty.run L ops) (MState.empty.run L ops') x) ∧
    (∃ ops ops', modelEq readLang (MState.empty.run readLang ops) (MState.empty.run readLang ops') = .ok true ∧
      (MState.empty.run readLang ops).holds readLang "r" [⟨.str "a,b", "object"⟩, ⟨.str "c", "object"⟩] = true ∧
      (MState.empty.run readLang ops').holds readLang "r" [⟨.str "a,b", "object"⟩, ⟨.str "c", "object"⟩] = false) := by
  constructor
  · intro h
    have := h readLang [.add (.user "p") [.const ⟨.int 1, "Integer"⟩]] [.add (.user "p") [.const ⟨.int 1, "Natural"⟩]] (by decide)
      (.pred "p") [⟨.int 1, "Integer"⟩]
    exact absurd this (by decide)
  · exact ⟨[.add (.user "r") [.const ⟨.str "a,b", "object"⟩, .const ⟨.str "c", "object"⟩]],
      [.add (.user "r") [.const ⟨.str "a", "object"⟩, .const ⟨.str "b,c", "object"⟩]], by decide, by decide, by decide⟩

/-- C83: `total-cost` is left out of the table of extensions until it has a value, although it is declared. -/
theorem C83_total_cost :
    dlookup (listAllExtensions readLang [] ["total-cost"] MState.empty) (readLang.fsig "total-cost") = none ∧
    dlookup (listAllExtensions readLang [] ["f"] MState.empty) (readLang.fsig "f") = some [] := ⟨by decide, by decide⟩

def readHist : List MOp :=
  [.add (.user "p") [.lit (.int 1)], .set "f" false [.const ⟨.str "a", "object"⟩] (.lit (.int 2)),
   .add (.user "r") [.const ⟨.str "a", "object"⟩, .const ⟨.str "b", "object"⟩],
   .set "f" false [.const ⟨.str "a", "object"⟩] (.lit (.int 3)), .discard "p" [.const ⟨.int 1, "Natural"⟩]]

/-- The text of a model after some calls; all of its atoms are listed. -/
example : modelText readLang (MState.empty.run readLang readHist) = .ok "Model[(f(a), 3 (Integer)), p(1), r(a,b)]" := by decide

/-- The hypotheses of `C83_equal_partial` are met by that history. -/
example : ∃ N K V, ToldApart N K V ∧ MadeOf readLang N K V (MState.empty.run readLang readHist) := by
  refine ⟨(· ∈ ["f", "p", "r"]), (· ∈ [⟨.str "a", "object"⟩, ⟨.str "b", "object"⟩, ⟨.int 1, "Integer"⟩]), (· ∈ [⟨.int 3, "Integer"⟩]), ?_, ?_⟩
  · constructor
    · unfold Legible; decide
    · unfold Legible; decide
    · unfold Legible; decide
    · decide
    · decide
  · constructor
    · intro p pt h
      have := (mem_rawAtoms_pred ((Tidy.empty readLang).run readHist) p pt).2 h
      have e : rawAtoms (MState.empty.run readLang readHist) = [("p", [⟨.int 1, "Integer"⟩], none),
        ("r", [⟨.str "a", "object"⟩, ⟨.str "b", "object"⟩], none), ("f", [⟨.str "a", "object"⟩], some ⟨.int 3, "Integer"⟩)] := by decide
      rw [e] at this
      simp at this
      rcases this with ⟨rfl, rfl⟩ | ⟨rfl, rfl⟩ <;> simp
    · intro p pt v h
      have := (mem_rawAtoms_fun ((Tidy.empty readLang).run readHist) p pt v).2 h
      have e : rawAtoms (MState.empty.run readLang readHist) = [("p", [⟨.int 1, "Integer"⟩], none),
        ("r", [⟨.str "a", "object"⟩, ⟨.str "b", "object"⟩], none), ("f", [⟨.str "a", "object"⟩], some ⟨.int 3, "Integer"⟩)] := by decide
      rw [e] at this
      simp at this
      obtain ⟨rfl, rfl, rfl⟩ := this
      simp

/-- The hypotheses of `C83_extensions` are met. -/
example : (∀ p ∈ ["p", "r"], p ∉ ["f", "total-cost"]) ∧
    (∀ o ∈ readHist, (∀ p, o.predName = some p → p ∈ ["p", "r"]) ∧ ∀ f, o.funName = some f → f ∈ ["f", "total-cost"]) ∧
    listAllExtensions readLang ["p", "r"] ["f", "total-cost"] (MState.empty.run readLang readHist) =
      [(["p", "Integer"], [[⟨.int 1, "Integer"⟩]]), (["r", "object", "object"], [[⟨.str "a", "object"⟩, ⟨.str "b", "object"⟩]]),
       (["f", "object", "Integer"], [[⟨.str "a", "object"⟩, ⟨.int 3, "Integer"⟩]])] := by
  refine ⟨by decide, ?_, by decide⟩
  simp [readHist, MOp.predName, MOp.funName]

end Tarski

import Verif.AspNames
import Verif.Props.Containers
/-! C39: the translation of planning symbols to ASP names. -/
namespace Tarski

/-! ### Specification -/

/-- The planning symbol a call `normalize(name, prefix)` is about: the name with its prefix. -/
def rawName (c : AStr × AStr) : AStr := namePrefix c.2 ++ c.1

/-- The property as a user expects it: after every history of calls on a new translator, distinct symbols have been given
distinct ASP names, and `back` recovers the symbol (calls that report a clash are exempt). -/
def C39_full : Prop :=
  ∀ (cs : List (AStr × AStr)) (i j : Nat) (ci cj : AStr × AStr) (r s : AStr),
    cs[i]? = some ci → cs[j]? = some cj →
    (Translator.empty.run cs).2[i]? = some (.ok r) → (Translator.empty.run cs).2[j]? = some (.ok s) →
    (rawName ci ≠ rawName cj → r ≠ s) ∧ (Translator.empty.run cs).1.back r = rawName ci

/-- A string in which an underscore is never adjacent to another underscore or to a hyphen. -/
def Tame : AStr → Prop
  | [] => True
  | c :: s => (c = '_' → s.head? ≠ some '_' ∧ s.head? ≠ some '-') ∧ (c = '-' → s.head? ≠ some '_') ∧ Tame s

instance decTame : (s : AStr) → Decidable (Tame s)
  | [] => isTrue trivial
  | c :: s => by unfold Tame; exact @instDecidableAnd _ _ _ (@instDecidableAnd _ _ _ (decTame s))

/-! ### Lemmas -/

/-- The two dictionaries are inverse to each other, and only changed names are stored. -/
structure TrInv (t : Translator) : Prop where
  fwd : ∀ k v, dlookup t.d k = some v → dlookup t.inv v = some k
  bwd : ∀ k v, dlookup t.inv v = some k → dlookup t.d k = some v
  ne : ∀ k v, dlookup t.d k = some v → v ≠ k

theorem trInv_empty : TrInv Translator.empty :=
  ⟨by simp [Translator.empty, dlookup], by simp [Translator.empty, dlookup], by simp [Translator.empty, dlookup]⟩

/-- What one call can do. -/
theorem normalize_cases (t : Translator) (c : AStr × AStr) :
    (∃ r, dlookup t.d (rawName c) = some r ∧ t.normalize c.1 c.2 = (t, .ok r)) ∨
    (dlookup t.d (rawName c) = none ∧
      ((dlookup t.inv (rawName c)).isSome ∨ (dlookup t.inv (namePrefix c.2 ++ sanitize c.1)).isSome) ∧
      t.normalize c.1 c.2 = (t, .error .runtime)) ∨
    (dlookup t.d (rawName c) = none ∧ dlookup t.inv (rawName c) = none ∧
      namePrefix c.2 ++ sanitize c.1 = rawName c ∧ t.normalize c.1 c.2 = (t, .ok (rawName c))) ∨
    (dlookup t.d (rawName c) = none ∧ dlookup t.inv (rawName c) = none ∧
      dlookup t.inv (namePrefix c.2 ++ sanitize c.1) = none ∧ namePrefix c.2 ++ sanitize c.1 ≠ rawName c ∧
      t.normalize c.1 c.2 = (⟨dinsert t.d (rawName c) (namePrefix c.2 ++ sanitize c.1),
        dinsert t.inv (namePrefix c.2 ++ sanitize c.1) (rawName c)⟩, .ok (namePrefix c.2 ++ sanitize c.1))) := by
  unfold Translator.normalize
  simp only [rawName]
  cases h : dlookup t.d (namePrefix c.2 ++ c.1) with
  | some r => left; exact ⟨r, rfl, rfl⟩
  | none =>
    right
    by_cases h1 : ((dlookup t.inv (namePrefix c.2 ++ c.1)).isSome ||
        (dlookup t.inv (namePrefix c.2 ++ sanitize c.1)).isSome) = true
    · left; simp only [h1, if_true]; exact ⟨trivial, by simpa using h1, trivial⟩
    · right
      have h2 := h1
      rw [Bool.or_eq_true, not_or] at h2
      have ha : dlookup t.inv (namePrefix c.2 ++ c.1) = none := by simpa using h2.1
      have hb : dlookup t.inv (namePrefix c.2 ++ sanitize c.1) = none := by simpa using h2.2
      simp only [h1]
      by_cases h3 : namePrefix c.2 ++ sanitize c.1 = namePrefix c.2 ++ c.1
      · left; simp [h3, ha]
      · right; simp [h3, ha, hb]

theorem trInv_insert {t : Translator} (h : TrInv t) {k v : AStr} (h1 : dlookup t.d k = none)
    (h2 : dlookup t.inv v = none) (h3 : v ≠ k) : TrInv ⟨dinsert t.d k v, dinsert t.inv v k⟩ := by
  refine ⟨?_, ?_, ?_⟩
  · intro a b hab
    simp only [dlookup_dinsert] at hab ⊢
    by_cases e : k = a
    · simp only [e, if_true, Option.some.injEq] at hab; subst hab; simp [e]
    · simp only [e, if_false] at hab
      have := h.fwd a b hab
      have : v ≠ b := by rintro rfl; rw [h2] at this; cases this
      simp [this, h.fwd a b hab]
  · intro a b hab
    simp only [dlookup_dinsert] at hab ⊢
    by_cases e : v = b
    · simp only [e, if_true, Option.some.injEq] at hab; subst hab; simp [e]
    · simp only [e, if_false] at hab
      have := h.bwd a b hab
      have : k ≠ a := by rintro rfl; rw [h1] at this; cases this
      simp [this, h.bwd a b hab]
  · intro a b hab
    simp only [dlookup_dinsert] at hab
    by_cases e : k = a
    · simp only [e, if_true, Option.some.injEq] at hab; subst hab; subst e; exact h3
    · simp only [e, if_false] at hab; exact h.ne a b hab

theorem trInv_normalize {t : Translator} (h : TrInv t) (c : AStr × AStr) : TrInv (t.normalize c.1 c.2).1 := by
  rcases normalize_cases t c with ⟨r, _, e⟩ | ⟨_, _, e⟩ | ⟨_, _, _, e⟩ | ⟨h1, _, h3, h4, e⟩ <;> rw [e]
  · exact h
  · exact h
  · exact h
  · exact trInv_insert h h1 h3 h4

theorem inv_persist {t : Translator} {c : AStr × AStr} {k v : AStr} (h : dlookup t.inv v = some k) :
    dlookup (t.normalize c.1 c.2).1.inv v = some k := by
  rcases normalize_cases t c with ⟨r, _, e⟩ | ⟨_, _, e⟩ | ⟨_, _, _, e⟩ | ⟨_, _, h3, _, e⟩ <;> rw [e]
  · exact h
  · exact h
  · exact h
  · simp only [dlookup_dinsert]
    rw [if_neg]; · exact h
    rintro rfl; rw [h3] at h; cases h

theorem trInv_run {t : Translator} (h : TrInv t) (cs : List (AStr × AStr)) : TrInv (t.run cs).1 := by
  induction cs generalizing t with
  | nil => exact h
  | cons c cs ih => exact ih (trInv_normalize h c)

theorem inv_persist_run {t : Translator} {k v : AStr} (h : dlookup t.inv v = some k) (cs : List (AStr × AStr)) :
    dlookup (t.run cs).1.inv v = some k := by
  induction cs generalizing t with
  | nil => exact h
  | cons c cs ih => exact ih (inv_persist h)

/-- A changed answer is recorded. -/
theorem normalize_recorded {t : Translator} (h : TrInv t) {c : AStr × AStr} {r : AStr}
    (hr : (t.normalize c.1 c.2).2 = .ok r) (hne : r ≠ rawName c) :
    dlookup (t.normalize c.1 c.2).1.inv r = some (rawName c) := by
  rcases normalize_cases t c with ⟨s, h1, e⟩ | ⟨_, _, e⟩ | ⟨_, _, _, e⟩ | ⟨_, _, h3, _, e⟩ <;> rw [e] at hr ⊢
  · simp only [Except.ok.injEq] at hr; subst hr; exact h.fwd _ _ h1
  · cases hr
  · simp only [Except.ok.injEq] at hr; exact absurd hr.symm hne
  · simp only [Except.ok.injEq] at hr; subst hr; simp [dlookup_dinsert]

theorem run_recorded {t : Translator} (h : TrInv t) (cs : List (AStr × AStr)) (i : Nat) {c : AStr × AStr} {r : AStr}
    (hc : cs[i]? = some c) (hr : (t.run cs).2[i]? = some (.ok r)) (hne : r ≠ rawName c) :
    dlookup (t.run cs).1.inv r = some (rawName c) := by
  induction cs generalizing t i with
  | nil => simp at hc
  | cons c' cs ih =>
    cases i with
    | zero =>
      simp only [List.getElem?_cons_zero, Option.some.injEq] at hc; subst hc
      simp only [Translator.run, List.getElem?_cons_zero, Option.some.injEq] at hr
      exact inv_persist_run (normalize_recorded h hr hne) cs
    | succ i =>
      simp only [List.getElem?_cons_succ] at hc
      simp only [Translator.run, List.getElem?_cons_succ] at hr
      exact ih (trInv_normalize h c') i hc hr

/-- Every record stems from a call. -/
theorem run_record_origin {t : Translator} (cs : List (AStr × AStr)) {k v : AStr}
    (h : dlookup (t.run cs).1.inv v = some k) :
    dlookup t.inv v = some k ∨ ∃ (j : Nat) (c : AStr × AStr), cs[j]? = some c ∧ (t.run cs).2[j]? = some (.ok v) ∧
      rawName c = k := by
  induction cs generalizing t with
  | nil => exact Or.inl h
  | cons c cs ih =>
    rcases ih h with h | ⟨j, c', h1, h2, h3⟩
    · rcases normalize_cases t c with ⟨r, _, e⟩ | ⟨_, _, e⟩ | ⟨_, _, _, e⟩ | ⟨_, _, _, _, e⟩
      · rw [e] at h; exact Or.inl h
      · rw [e] at h; exact Or.inl h
      · rw [e] at h; exact Or.inl h
      · have h' := h
        rw [e] at h'
        simp only [dlookup_dinsert] at h'
        split at h'
        · rename_i ev
          right
          refine ⟨0, c, by simp, ?_, by simpa using h'⟩
          simp [Translator.run, e, ev]
        · exact Or.inl h'
    · exact Or.inr ⟨j + 1, c', by simpa using h1, by simpa [Translator.run] using h2, h3⟩

theorem run_answer_recorded {t : Translator} (h : TrInv t) (cs : List (AStr × AStr)) (j : Nat) {c : AStr × AStr}
    {r k : AStr} (hc : cs[j]? = some c) (hr : (t.run cs).2[j]? = some (.ok r)) (hk : dlookup t.inv r = some k) :
    rawName c = k := by
  induction cs generalizing t j with
  | nil => simp at hc
  | cons c' cs ih =>
    cases j with
    | zero =>
      simp only [List.getElem?_cons_zero, Option.some.injEq] at hc; subst hc
      simp only [Translator.run, List.getElem?_cons_zero, Option.some.injEq] at hr
      rcases normalize_cases t c' with ⟨s, h1, e⟩ | ⟨_, _, e⟩ | ⟨_, h2, _, e⟩ | ⟨_, _, h3, _, e⟩ <;> rw [e] at hr
      · simp only [Except.ok.injEq] at hr; subst hr
        have := h.fwd _ _ h1; rw [hk] at this; exact (Option.some.inj this).symm
      · cases hr
      · simp only [Except.ok.injEq] at hr; subst hr; rw [h2] at hk; cases hk
      · simp only [Except.ok.injEq] at hr; subst hr; rw [h3] at hk; cases hk
    | succ j =>
      simp only [List.getElem?_cons_succ] at hc
      simp only [Translator.run, List.getElem?_cons_succ] at hr
      exact ih (trInv_normalize h c') j hc hr (inv_persist hk)

theorem run_collision {t : Translator} (h : TrInv t) (cs : List (AStr × AStr)) {i j : Nat} (hij : i < j)
    {ci cj : AStr × AStr} {r : AStr} (hi : cs[i]? = some ci) (hj : cs[j]? = some cj)
    (hri : (t.run cs).2[i]? = some (.ok r)) (hrj : (t.run cs).2[j]? = some (.ok r)) (hne : rawName ci ≠ rawName cj) :
    r = rawName ci := by
  induction cs generalizing t i j with
  | nil => simp at hi
  | cons c' cs ih =>
    cases j with
    | zero => omega
    | succ j =>
      simp only [List.getElem?_cons_succ] at hj
      simp only [Translator.run, List.getElem?_cons_succ] at hrj
      cases i with
      | zero =>
        simp only [List.getElem?_cons_zero, Option.some.injEq] at hi; subst hi
        simp only [Translator.run, List.getElem?_cons_zero, Option.some.injEq] at hri
        by_contra hr
        exact hne (run_answer_recorded (trInv_normalize h c') cs j hj hrj (normalize_recorded h hri hr)).symm
      | succ i =>
        simp only [List.getElem?_cons_succ] at hi
        simp only [Translator.run, List.getElem?_cons_succ] at hri
        exact ih (trInv_normalize h c') (by omega) hi hj hri hrj

theorem sanitize_nil : sanitize [] = [] := rfl

theorem sanitize_cons (c : Char) (s : AStr) :
    sanitize (c :: s) = (if c = '-' then ['_', '_'] else [c]) ++ sanitize s := by
  simp [sanitize, List.flatMap_cons]

theorem sanitize_append (s t : AStr) : sanitize (s ++ t) = sanitize s ++ sanitize t := by
  simp [sanitize, List.flatMap_append]

theorem sanitize_noHyphen {s : AStr} (h : '-' ∉ s) : sanitize s = s := by
  induction s with
  | nil => rfl
  | cons c s ih =>
    simp only [List.mem_cons, not_or] at h
    rw [sanitize_cons, if_neg (Ne.symm h.1), ih h.2]; rfl

/-- The sanitized string starts with an underscore only if the string starts with an underscore or hyphen. -/
theorem sanitize_head {s : AStr} (h : (sanitize s).head? = some '_') : s.head? = some '_' ∨ s.head? = some '-' := by
  cases s with
  | nil => simp [sanitize_nil] at h
  | cons c s =>
    rw [sanitize_cons] at h
    by_cases e : c = '-'
    · right; simp [e]
    · left; simpa [e] using h

theorem sanitize_inj {s t : AStr} (hs : Tame s) (ht : Tame t) (h : sanitize s = sanitize t) : s = t := by
  induction s generalizing t with
  | nil =>
    cases t with
    | nil => rfl
    | cons d t =>
      rw [sanitize_nil, sanitize_cons] at h
      by_cases e : d = '-' <;> simp [e] at h
  | cons c s ih =>
    cases t with
    | nil =>
      rw [sanitize_nil, sanitize_cons] at h
      by_cases e : c = '-' <;> simp [e] at h
    | cons d t =>
      rw [sanitize_cons, sanitize_cons] at h
      by_cases e : c = '-' <;> by_cases f : d = '-'
      · subst e; subst f
        simp only [if_true, List.append_cancel_left_eq] at h
        rw [ih hs.2.2 ht.2.2 h]
      · simp only [e, f, if_true, if_false, List.cons_append, List.nil_append, List.cons.injEq] at h
        exfalso
        have h1 : (sanitize t).head? = some '_' := by rw [← h.2]; rfl
        rcases sanitize_head h1 with h2 | h2
        · exact (ht.1 h.1.symm).1 h2
        · exact (ht.1 h.1.symm).2 h2
      · simp only [e, f, if_true, if_false, List.cons_append, List.nil_append, List.cons.injEq] at h
        exfalso
        have h1 : (sanitize s).head? = some '_' := by rw [h.2]; rfl
        rcases sanitize_head h1 with h2 | h2
        · exact (hs.1 h.1).1 h2
        · exact (hs.1 h.1).2 h2
      · simp only [e, f, if_false, List.cons_append, List.nil_append, List.cons.injEq] at h
        rw [h.1, ih hs.2.2 ht.2.2 h.2]

theorem tame_append_right (s : AStr) {t : AStr} (h : Tame (s ++ t)) : Tame t := by
  induction s with
  | nil => exact h
  | cons c s ih => exact ih h.2.2

/-- A tame string is not the sanitized form of another string. -/
theorem sanitize_tame {s : AStr} (h : Tame (sanitize s)) : sanitize s = s := by
  induction s with
  | nil => rfl
  | cons c s ih =>
    rw [sanitize_cons] at h ⊢
    by_cases e : c = '-'
    · simp [e, Tame] at h
    · simp only [e, if_false, List.cons_append, List.nil_append] at h ⊢
      rw [ih h.2.2]

/-- All stored keys are tame and stored with their sanitized form. -/
def TameTr (t : Translator) : Prop := ∀ k v, dlookup t.d k = some v → Tame k ∧ v = sanitize k

theorem prefix_sanitize {c : AStr × AStr} (h : '-' ∉ c.2) : namePrefix c.2 ++ sanitize c.1 = sanitize (rawName c) := by
  rw [rawName, sanitize_append]
  congr 1
  refine (sanitize_noHyphen ?_).symm
  unfold namePrefix
  split <;> simp [h]

theorem tame_step {t : Translator} (h : TrInv t) (ht : TameTr t) {c : AStr × AStr} (hp : '-' ∉ c.2)
    (hc : Tame (rawName c)) :
    (t.normalize c.1 c.2).2 = .ok (sanitize (rawName c)) ∧ TameTr (t.normalize c.1 c.2).1 := by
  have hno : dlookup t.inv (rawName c) = none := by
    cases e : dlookup t.inv (rawName c) with
    | none => rfl
    | some k =>
      exfalso
      have h1 := h.bwd _ _ e
      have h2 := (ht _ _ h1).2
      rw [h2] at hc
      exact h.ne _ _ h1 (h2.trans (sanitize_tame hc))
  rcases normalize_cases t c with ⟨s, h1, e⟩ | ⟨h0, h1, e⟩ | ⟨_, _, h1, e⟩ | ⟨_, _, _, _, e⟩ <;> rw [e]
  · exact ⟨by rw [(ht _ _ h1).2], ht⟩
  · exfalso
    rw [hno, prefix_sanitize hp] at h1
    rcases h1 with h1 | h1
    · simp at h1
    · obtain ⟨k, hk⟩ := Option.isSome_iff_exists.mp h1
      have h2 := h.bwd _ _ hk
      have h3 := ht _ _ h2
      have := sanitize_inj hc h3.1 h3.2
      subst this
      rw [h0] at h2; cases h2
  · rw [prefix_sanitize hp] at h1; exact ⟨by simp only [h1], ht⟩
  · rw [prefix_sanitize hp]
    refine ⟨rfl, ?_⟩
    intro k v hkv
    simp only [dlookup_dinsert] at hkv
    split at hkv
    · rename_i ek
      subst ek
      exact ⟨hc, (Option.some.inj hkv).symm⟩
    · exact ht _ _ hkv

theorem tame_run {t : Translator} (h : TrInv t) (ht : TameTr t) (cs : List (AStr × AStr))
    (hp : ∀ c ∈ cs, '-' ∉ c.2 ∧ Tame (rawName c)) :
    (t.run cs).2 = cs.map (fun c => .ok (sanitize (rawName c))) ∧ TameTr (t.run cs).1 := by
  induction cs generalizing t with
  | nil => exact ⟨rfl, ht⟩
  | cons c cs ih =>
    obtain ⟨h1, h2⟩ := tame_step h ht (hp c (by simp)).1 (hp c (by simp)).2
    obtain ⟨h3, h4⟩ := ih (trInv_normalize h c) h2 (fun c' hc' => hp c' (by simp [hc']))
    exact ⟨by simp [Translator.run, h1, h3], h4⟩

/-! ### C39 -/

/-- The property is false: two symbols `a__b` and `a-b`, in this order, get the same ASP name and `back` no longer
recovers the first one. -/
theorem C39_refuted : ¬ C39_full := by
  intro h
  have h1 := h [("a__b".toList, []), ("a-b".toList, [])] 0 1 ("a__b".toList, []) ("a-b".toList, []) "a__b".toList
    "a__b".toList (by decide) (by decide) (by decide) (by decide)
  exact h1.1 (by decide) rfl

/-- A symbol that was accepted can be rejected later on: after the history above, the same call for `a__b` reports
a clash. -/
theorem C39_unstable_refuted : ∃ cs : List (AStr × AStr), ∃ c : AStr × AStr, ∃ r,
    (Translator.empty.run cs).2[0]? = some (.ok r) ∧ cs[0]? = some c ∧
    ((Translator.empty.run cs).1.normalize c.1 c.2).2 = .error .runtime :=
  ⟨[("a__b".toList, []), ("a-b".toList, [])], ("a__b".toList, []), "a__b".toList, by decide, by decide, by decide⟩

/-- C39, general history: an answer that differs from the symbol is reversed by `back` at any later time; an answer
that equals the symbol is, too, unless a later call gave that very name to another symbol. -/
theorem C39_reversible_partial (cs : List (AStr × AStr)) (i : Nat) (c : AStr × AStr) (r : AStr)
    (hc : cs[i]? = some c) (hr : (Translator.empty.run cs).2[i]? = some (.ok r)) :
    (r ≠ rawName c → (Translator.empty.run cs).1.back r = rawName c) ∧
    ((Translator.empty.run cs).1.back r = rawName c ∨
      (r = rawName c ∧ ∃ (j : Nat) (c' : AStr × AStr), cs[j]? = some c' ∧
        (Translator.empty.run cs).2[j]? = some (.ok r) ∧ rawName c' ≠ r)) := by
  have key : r ≠ rawName c → (Translator.empty.run cs).1.back r = rawName c := by
    intro hne
    simp [Translator.back, run_recorded trInv_empty cs i hc hr hne]
  refine ⟨key, ?_⟩
  by_cases hne : r = rawName c
  · cases e : dlookup (Translator.empty.run cs).1.inv r with
    | none => left; rw [Translator.back, e]; exact hne
    | some k =>
      right
      refine ⟨hne, ?_⟩
      rcases run_record_origin cs e with h | ⟨j, c', h1, h2, h3⟩
      · simp [Translator.empty, dlookup] at h
      · refine ⟨j, c', h1, h2, ?_⟩
        have inv := trInv_run trInv_empty cs
        exact h3 ▸ (inv.ne _ _ (inv.bwd _ _ e)).symm
  · exact Or.inl (key hne)

/-- C39, general history: two different symbols get the same name only in one situation, when the first one already is
that name (it was left unchanged) and the second one is changed into it afterwards. -/
theorem C39_injective_partial (cs : List (AStr × AStr)) (i j : Nat) (hij : i < j) (ci cj : AStr × AStr) (r s : AStr)
    (hi : cs[i]? = some ci) (hj : cs[j]? = some cj) (hri : (Translator.empty.run cs).2[i]? = some (.ok r))
    (hrj : (Translator.empty.run cs).2[j]? = some (.ok s)) (hne : rawName ci ≠ rawName cj) :
    r ≠ s ∨ (r = rawName ci ∧ s = rawName ci ∧ s ≠ rawName cj) := by
  by_cases h : r = s
  · subst h
    have := run_collision trInv_empty cs hij hi hj hri hrj hne
    exact Or.inr ⟨this, this, this ▸ hne⟩
  · exact Or.inl h

/-- C39 for tame symbols: when no symbol has an underscore next to an underscore or hyphen (and prefixes have no hyphen), no
call ever reports a clash, distinct symbols get distinct names and `back` always recovers the symbol. -/
theorem C39_tame (cs : List (AStr × AStr)) (hp : ∀ c ∈ cs, '-' ∉ c.2 ∧ Tame (rawName c)) :
    (∀ (i : Nat) (c : AStr × AStr), cs[i]? = some c → ∃ r, (Translator.empty.run cs).2[i]? = some (.ok r) ∧
      (Translator.empty.run cs).1.back r = rawName c) ∧
    ∀ (i j : Nat) (ci cj : AStr × AStr) (r : AStr), cs[i]? = some ci → cs[j]? = some cj →
      (Translator.empty.run cs).2[i]? = some (.ok r) → (Translator.empty.run cs).2[j]? = some (.ok r) →
      rawName ci = rawName cj := by
  obtain ⟨h1, h2⟩ := tame_run trInv_empty (by intro k v h; simp [Translator.empty, dlookup] at h) cs hp
  have ans : ∀ (i : Nat) (c : AStr × AStr), cs[i]? = some c →
      (Translator.empty.run cs).2[i]? = some (.ok (sanitize (rawName c))) := by
    intro i c hc; simp [h1, hc]
  constructor
  · intro i c hc
    refine ⟨_, ans i c hc, ?_⟩
    obtain ⟨_, h4⟩ := C39_reversible_partial cs i c _ hc (ans i c hc)
    rcases h4 with h4 | ⟨h5, j, c', h6, h7, h8⟩
    · exact h4
    · exfalso
      rw [ans j c' h6] at h7
      simp only [Option.some.injEq, Except.ok.injEq] at h7
      have t1 := (hp c (List.mem_of_getElem? hc)).2
      have t2 := (hp c' (List.mem_of_getElem? h6)).2
      exact h8 ((sanitize_inj t2 t1 h7).trans h5.symm)
  · intro i j ci cj r hi hj hri hrj
    rw [ans i ci hi] at hri
    rw [ans j cj hj] at hrj
    simp only [Option.some.injEq, Except.ok.injEq] at hri hrj
    exact sanitize_inj (hp ci (List.mem_of_getElem? hi)).2 (hp cj (List.mem_of_getElem? hj)).2 (hri.trans hrj.symm)

/-- C39: a reported clash is a real one: some other symbol was earlier given a changed name, and that name is either this
symbol itself or its own sanitized form. -/
theorem C39_clash (cs : List (AStr × AStr)) (c : AStr × AStr)
    (h : ((Translator.empty.run cs).1.normalize c.1 c.2).2 = .error .runtime) :
    ∃ (j : Nat) (c' : AStr × AStr) (r : AStr), cs[j]? = some c' ∧ (Translator.empty.run cs).2[j]? = some (.ok r) ∧
      r ≠ rawName c' ∧ rawName c' ≠ rawName c ∧ (r = rawName c ∨ r = namePrefix c.2 ++ sanitize c.1) := by
  have inv := trInv_run trInv_empty cs
  have orig : ∀ v k, dlookup (Translator.empty.run cs).1.inv v = some k → ∃ (j : Nat) (c' : AStr × AStr), cs[j]? = some c' ∧
      (Translator.empty.run cs).2[j]? = some (.ok v) ∧ rawName c' = k := by
    intro v k hk
    rcases run_record_origin cs hk with h | h
    · simp [Translator.empty, dlookup] at h
    · exact h
  rcases normalize_cases (Translator.empty.run cs).1 c with ⟨s, _, e⟩ | ⟨h0, h1, e⟩ | ⟨_, _, h1, e⟩ | ⟨_, _, _, _, e⟩ <;>
    rw [e] at h
  · cases h
  · rcases h1 with h1 | h1
    · obtain ⟨k, hk⟩ := Option.isSome_iff_exists.mp h1
      obtain ⟨j, c', h2, h3, h4⟩ := orig _ _ hk
      refine ⟨j, c', _, h2, h3, ?_, ?_, Or.inl rfl⟩
      · rw [h4]; exact inv.ne _ _ (inv.bwd _ _ hk)
      · rw [h4]; exact (inv.ne _ _ (inv.bwd _ _ hk)).symm
    · obtain ⟨k, hk⟩ := Option.isSome_iff_exists.mp h1
      obtain ⟨j, c', h2, h3, h4⟩ := orig _ _ hk
      refine ⟨j, c', _, h2, h3, ?_, ?_, Or.inr rfl⟩
      · rw [h4]; exact inv.ne _ _ (inv.bwd _ _ hk)
      · rintro e2
        rw [h4] at e2; subst e2
        rw [inv.bwd _ _ hk] at h0; cases h0
  · cases h
  · cases h

/-- Non-vacuity: a tame history with hyphens, underscores and prefixes; a clash that is reported; an unchanged symbol. -/
example : (∀ c ∈ [("on-table".toList, "atom".toList), ("pick_up".toList, "action".toList), ("b1".toList, []), ("on-table".toList, [])],
    '-' ∉ c.2 ∧ Tame (rawName c)) := by decide
example : ((Translator.empty.run [("a-b".toList, [])]).1.normalize "a__b".toList []).2 = .error .runtime := by decide
example : (Translator.empty.run [("a-b".toList, "p".toList), ("a-b".toList, "p".toList), ("c".toList, [])]).2
    = [.ok "p_a__b".toList, .ok "p_a__b".toList, .ok "c".toList] := by decide

end Tarski
